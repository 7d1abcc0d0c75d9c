import Mathlib.Algebra.Order.Field.Basic
import Mathlib.Data.Rat.Cast.Order
import Mathlib.Algebra.BigOperators.Group.List.Basic
import Verif.Smt.Formula

set_option linter.unusedSectionVars false
set_option linter.unusedSimpArgs false

/-!
# pysmt terms with integers

The readers of SMT-LIB and MiniZinc files build terms over Booleans, integers and reals.  `Formula` has no integers, so
they have a term language of their own.  pysmt itself is not in /repo: the definitions follow its documented behaviour
(constructors check types; `And`, `Or`, `Plus`, `Times` of one argument return it unchecked; `Not` removes a double negation).
-/

namespace Pywmi

/-- Types of pysmt that the readers use. -/
inductive PTy
  | bool | int | real
  deriving DecidableEq, Repr

/-- pysmt terms. -/
inductive Pt
  | boolC (b : Bool)
  | intC (z : ℤ)
  | realC (q : ℚ)
  | sym (name : String) (ty : PTy)
  | and (ps : List Pt)
  | or (ps : List Pt)
  | not (p : Pt)
  | implies (l r : Pt)
  | iff (l r : Pt)
  | equals (l r : Pt)
  | le (l r : Pt)
  | lt (l r : Pt)
  | plus (ps : List Pt)
  | times (ps : List Pt)
  | minus (l r : Pt)
  | div (l r : Pt)
  | ite (c t e : Pt)
  | toReal (p : Pt)

mutual
/-- The type of a term; `none` for terms that pysmt's type checker rejects. -/
def Pt.ty : Pt → Option PTy
  | .boolC _ => some .bool
  | .intC _ => some .int
  | .realC _ => some .real
  | .sym _ t => some t
  | .and ps => if Pt.tyAll .bool ps then some .bool else none
  | .or ps => if Pt.tyAll .bool ps then some .bool else none
  | .not p => if p.ty = some .bool then some .bool else none
  | .implies l r => if l.ty = some .bool ∧ r.ty = some .bool then some .bool else none
  | .iff l r => if l.ty = some .bool ∧ r.ty = some .bool then some .bool else none
  | .equals l r =>
    if (l.ty = some .int ∧ r.ty = some .int) ∨ (l.ty = some .real ∧ r.ty = some .real) then some .bool else none
  | .le l r =>
    if (l.ty = some .int ∧ r.ty = some .int) ∨ (l.ty = some .real ∧ r.ty = some .real) then some .bool else none
  | .lt l r =>
    if (l.ty = some .int ∧ r.ty = some .int) ∨ (l.ty = some .real ∧ r.ty = some .real) then some .bool else none
  | .plus ps => if Pt.tyAll .int ps then some .int else if Pt.tyAll .real ps then some .real else none
  | .times ps => if Pt.tyAll .int ps then some .int else if Pt.tyAll .real ps then some .real else none
  | .minus l r =>
    if l.ty = some .int ∧ r.ty = some .int then some .int
    else if l.ty = some .real ∧ r.ty = some .real then some .real else none
  | .div l r => if l.ty = some .real ∧ r.ty = some .real then some .real else none
  | .ite c t e => if c.ty = some .bool ∧ t.ty = e.ty then t.ty else none
  | .toReal p => if p.ty = some .int then some .real else none
/-- All terms of a list have a type. -/
def Pt.tyAll (t : PTy) : List Pt → Bool
  | [] => true
  | p :: ps => (p.ty = some t) && Pt.tyAll t ps
end

/-- A Boolean or a number. -/
inductive PVal (K : Type)
  | b (x : Bool)
  | n (x : K)

/-- The truth value of a value. -/
def PVal.toB {K : Type} : PVal K → Bool
  | .b x => x
  | .n _ => false

/-- The number of a value. -/
def PVal.toN {K : Type} [Zero K] : PVal K → K
  | .b _ => 0
  | .n x => x

section
variable {K : Type} [Field K] [LinearOrder K] [IsStrictOrderedRing K]

mutual
/-- SPEC: the value of a term at an assignment.  Integers are the integers of the field; division by zero has the value
zero, one of the values that SMT-LIB allows. -/
def Pt.den (σ : Env K) : Pt → PVal K
  | .boolC b => .b b
  | .intC z => .n (z : K)
  | .realC q => .n (q : K)
  | .sym x .bool => .b (σ.b x)
  | .sym x _ => .n (σ.r x)
  | .and ps => .b ((Pt.dens σ ps).all PVal.toB)
  | .or ps => .b ((Pt.dens σ ps).any PVal.toB)
  | .not p => .b !(p.den σ).toB
  | .implies l r => .b (!(l.den σ).toB || (r.den σ).toB)
  | .iff l r => .b ((l.den σ).toB == (r.den σ).toB)
  | .equals l r => .b (decide ((l.den σ).toN = (r.den σ).toN))
  | .le l r => .b (decide ((l.den σ).toN ≤ (r.den σ).toN))
  | .lt l r => .b (decide ((l.den σ).toN < (r.den σ).toN))
  | .plus ps => .n ((Pt.dens σ ps).map PVal.toN).sum
  | .times ps => .n ((Pt.dens σ ps).map PVal.toN).prod
  | .minus l r => .n ((l.den σ).toN - (r.den σ).toN)
  | .div l r => .n ((l.den σ).toN / (r.den σ).toN)
  | .ite c t e => if (c.den σ).toB then t.den σ else e.den σ
  | .toReal p => p.den σ
/-- SPEC: the values of a list. -/
def Pt.dens (σ : Env K) : List Pt → List (PVal K)
  | [] => []
  | p :: ps => p.den σ :: Pt.dens σ ps
end

theorem Pt.dens_eq (σ : Env K) (ps : List Pt) : Pt.dens σ ps = ps.map (Pt.den σ) := by
  induction ps with
  | nil => rfl
  | cons p ps ih => simp [Pt.dens, ih]
end

theorem Pt.tyAll_iff (t : PTy) (ps : List Pt) : Pt.tyAll t ps = true ↔ ∀ p ∈ ps, p.ty = some t := by
  induction ps with
  | nil => simp [Pt.tyAll]
  | cons p ps ih => simp [Pt.tyAll, ih]

/-! ### Constructors -/

/-- `create_node` of pysmt: the type checker runs on every new node. -/
def pNode (p : Pt) : Except PyErr Pt := if p.ty.isSome then .ok p else .error .other

/-- `And` of pysmt. -/
def pAnd : List Pt → Except PyErr Pt
  | [] => .ok (.boolC true)
  | [p] => .ok p
  | ps => pNode (.and ps)
/-- `Or` of pysmt. -/
def pOr : List Pt → Except PyErr Pt
  | [] => .ok (.boolC false)
  | [p] => .ok p
  | ps => pNode (.or ps)
/-- `Plus` of pysmt. -/
def pPlus : List Pt → Except PyErr Pt
  | [] => .error .typeError
  | [p] => .ok p
  | ps => pNode (.plus ps)
/-- `Times` of pysmt. -/
def pTimes : List Pt → Except PyErr Pt
  | [] => .error .typeError
  | [p] => .ok p
  | ps => pNode (.times ps)
/-- `Not` of pysmt. -/
def pNot : Pt → Except PyErr Pt
  | .not p => .ok p
  | p => pNode (.not p)
/-- `EqualsOrIff` of pysmt. -/
def pEqualsOrIff (l r : Pt) : Except PyErr Pt := if l.ty = some .bool then pNode (.iff l r) else pNode (.equals l r)
/-- `ToReal` of pysmt: reals stay, integer constants become real constants. -/
def pToReal (p : Pt) : Except PyErr Pt :=
  match p.ty with
  | some .real => .ok p
  | some .int => match p with
    | .intC z => .ok (.realC z)
    | p => pNode (.toReal p)
  | _ => .error .other
/-- `Div` of pysmt: a constant divisor becomes a factor; the constant zero is an error (`Fraction(1) / 0`). -/
def pDiv (l r : Pt) : Except PyErr Pt :=
  match r with
  | .realC q => if q = 0 then .error .zeroDivision else pTimes [l, .realC q⁻¹]
  | r => pNode (.div l r)
/-- `Xor` of pysmt. -/
def pXor (l r : Pt) : Except PyErr Pt :=
  match pNode (.iff l r) with
  | .ok p => pNot p
  | .error e => .error e
/-- `NotEquals` of pysmt. -/
def pNotEquals (l r : Pt) : Except PyErr Pt :=
  match pNode (.equals l r) with
  | .ok p => pNot p
  | .error e => .error e

/-- A value is a Boolean. -/
def PVal.isB {K : Type} : PVal K → Bool
  | .b _ => true
  | .n _ => false

/-- What a term stands for: it has a type, and its value is given. -/
structure Stands {K : Type} [Field K] [LinearOrder K] (p : Pt) (t : PTy) (v : Env K → PVal K) : Prop where
  ty : p.ty = some t
  den : ∀ σ, p.den σ = v σ
  kind : ∀ σ, (v σ).isB = decide (t = .bool)

section
variable {K : Type} [Field K] [LinearOrder K] [IsStrictOrderedRing K]

theorem pNode_ok {p q : Pt} (h : pNode p = .ok q) : q = p ∧ p.ty.isSome := by
  unfold pNode at h
  split at h
  · cases h; exact ⟨rfl, ‹_›⟩
  · cases h

theorem PVal.eq_b {v : PVal K} (h : v.isB = true) : v = .b v.toB := by cases v <;> simp_all [isB, toB]
theorem PVal.eq_n {v : PVal K} (h : v.isB = false) : v = .n v.toN := by cases v <;> simp_all [isB, toN]

theorem Stands.toBool {p : Pt} {v : Env K → PVal K} (h : Stands p .bool v) (σ : Env K) : v σ = .b (v σ).toB :=
  PVal.eq_b (h.kind σ)

theorem Stands.toNum {p : Pt} {t : PTy} (ht : t ≠ .bool) {v : Env K → PVal K} (h : Stands p t v) (σ : Env K) :
    v σ = .n (v σ).toN := PVal.eq_n (by simpa [ht] using h.kind σ)

/-- The value of a typed term is of the kind of its type. -/
theorem Pt.den_kind : ∀ (p : Pt) {t : PTy}, p.ty = some t → ∀ σ : Env K, (p.den σ).isB = decide (t = .bool)
  | .boolC _, t, h, σ | .intC _, t, h, σ | .realC _, t, h, σ => by
    simp only [Pt.ty, Option.some.injEq] at h; subst h; simp [Pt.den, PVal.isB]
  | .sym _ t', t, h, σ => by
    simp only [Pt.ty, Option.some.injEq] at h; subst h; cases t' <;> simp [Pt.den, PVal.isB]
  | .and _, t, h, σ | .or _, t, h, σ | .not _, t, h, σ | .implies _ _, t, h, σ | .iff _ _, t, h, σ | .equals _ _, t, h, σ
  | .le _ _, t, h, σ | .lt _ _, t, h, σ => by
    simp only [Pt.ty] at h
    split at h
    · cases h; simp [Pt.den, PVal.isB]
    · cases h
  | .plus _, t, h, σ | .times _, t, h, σ | .minus _ _, t, h, σ => by
    simp only [Pt.ty] at h
    split at h
    · cases h; simp [Pt.den, PVal.isB]
    · split at h
      · cases h; simp [Pt.den, PVal.isB]
      · cases h
  | .div _ _, t, h, σ => by
    simp only [Pt.ty] at h
    split at h
    · cases h; simp [Pt.den, PVal.isB]
    · cases h
  | .ite c a b, t, h, σ => by
    simp only [Pt.ty] at h
    split at h
    · rename_i hc
      have ha := Pt.den_kind a h σ
      have hb := Pt.den_kind b (hc.2 ▸ h) σ
      simp only [Pt.den]
      split <;> assumption
    · cases h
  | .toReal p, t, h, σ => by
    simp only [Pt.ty] at h
    split at h
    · rename_i hp
      cases h
      simpa [Pt.den] using Pt.den_kind p hp σ
    · cases h

/-- `ToReal` keeps the value. -/
theorem pToReal_stands {p q : Pt} {t : PTy} {v : Env K → PVal K} (h : Stands p t v) (hq : pToReal p = .ok q) :
    t ≠ .bool ∧ Stands q .real v := by
  unfold pToReal at hq
  rw [h.ty] at hq
  cases t with
  | bool => cases hq
  | real =>
    cases hq
    exact ⟨by simp, h⟩
  | int =>
    refine ⟨by simp, ?_⟩
    dsimp only at hq
    split at hq
    · cases hq
      exact ⟨rfl, fun σ => by rw [← h.den]; simp [Pt.den], fun σ => by simpa using h.kind σ⟩
    · obtain ⟨rfl, _⟩ := pNode_ok hq
      exact ⟨by simp [Pt.ty, h.ty], fun σ => by rw [← h.den]; simp [Pt.den], fun σ => by simpa using h.kind σ⟩

/-- `ToReal` succeeds on numbers. -/
theorem pToReal_ok {p : Pt} {t : PTy} (ht : t ≠ .bool) (h : p.ty = some t) : ∃ q, pToReal p = .ok q ∧ q.ty = some .real := by
  unfold pToReal
  rw [h]
  cases t with
  | bool => exact absurd rfl ht
  | real => exact ⟨p, rfl, h⟩
  | int =>
    dsimp only
    split
    · exact ⟨_, rfl, rfl⟩
    · exact ⟨.toReal p, by simp [pNode, Pt.ty, h], by simp [Pt.ty, h]⟩
end

end Pywmi
