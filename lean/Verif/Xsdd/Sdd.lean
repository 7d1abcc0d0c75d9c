import Verif.Smt.Walk
import Mathlib.Data.List.Basic
import Mathlib.Data.Finset.Union

/-!
# Sentential decision diagrams and their traversal

Model of /repo/pywmi/engines/xsdd/semiring.py and of the traversal in /repo/pywmi/engines/xsdd/sdd_iterator.py (with
`smooth=False` and `smooth_to_root=False`, the values `walk` and `amc` use).

The nodes of the external library pysdd are modelled as trees; pysdd keeps one node object per structure, so equality
of trees stands for identity of nodes.
-/

namespace Pywmi

/-- A node as the code sees it: `is_true`, `is_false`, `is_literal`/`literal`, `is_decision`/`elements`
(/repo/pywmi/engines/xsdd/semiring.py:113-127, /repo/pywmi/engines/xsdd/sdd_iterator.py:115-158). -/
inductive Sdd where
  | tt : Sdd
  | ff : Sdd
  | lit : ℤ → Sdd
  | dec : List (Sdd × Sdd) → Sdd

namespace Sdd

theorem induct {P : Sdd → Prop} (tt : P .tt) (ff : P .ff) (lit : ∀ l, P (.lit l))
    (dec : ∀ es : List (Sdd × Sdd), (∀ e ∈ es, P e.1 ∧ P e.2) → P (.dec es)) (s : Sdd) : P s :=
  Sdd.rec (motive_1 := P) (motive_2 := fun es => ∀ e ∈ es, P e.1 ∧ P e.2) (motive_3 := fun e => P e.1 ∧ P e.2)
    tt ff lit (fun es ih => dec es ih) (by simp)
    (fun e es he hes x hx => by
      rcases List.mem_cons.mp hx with rfl | hx
      · exact he
      · exact hes x hx)
    (fun p s hp hs => ⟨hp, hs⟩) s

mutual
/-- Structural equality (node identity). -/
def beq : Sdd → Sdd → Bool
  | .tt, .tt => true
  | .ff, .ff => true
  | .lit a, .lit b => a = b
  | .dec es, .dec fs => beqList es fs
  | _, _ => false
/-- Structural equality of element lists. -/
def beqList : List (Sdd × Sdd) → List (Sdd × Sdd) → Bool
  | [], [] => true
  | (p, s) :: es, (q, t) :: fs => beq p q && beq s t && beqList es fs
  | _, _ => false
end

theorem beqList_iff (es : List (Sdd × Sdd)) (h : ∀ e ∈ es, (∀ b, beq e.1 b = true ↔ e.1 = b) ∧ ∀ b, beq e.2 b = true ↔ e.2 = b) :
    ∀ fs, beqList es fs = true ↔ es = fs := by
  induction es with
  | nil => intro fs; cases fs <;> simp [beqList]
  | cons e es ih =>
    intro fs
    obtain ⟨p, s⟩ := e
    cases fs with
    | nil => simp [beqList]
    | cons f fs =>
      obtain ⟨q, t⟩ := f
      have h1 := h (p, s) (by simp)
      simp only [beqList, Bool.and_eq_true, List.cons.injEq, Prod.mk.injEq]
      rw [h1.1, h1.2, ih fun x hx => h x (by simp [hx])]

theorem beq_iff (a : Sdd) : ∀ b, beq a b = true ↔ a = b := by
  induction a using Sdd.induct with
  | tt => intro b; cases b <;> simp [beq]
  | ff => intro b; cases b <;> simp [beq]
  | lit l => intro b; cases b <;> simp [beq]
  | dec es ih => intro b; cases b <;> simp [beq, beqList_iff es ih]

instance : DecidableEq Sdd := fun a b =>
  if h : beq a b = true then .isTrue ((beq_iff a b).mp h) else .isFalse fun e => h ((beq_iff a b).mpr e)

mutual
/-- Number of nodes of the tree: bound on the recursion depth of the traversal. -/
def size : Sdd → ℕ
  | .tt => 1
  | .ff => 1
  | .lit _ => 1
  | .dec es => 1 + sizeList es
/-- Sum of the sizes. -/
def sizeList : List (Sdd × Sdd) → ℕ
  | [] => 0
  | (p, s) :: es => size p + size s + sizeList es
end

theorem size_mem {es : List (Sdd × Sdd)} {e : Sdd × Sdd} (h : e ∈ es) :
    e.1.size < (Sdd.dec es).size ∧ e.2.size < (Sdd.dec es).size := by
  have key : ∀ es : List (Sdd × Sdd), e ∈ es → e.1.size + e.2.size ≤ sizeList es := by
    intro es
    induction es with
    | nil => simp
    | cons f es ih =>
      obtain ⟨p, s⟩ := f
      intro h
      rcases List.mem_cons.mp h with rfl | h
      · simp [sizeList]
      · have := ih h; simp only [sizeList]; omega
  have := key es h
  simp only [size]; omega

end Sdd

/-- A walker over SDDs (`SddWalker`, /repo/pywmi/engines/xsdd/semiring.py:11-25).  The node arguments, which serve for
logging and for the bookkeeping of `VariableTagAnalysis`, are left out. -/
structure SddWalker (R : Type) where
  onTrue : Except PyErr R
  onFalse : Except PyErr R
  onAnd : R → R → Except PyErr R
  onOr : List R → Except PyErr R
  onLit : ℤ → Except PyErr R

namespace SddWalker
variable {R : Type}

/-- The recursive calls on the primes and subs of a decision node, in order
(/repo/pywmi/engines/xsdd/sdd_iterator.py:140-142). -/
def callPairs : List (Sdd × Sdd) → (List (R × R) → Prog Sdd R) → Prog Sdd R
  | [], k => k []
  | (p, s) :: es, k => .call p fun a => .call s fun b => callPairs es fun rs => k ((a, b) :: rs)

/-- `walk_and` on every pair of results and `walk_or` on the list (/repo/pywmi/engines/xsdd/semiring.py:124-140). -/
def combine (w : SddWalker R) (rs : List (R × R)) : Except PyErr R :=
  match Prog.mapE (fun p => w.onAnd p.1 p.2) rs with
  | .ok xs => w.onOr xs
  | .error e => .error e

/-- One call of `depth_first_rec` with `walk_callback` (/repo/pywmi/engines/xsdd/sdd_iterator.py:115-161,
/repo/pywmi/engines/xsdd/semiring.py:111-140). -/
def body (w : SddWalker R) : Sdd → Prog Sdd R
  | .tt => Prog.ofExcept w.onTrue
  | .ff => Prog.ofExcept w.onFalse
  | .lit l => Prog.ofExcept (w.onLit l)
  | .dec es => callPairs es fun rs => Prog.ofExcept (w.combine rs)

/-- `walk` (/repo/pywmi/engines/xsdd/semiring.py:143-147): a depth-first traversal that keeps the result of every node in
a dictionary, so that a shared node is evaluated once. -/
def walk (w : SddWalker R) (s : Sdd) : Except PyErr R := (cwalk w.body Sdd.size id s []).1

end SddWalker

/-- A semiring as `SemiringWalker` uses it (`Semiring`, /repo/pywmi/engines/xsdd/semiring.py:28-51). -/
structure Semi (R : Type) where
  one : R
  zero : R
  times : R → R → Except PyErr R
  plus : R → R → Except PyErr R
  weight : ℤ → Except PyErr R

namespace Semi
variable {R : Type}

/-- `Semiring.weight` for a semiring given by `positive_weight` and `negate`
(/repo/pywmi/engines/xsdd/semiring.py:47-51). -/
def signed (pos : ℕ → Except PyErr R) (neg : R → R) (l : ℤ) : Except PyErr R :=
  if l < 0 then
    match pos l.natAbs with
    | .ok r => .ok (neg r)
    | .error e => .error e
  else pos l.natAbs

/-- The loop over `plus` (/repo/pywmi/engines/xsdd/semiring.py:73-76). -/
def sumFrom (S : Semi R) : R → List R → Except PyErr R
  | r, [] => .ok r
  | r, x :: xs =>
    match S.plus r x with
    | .ok r' => S.sumFrom r' xs
    | .error e => .error e

/-- `SemiringWalker` (/repo/pywmi/engines/xsdd/semiring.py:54-79). -/
def walker (S : Semi R) : SddWalker R where
  onTrue := .ok S.one
  onFalse := .ok S.zero
  onAnd := S.times
  onOr
    | [] => .ok S.zero
    | [r] => .ok r
    | r :: rs => S.sumFrom r rs
  onLit := S.weight

/-- `amc` (/repo/pywmi/engines/xsdd/semiring.py:105-107). -/
def amc (S : Semi R) (s : Sdd) : Except PyErr R := S.walker.walk s

end Semi

/-- `WMCSemiring` (/repo/pywmi/engines/xsdd/semiring.py:82-102); Python floats are idealised to the numbers of a field.
A variable without weight gives a KeyError. -/
def wmcSemi {K : Type} [Ring K] (weights : ℕ → Option K) : Semi K where
  one := 1
  zero := 0
  times a b := .ok (a * b)
  plus a b := .ok (a + b)
  weight := Semi.signed (fun n => match weights n with | some w => .ok w | none => .error .keyError) fun a => 1 - a

end Pywmi
