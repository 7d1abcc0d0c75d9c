import Mathlib.Algebra.Order.Field.Basic
import Mathlib.Data.Rat.Cast.Order
import Mathlib.Algebra.Order.Ring.Rat

/-!
# SMT formulas (pysmt `FNode`s) and their mathematical meaning

`Formula` is the model of the pysmt `FNode`s that pywmi walks over.  The node kinds are the
ones dispatched by `SmtWalker.walk_smt` (/repo/pywmi/smt_walk.py:53-95).

`Formula.truth` and `Formula.value` are the *specification*: the textbook meaning of a formula
at an assignment.  They are not a model of any code.
-/

namespace Pywmi

/-- Python exceptions that the modelled code can raise (used as values). -/
inductive PyErr where
  | valueError | typeError | indexError | keyError | assertionError | notImplemented
  | runtimeError | zeroDivision | attributeError | samplingError | notFlat | fuel
  | parseError | installError | osError | other
deriving DecidableEq, Repr

/-- pysmt types used by pywmi (`smt.BOOL`, `smt.REAL`); models `pysmt.typing` as used in
/repo/pywmi/domain.py:3-4.  INT is not modelled. -/
inductive Ty where
  | bool | real
deriving DecidableEq, Repr

/-- pysmt `FNode`s, one constructor per node kind handled by
/repo/pywmi/smt_walk.py:53-95.  Constants carry exact rationals (pysmt stores `Fraction`s). -/
inductive Formula where
  | and (args : List Formula)
  | or (args : List Formula)
  | implies (l r : Formula)
  | not (a : Formula)
  | times (args : List Formula)
  | plus (args : List Formula)
  | minus (l r : Formula)
  | ite (c t e : Formula)
  | pow (b e : Formula)
  | le (l r : Formula)
  | lt (l r : Formula)
  | equals (l r : Formula)
  | iff (l r : Formula)
  | sym (name : String) (ty : Ty)
  | boolC (b : Bool)
  | realC (q : ℚ)
deriving Repr, Inhabited

namespace Formula

/-- Induction principle for formulas with membership hypotheses for argument lists. -/
theorem induct {P : Formula → Prop}
    (and : ∀ as, (∀ a ∈ as, P a) → P (.and as))
    (or : ∀ as, (∀ a ∈ as, P a) → P (.or as))
    (implies : ∀ l r, P l → P r → P (.implies l r))
    (not : ∀ a, P a → P (.not a))
    (times : ∀ as, (∀ a ∈ as, P a) → P (.times as))
    (plus : ∀ as, (∀ a ∈ as, P a) → P (.plus as))
    (minus : ∀ l r, P l → P r → P (.minus l r))
    (ite : ∀ c t e, P c → P t → P e → P (.ite c t e))
    (pow : ∀ b e, P b → P e → P (.pow b e))
    (le : ∀ l r, P l → P r → P (.le l r))
    (lt : ∀ l r, P l → P r → P (.lt l r))
    (equals : ∀ l r, P l → P r → P (.equals l r))
    (iff : ∀ l r, P l → P r → P (.iff l r))
    (sym : ∀ n t, P (.sym n t))
    (boolC : ∀ b, P (.boolC b))
    (realC : ∀ q, P (.realC q)) : ∀ f, P f := by
  intro f
  refine Formula.rec (motive_1 := P) (motive_2 := fun as => ∀ a ∈ as, P a)
    and or implies not times plus minus ite pow le lt equals iff sym boolC realC ?_ ?_ f
  · intro a ha; cases ha
  · intro h t hh ht a ha
    rcases List.mem_cons.mp ha with rfl | h'
    · exact hh
    · exact ht a h'

/- Structural equality (pysmt `FNode`s are hash-consed, `==` is identity of structure). -/
mutual
/-- Boolean structural equality of formulas (pysmt hash-consing makes `==` structural). -/
def beq : Formula → Formula → Bool
  | .and a, .and b => beqList a b
  | .or a, .or b => beqList a b
  | .implies a b, .implies c d => beq a c && beq b d
  | .not a, .not b => beq a b
  | .times a, .times b => beqList a b
  | .plus a, .plus b => beqList a b
  | .minus a b, .minus c d => beq a c && beq b d
  | .ite a b c, .ite d e f => beq a d && (beq b e && beq c f)
  | .pow a b, .pow c d => beq a c && beq b d
  | .le a b, .le c d => beq a c && beq b d
  | .lt a b, .lt c d => beq a c && beq b d
  | .equals a b, .equals c d => beq a c && beq b d
  | .iff a b, .iff c d => beq a c && beq b d
  | .sym n t, .sym m s => n == m && t == s
  | .boolC a, .boolC b => a == b
  | .realC a, .realC b => decide (a = b)
  | _, _ => false
/-- Structural equality of argument lists. -/
def beqList : List Formula → List Formula → Bool
  | [], [] => true
  | a :: as, b :: bs => beq a b && beqList as bs
  | _, _ => false
end

theorem beqList_iff (as : List Formula) (h : ∀ a ∈ as, ∀ b, beq a b = true ↔ a = b) :
    ∀ bs, beqList as bs = true ↔ as = bs := by
  induction as with
  | nil => intro bs; cases bs <;> simp [beqList]
  | cons a as ih =>
    intro bs
    cases bs with
    | nil => simp [beqList]
    | cons b bs =>
      simp only [beqList, Bool.and_eq_true, List.cons.injEq]
      rw [h a (by simp), ih (fun x hx => h x (by simp [hx]))]

theorem beq_iff (a : Formula) : ∀ b, beq a b = true ↔ a = b := by
  induction a using Formula.induct with
  | and as ih => intro b; cases b <;> simp [beq, beqList_iff as ih]
  | or as ih => intro b; cases b <;> simp [beq, beqList_iff as ih]
  | times as ih => intro b; cases b <;> simp [beq, beqList_iff as ih]
  | plus as ih => intro b; cases b <;> simp [beq, beqList_iff as ih]
  | implies l r ihl ihr => intro b; cases b <;> simp [beq, ihl, ihr]
  | not a ih => intro b; cases b <;> simp [beq, ih]
  | minus l r ihl ihr => intro b; cases b <;> simp [beq, ihl, ihr]
  | ite c t e ihc iht ihe => intro b; cases b <;> simp [beq, ihc, iht, ihe]
  | pow l r ihl ihr => intro b; cases b <;> simp [beq, ihl, ihr]
  | le l r ihl ihr => intro b; cases b <;> simp [beq, ihl, ihr]
  | lt l r ihl ihr => intro b; cases b <;> simp [beq, ihl, ihr]
  | equals l r ihl ihr => intro b; cases b <;> simp [beq, ihl, ihr]
  | iff l r ihl ihr => intro b; cases b <;> simp [beq, ihl, ihr]
  | sym n t => intro b; cases b <;> simp [beq]
  | boolC x => intro b; cases b <;> simp [beq]
  | realC q => intro b; cases b <;> simp [beq]

instance : DecidableEq Formula := fun a b =>
  if h : beq a b = true then isTrue ((beq_iff a b).mp h)
  else isFalse fun e => h ((beq_iff a b).mpr e)

end Formula

/-- An assignment: a Boolean for every Boolean name, a number for every real name. -/
structure Env (K : Type) where
  b : String → Bool
  r : String → K

namespace Env
variable {K : Type}
/-- Replace the value of one real variable. -/
def setR (σ : Env K) (x : String) (t : K) : Env K :=
  { σ with r := fun y => if y = x then t else σ.r y }
/-- Replace the value of one Boolean variable. -/
def setB (σ : Env K) (x : String) (t : Bool) : Env K :=
  { σ with b := fun y => if y = x then t else σ.b y }

@[simp] theorem setR_b (σ : Env K) (x t) : (σ.setR x t).b = σ.b := rfl
@[simp] theorem setB_r (σ : Env K) (x t) : (σ.setB x t).r = σ.r := rfl
@[simp] theorem setR_same (σ : Env K) (x t) : (σ.setR x t).r x = t := by simp [setR]
@[simp] theorem setB_same (σ : Env K) (x t) : (σ.setB x t).b x = t := by simp [setB]
theorem setR_other (σ : Env K) {x y} (t) (h : y ≠ x) : (σ.setR x t).r y = σ.r y := by simp [setR, h]
theorem setB_other (σ : Env K) {x y} (t) (h : y ≠ x) : (σ.setB x t).b y = σ.b y := by simp [setB, h]
end Env

namespace Formula
variable {K : Type} [Field K] [LinearOrder K]

mutual
/-- SPEC: truth of a formula at an assignment (false for terms that are not formulas). -/
def truth (σ : Env K) : Formula → Bool
  | .and as => truthAll σ as
  | .or as => truthAny σ as
  | .implies l r => !truth σ l || truth σ r
  | .not a => !truth σ a
  | .ite c t e => if truth σ c then truth σ t else truth σ e
  | .le l r => decide (value σ l ≤ value σ r)
  | .lt l r => decide (value σ l < value σ r)
  | .equals l r => decide (value σ l = value σ r)
  | .iff l r => truth σ l == truth σ r
  | .sym n _ => σ.b n
  | .boolC b => b
  | _ => false
/-- SPEC: value of an arithmetic term at an assignment (0 for terms that are not arithmetic).
A power has the value of repeated multiplication if its exponent is a natural constant. -/
def value (σ : Env K) : Formula → K
  | .times as => valueProd σ as
  | .plus as => valueSum σ as
  | .minus l r => value σ l - value σ r
  | .ite c t e => if truth σ c then value σ t else value σ e
  | .pow b (.realC q) => if q.den = 1 ∧ 0 ≤ q.num then value σ b ^ q.num.toNat else 0
  | .sym n _ => σ.r n
  | .realC q => (q : K)
  | _ => 0
/-- SPEC: all formulas of a list are true. -/
def truthAll (σ : Env K) : List Formula → Bool
  | [] => true
  | a :: as => truth σ a && truthAll σ as
/-- SPEC: some formula of a list is true. -/
def truthAny (σ : Env K) : List Formula → Bool
  | [] => false
  | a :: as => truth σ a || truthAny σ as
/-- SPEC: sum of the values of a list of terms. -/
def valueSum (σ : Env K) : List Formula → K
  | [] => 0
  | a :: as => value σ a + valueSum σ as
/-- SPEC: product of the values of a list of terms. -/
def valueProd (σ : Env K) : List Formula → K
  | [] => 1
  | a :: as => value σ a * valueProd σ as
end

theorem truthAll_eq (σ : Env K) (as : List Formula) : truthAll σ as = as.all (truth σ) := by
  induction as with
  | nil => rfl
  | cons a as ih => simp [truthAll, ih]
theorem truthAny_eq (σ : Env K) (as : List Formula) : truthAny σ as = as.any (truth σ) := by
  induction as with
  | nil => rfl
  | cons a as ih => simp [truthAny, ih]
theorem valueSum_eq (σ : Env K) (as : List Formula) : valueSum σ as = (as.map (value σ)).sum := by
  induction as with
  | nil => rfl
  | cons a as ih => simp [valueSum, ih]
theorem valueProd_eq (σ : Env K) (as : List Formula) : valueProd σ as = (as.map (value σ)).prod := by
  induction as with
  | nil => rfl
  | cons a as ih => simp [valueProd, ih]

mutual
/-- pysmt only builds well-typed nodes (its formula manager type-checks); this is that typing
discipline.  Powers are restricted to natural-number constants, n-ary nodes have at least one argument
(pysmt's constructors never build empty ones). -/
def wt : Ty → Formula → Bool
  | .bool, .and as => !as.isEmpty && wtAll .bool as
  | .bool, .or as => !as.isEmpty && wtAll .bool as
  | .bool, .implies l r => wt .bool l && wt .bool r
  | .bool, .not a => wt .bool a
  | .bool, .iff l r => wt .bool l && wt .bool r
  | .bool, .le l r => wt .real l && wt .real r
  | .bool, .lt l r => wt .real l && wt .real r
  | .bool, .equals l r => wt .real l && wt .real r
  | ty, .ite c t e => wt .bool c && wt ty t && wt ty e
  | .real, .times as => !as.isEmpty && wtAll .real as
  | .real, .plus as => !as.isEmpty && wtAll .real as
  | .real, .minus l r => wt .real l && wt .real r
  | .real, .pow b (.realC q) => wt .real b && (q.den = 1 && 0 ≤ q.num)
  | ty, .sym _ t => ty == t
  | .bool, .boolC _ => true
  | .real, .realC _ => true
  | _, _ => false
/-- All formulas of a list are well-typed. -/
def wtAll : Ty → List Formula → Bool
  | _, [] => true
  | ty, a :: as => wt ty a && wtAll ty as
end

theorem wtAll_iff (ty : Ty) (as : List Formula) : wtAll ty as = true ↔ ∀ a ∈ as, wt ty a = true := by
  induction as with
  | nil => simp [wtAll]
  | cons a as ih => simp [wtAll, ih]

mutual
/-- SPEC: names and types of the symbols occurring in a formula. -/
def syms : Formula → List (String × Ty)
  | .and as => symsList as
  | .or as => symsList as
  | .implies l r => syms l ++ syms r
  | .not a => syms a
  | .times as => symsList as
  | .plus as => symsList as
  | .minus l r => syms l ++ syms r
  | .ite c t e => syms c ++ (syms t ++ syms e)
  | .pow b e => syms b ++ syms e
  | .le l r => syms l ++ syms r
  | .lt l r => syms l ++ syms r
  | .equals l r => syms l ++ syms r
  | .iff l r => syms l ++ syms r
  | .sym n t => [(n, t)]
  | .boolC _ => []
  | .realC _ => []
/-- Symbols of a list of formulas. -/
def symsList : List Formula → List (String × Ty)
  | [] => []
  | a :: as => syms a ++ symsList as
end

theorem mem_symsList {p : String × Ty} {as : List Formula} :
    p ∈ symsList as ↔ ∃ a ∈ as, p ∈ syms a := by
  induction as with
  | nil => simp [symsList]
  | cons a as ih => simp [symsList, ih]

end Formula
end Pywmi
