import Verif.Math.Poly
import Verif.Math.Lemmas

set_option linter.unusedSectionVars false
set_option linter.unusedSimpArgs false

/-!
# Algebra backends

Model of the methods that /repo/pywmi/engines/algebraic_backend.py and the exporters of
/repo/pywmi/smt_math.py share.  The values of a backend (sympy, PSI, pysmt or polynomial expressions) are an
arbitrary type `E`; Python's operators on them are the fields of `RawOps`.
-/

namespace Pywmi

/-- The operations a backend is built from: Python's `*`, `+`, `==`, `<`, `<=` on its values, and its
methods `real` and `symbol` (/repo/pywmi/engines/algebraic_backend.py:21-92). -/
structure RawOps (E : Type) where
  real : ℚ → E
  symbol : String → E
  mul : E → E → E
  add : E → E → E
  eqb : E → E → Bool
  lt : E → E → E
  le : E → E → E

/-- The methods used by the exporters and engines. -/
structure Algebra (E : Type) where
  real : ℚ → E
  symbol : String → E
  times : E → E → E
  plus : E → E → E
  negate : E → E
  lessThan : E → E → E
  lessThanEqual : E → E → E

namespace Algebra
variable {E : Type}
/-- `zero` (/repo/pywmi/engines/algebraic_backend.py:22-23). -/
def zero (A : Algebra E) : E := A.real 0
/-- `one` (/repo/pywmi/engines/algebraic_backend.py:25-26). -/
def one (A : Algebra E) : E := A.real 1
/-- `power` for an integer argument (/repo/pywmi/engines/algebraic_backend.py:61-69); a non-integer argument is
modelled by a rational with denominator other than one. -/
def power (A : Algebra E) (a : E) (p : ℚ) : Except PyErr E :=
  if p.den ≠ 1 then .error .valueError
  else if p < 0 then .error .valueError
  else .ok ((List.range p.num.toNat).foldl (fun r _ => A.times r a) A.one)
/-- `greater_than` (/repo/pywmi/engines/algebraic_backend.py:77-78). -/
def greaterThan (A : Algebra E) (a b : E) : E := A.lessThan (A.negate a) (A.negate b)
/-- `greater_than_equal` (/repo/pywmi/engines/algebraic_backend.py:80-81). -/
def greaterThanEqual (A : Algebra E) (a b : E) : E := A.lessThanEqual (A.negate a) (A.negate b)
end Algebra

/-- `AlgebraBackend.times` (/repo/pywmi/engines/algebraic_backend.py:34-42). -/
def defaultTimes {E : Type} (R : RawOps E) (a b : E) : E :=
  if R.eqb a (R.real 0) || R.eqb b (R.real 0) then R.real 0
  else if R.eqb a (R.real 1) then b
  else if R.eqb b (R.real 1) then a
  else R.mul a b

/-- `AlgebraBackend.plus` (/repo/pywmi/engines/algebraic_backend.py:44-50). -/
def defaultPlus {E : Type} (R : RawOps E) (a b : E) : E :=
  if R.eqb a (R.real 0) then b
  else if R.eqb b (R.real 0) then a
  else R.add a b

/-- The class `AlgebraBackend` with its default methods (/repo/pywmi/engines/algebraic_backend.py:21-92). -/
def defaultAlgebra {E : Type} (R : RawOps E) : Algebra E where
  real := R.real
  symbol := R.symbol
  times := defaultTimes R
  plus := defaultPlus R
  negate a := defaultTimes R a (R.real (-1))
  lessThan := R.lt
  lessThanEqual := R.le

/-- A class that overrides `times`, `plus` and `negate` without shortcuts, such as `SympyAlgebra`
(/repo/pywmi/engines/algebraic_backend.py:145-168): `-a` is `a * (-1)` in sympy. -/
def directAlgebra {E : Type} (R : RawOps E) : Algebra E where
  real := R.real
  symbol := R.symbol
  times := R.mul
  plus := R.add
  negate a := R.mul (R.real (-1)) a
  lessThan := R.lt
  lessThanEqual := R.le

/-- `StringAlgebra.times` / `XaddAlgebra.times` test for one before zero
(/repo/pywmi/engines/algebraic_backend.py:320-327, 371-378). -/
def oneFirstTimes {E : Type} (R : RawOps E) (a b : E) : E :=
  if R.eqb a (R.real 1) then b
  else if R.eqb b (R.real 1) then a
  else if R.eqb a (R.real 0) || R.eqb b (R.real 0) then R.real 0
  else R.mul a b

/-- The term loop of `Polynomial.to_expression` (/repo/pywmi/smt_math.py:45-48). -/
def monoExpr {E : Type} (A : Algebra E) (k : Mono) : E :=
  k.foldl (fun t n => A.times t (A.symbol n)) A.one

/-- `Polynomial.to_expression` (/repo/pywmi/smt_math.py:42-50). -/
def polyToExpr {E : Type} (A : Algebra E) (d : Dict) : E :=
  d.foldl (fun acc p => A.plus acc (A.times (monoExpr A p.1) (A.real p.2))) A.zero

/-- `LinearInequality.to_expression` (/repo/pywmi/smt_math.py:181-192).  Simplification: the fallback for
algebras without comparisons (lines 193-194) is modelled in `PxCtx.linExpr`. -/
def linToExpr {E : Type} (A : Algebra E) (d : Dict) : E :=
  A.lessThanEqual (polyToExpr A (d.filter fun p => p.1 ≠ [])) (A.real (linB d))

/-! ### Soundness (specification) -/

section
variable {E : Type} {K : Type} [Field K] [LinearOrder K] [IsStrictOrderedRing K]

/-- SPEC: the operators of a backend compute the mathematical operations; comparisons are 0/1 indicators. -/
structure RawOps.Sound (R : RawOps E) (eval : E → (String → K) → K) : Prop where
  real : ∀ q ρ, eval (R.real q) ρ = (q : K)
  symbol : ∀ n ρ, eval (R.symbol n) ρ = ρ n
  mul : ∀ a b ρ, eval (R.mul a b) ρ = eval a ρ * eval b ρ
  add : ∀ a b ρ, eval (R.add a b) ρ = eval a ρ + eval b ρ
  eqb : ∀ a b, R.eqb a b = true → ∀ ρ, eval a ρ = eval b ρ
  lt : ∀ a b ρ, eval (R.lt a b) ρ = if eval a ρ < eval b ρ then 1 else 0
  le : ∀ a b ρ, eval (R.le a b) ρ = if eval a ρ ≤ eval b ρ then 1 else 0

/-- SPEC: the methods of an algebra compute the mathematical operations. -/
structure Algebra.Sound (A : Algebra E) (eval : E → (String → K) → K) : Prop where
  real : ∀ q ρ, eval (A.real q) ρ = (q : K)
  symbol : ∀ n ρ, eval (A.symbol n) ρ = ρ n
  times : ∀ a b ρ, eval (A.times a b) ρ = eval a ρ * eval b ρ
  plus : ∀ a b ρ, eval (A.plus a b) ρ = eval a ρ + eval b ρ
  negate : ∀ a ρ, eval (A.negate a) ρ = -eval a ρ
  lessThan : ∀ a b ρ, eval (A.lessThan a b) ρ = if eval a ρ < eval b ρ then 1 else 0
  lessThanEqual : ∀ a b ρ, eval (A.lessThanEqual a b) ρ = if eval a ρ ≤ eval b ρ then 1 else 0

theorem defaultTimes_sound {R : RawOps E} {eval : E → (String → K) → K} (h : R.Sound eval) (a b : E)
    (ρ : String → K) : eval (defaultTimes R a b) ρ = eval a ρ * eval b ρ := by
  unfold defaultTimes
  split
  · rename_i h0
    rw [h.real]
    rcases (Bool.or_eq_true _ _).mp h0 with h1 | h1
    · rw [h.eqb _ _ h1 ρ, h.real]; simp
    · rw [h.eqb _ _ h1 ρ, h.real]; simp
  · split
    · rename_i h1; rw [h.eqb _ _ h1 ρ, h.real]; simp
    · split
      · rename_i h1; rw [h.eqb _ _ h1 ρ, h.real]; simp
      · exact h.mul a b ρ

theorem oneFirstTimes_sound {R : RawOps E} {eval : E → (String → K) → K} (h : R.Sound eval) (a b : E)
    (ρ : String → K) : eval (oneFirstTimes R a b) ρ = eval a ρ * eval b ρ := by
  unfold oneFirstTimes
  split
  · rename_i h1; rw [h.eqb _ _ h1 ρ, h.real]; simp
  · split
    · rename_i h1; rw [h.eqb _ _ h1 ρ, h.real]; simp
    · split
      · rename_i h0
        rw [h.real]
        rcases (Bool.or_eq_true _ _).mp h0 with h1 | h1
        · rw [h.eqb _ _ h1 ρ, h.real]; simp
        · rw [h.eqb _ _ h1 ρ, h.real]; simp
      · exact h.mul a b ρ

theorem defaultPlus_sound {R : RawOps E} {eval : E → (String → K) → K} (h : R.Sound eval) (a b : E)
    (ρ : String → K) : eval (defaultPlus R a b) ρ = eval a ρ + eval b ρ := by
  unfold defaultPlus
  split
  · rename_i h1; rw [h.eqb _ _ h1 ρ, h.real]; simp
  · split
    · rename_i h1; rw [h.eqb _ _ h1 ρ, h.real]; simp
    · exact h.add a b ρ

theorem defaultAlgebra_sound' {R : RawOps E} {eval : E → (String → K) → K} (h : R.Sound eval) :
    (defaultAlgebra R).Sound eval where
  real := h.real
  symbol := h.symbol
  times := defaultTimes_sound h
  plus := defaultPlus_sound h
  negate a ρ := by
    show eval (defaultTimes R a (R.real (-1))) ρ = _
    rw [defaultTimes_sound h, h.real]; push_cast; ring
  lessThan := h.lt
  lessThanEqual := h.le

theorem directAlgebra_sound' {R : RawOps E} {eval : E → (String → K) → K} (h : R.Sound eval) :
    (directAlgebra R).Sound eval where
  real := h.real
  symbol := h.symbol
  times := h.mul
  plus := h.add
  negate a ρ := by
    show eval (R.mul (R.real (-1)) a) ρ = _
    rw [h.mul, h.real]; push_cast; ring
  lessThan := h.lt
  lessThanEqual := h.le

theorem monoExpr_eval {A : Algebra E} {eval : E → (String → K) → K} (h : A.Sound eval) (k : Mono)
    (ρ : String → K) : eval (monoExpr A k) ρ = monoEval ρ k := by
  unfold monoExpr
  have : ∀ e, eval (k.foldl (fun t n => A.times t (A.symbol n)) e) ρ = eval e ρ * monoEval ρ k := by
    induction k with
    | nil => intro e; simp [monoEval]
    | cons n k ih =>
      intro e
      rw [List.foldl_cons, ih, h.times, h.symbol]
      simp [monoEval, mul_assoc]
  rw [this, Algebra.one, h.real]; simp

theorem polyToExpr_eval {A : Algebra E} {eval : E → (String → K) → K} (h : A.Sound eval) (d : Dict)
    (ρ : String → K) : eval (polyToExpr A d) ρ = polyEval ρ d := by
  unfold polyToExpr
  have : ∀ e, eval (d.foldl (fun acc p => A.plus acc (A.times (monoExpr A p.1) (A.real p.2))) e) ρ =
      eval e ρ + polyEval ρ d := by
    induction d with
    | nil => intro e; simp [polyEval]
    | cons p d ih =>
      intro e
      rw [List.foldl_cons, ih, h.plus, h.times, h.real, monoExpr_eval h]
      simp only [polyEval, List.map_cons, List.sum_cons]; ring
  rw [this, Algebra.zero, h.real]; simp

end
end Pywmi
