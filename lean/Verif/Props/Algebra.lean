import Verif.Algebra.Backend
import Verif.Props.Math

set_option linter.unusedSectionVars false
set_option linter.unusedSimpArgs false

/-!
# Properties of algebra backends (C58) and of the export of polynomials into them (C08)
-/

namespace Pywmi
section
variable {E : Type} {K : Type} [Field K] [LinearOrder K] [IsStrictOrderedRing K]

/-- **C58**: over sound operators the default methods with their shortcuts for 0 and 1 are sound. -/
theorem defaultAlgebra_sound {R : RawOps E} {eval : E → (String → K) → K} (h : R.Sound eval) :
    (defaultAlgebra R).Sound eval := defaultAlgebra_sound' h

/-- **C58**: so are the overriding methods of the sympy and PSI backends, and the multiplication of the string
backends. -/
theorem directAlgebra_sound {R : RawOps E} {eval : E → (String → K) → K} (h : R.Sound eval) :
    (directAlgebra R).Sound eval ∧ ∀ a b ρ, eval (oneFirstTimes R a b) ρ = eval a ρ * eval b ρ :=
  ⟨directAlgebra_sound' h, oneFirstTimes_sound h⟩

/-- **C58**: `power` with a natural exponent is repeated multiplication, every other exponent is rejected. -/
theorem algebra_power {A : Algebra E} {eval : E → (String → K) → K} (h : A.Sound eval) (a : E) :
    (∀ n : ℕ, ∃ r, A.power a n = .ok r ∧ ∀ ρ, eval r ρ = eval a ρ ^ n) ∧
    (∀ p : ℚ, (∀ n : ℕ, p ≠ n) → A.power a p = .error .valueError) := by
  constructor
  · intro n
    refine ⟨(List.range n).foldl (fun r _ => A.times r a) A.one, ?_, fun ρ => ?_⟩
    · unfold Algebra.power
      rw [if_neg (by simp), if_neg (by simp)]; simp
    · induction n with
      | zero => simp [Algebra.one, h.real]
      | succ n ih => rw [List.range_succ, List.foldl_append]; simp [h.times, ih, pow_succ]
  · intro p hp
    unfold Algebra.power
    split
    · rfl
    · rename_i hd
      split
      · rfl
      · rename_i hneg
        exfalso
        push Not at hd hneg
        apply hp p.num.toNat
        have : ((p.num.toNat : ℕ) : ℤ) = p.num := Int.toNat_of_nonneg (Rat.num_nonneg.mpr hneg)
        conv_lhs => rw [← Rat.num_div_den p, hd]
        rw [← Int.cast_natCast (R := ℚ) p.num.toNat, this]; simp

/-- **C58**: the derived comparison builders are the indicators of `>` and `>=`. -/
theorem algebra_greater {A : Algebra E} {eval : E → (String → K) → K} (h : A.Sound eval) (a b : E)
    (ρ : String → K) :
    eval (A.greaterThan a b) ρ = (if eval a ρ > eval b ρ then 1 else 0) ∧
    eval (A.greaterThanEqual a b) ρ = (if eval a ρ ≥ eval b ρ then 1 else 0) := by
  unfold Algebra.greaterThan Algebra.greaterThanEqual
  rw [h.lessThan, h.lessThanEqual, h.negate, h.negate]
  simp [neg_lt_neg_iff, neg_le_neg_iff]

/-- **C08**: exporting a polynomial into any sound algebra gives an expression with the value of the polynomial
at every point. -/
theorem polyToExpr_correct {A : Algebra E} {eval : E → (String → K) → K} (h : A.Sound eval) (d : Dict)
    (ρ : String → K) : eval (polyToExpr A d) ρ = polyEval ρ d := polyToExpr_eval h d ρ

/-- **C08** for inequalities: `LinearInequality.to_expression` is the indicator of the closed half-space. -/
theorem linToExpr_correct {A : Algebra E} {eval : E → (String → K) → K} (h : A.Sound eval) {d : Dict}
    (hd : WFLin d) (ρ : String → K) :
    eval (linToExpr A d) ρ = if polyEval ρ d ≤ 0 then 1 else 0 := by
  unfold linToExpr
  rw [h.lessThanEqual, polyToExpr_eval h, h.real]
  have := polyEval_split (K := K) ρ hd.1
  have hiff : polyEval ρ (d.filter fun p => p.1 ≠ []) ≤ ((linB d : ℚ) : K) ↔ polyEval ρ d ≤ 0 := by
    rw [this, linB]
    push_cast
    constructor <;> intro h <;> linarith
  simp only [hiff]

/-! ## A concrete sound backend, and `PySmtAlgebra` -/

/-- Expressions as pysmt terms, comparisons as `Ite(c, 1, 0)`: what `PySmtAlgebra`
(/repo/pywmi/engines/algebraic_backend.py:125-139) would be if it called `one`. -/
def formulaRaw : RawOps Formula where
  real := .realC
  symbol n := .sym n .real
  mul a b := .times [a, b]
  add a b := .plus [a, b]
  eqb a b := decide (a = b)
  lt a b := .ite (.lt a b) (.realC 1) (.realC 0)
  le a b := .ite (.le a b) (.realC 1) (.realC 0)

/-- `PySmtAlgebra.less_than`, `less_than_equal` (/repo/pywmi/engines/algebraic_backend.py:135-139): `self.one` is
passed without being called, so `smt.Ite` receives a bound method instead of a node and raises. -/
def pysmtCompare (_a _b : Formula) : Except PyErr Formula :=
  let one : Option Formula := none
  match one with
  | some o => .ok (.ite (.lt _a _b) o (.realC 0))
  | none => .error .attributeError

/-- The value of a term at a point. -/
def formulaEval (f : Formula) (ρ : String → K) : K := Formula.value ⟨fun _ => false, ρ⟩ f

theorem formulaRaw_sound : (formulaRaw).Sound (formulaEval (K := K)) where
  real q ρ := by simp [formulaRaw, formulaEval, Formula.value]
  symbol n ρ := by simp [formulaRaw, formulaEval, Formula.value]
  mul a b ρ := by simp [formulaRaw, formulaEval, Formula.value, Formula.valueProd]
  add a b ρ := by simp [formulaRaw, formulaEval, Formula.value, Formula.valueSum]
  eqb a b h ρ := by rw [of_decide_eq_true h]
  lt a b ρ := by simp [formulaRaw, formulaEval, Formula.value, Formula.truth]; congr
  le a b ρ := by simp [formulaRaw, formulaEval, Formula.value, Formula.truth]; congr

/-- **C58 (negation)**: the comparison builders of `PySmtAlgebra` raise for all arguments. -/
theorem pysmtCompare_fails (a b : Formula) : ¬∃ r, pysmtCompare a b = .ok r := by
  rintro ⟨r, h⟩; cases h

/-- The shortcuts are taken: `1 * (x + 0) = x`. -/
example : (defaultAlgebra formulaRaw).times (.realC 1)
    ((defaultAlgebra formulaRaw).plus (.sym "x" .real) (.realC 0)) = .sym "x" .real := by decide +kernel
example : ∃ r, (defaultAlgebra formulaRaw).power (.sym "x" .real) 3 = .ok r ∧
    formulaEval (K := ℚ) r (fun _ => 2) = 8 := by
  obtain ⟨r, h1, h2⟩ := (algebra_power (defaultAlgebra_sound (formulaRaw_sound (K := ℚ))) (.sym "x" .real)).1 3
  refine ⟨r, h1, ?_⟩
  rw [h2]; simp [formulaEval, Formula.value]; norm_num

end
end Pywmi
