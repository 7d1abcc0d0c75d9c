import Mathlib.Algebra.MvPolynomial.Funext
import Mathlib.Algebra.CharZero.Infinite
import Verif.Math.Sound

set_option linter.unusedSectionVars false
set_option linter.unusedSimpArgs false

/-!
# A polynomial dictionary is determined by its values

Helper lemmas: translation of dictionaries into Mathlib's multivariate polynomials.
-/

namespace Pywmi
open MvPolynomial

/-- Exponents of a monomial key. -/
noncomputable def monoExp (k : Mono) : String →₀ ℕ := Multiset.toFinsupp (k : Multiset String)

/-- The Mathlib polynomial of a dictionary. -/
noncomputable def toMv (d : Dict) : MvPolynomial String ℚ := (d.map fun p => monomial (monoExp p.1) p.2).sum

theorem toMv_cons (p : Mono × ℚ) (d : Dict) : toMv (p :: d) = monomial (monoExp p.1) p.2 + toMv d := rfl

theorem eval_mono (ρ : String → ℚ) (k : Mono) (v : ℚ) :
    eval ρ (monomial (monoExp k) v) = v * monoEval ρ k := by
  rw [eval_monomial]
  congr 1
  induction k with
  | nil => simp [monoExp, monoEval]
  | cons n k ih =>
    have : monoExp (n :: k) = Finsupp.single n 1 + monoExp k := by
      unfold monoExp
      rw [← Multiset.cons_coe, ← Multiset.singleton_add, map_add, Multiset.toFinsupp_singleton]
    rw [this, Finsupp.prod_add_index' (by simp) (by intro a b c; exact pow_add _ _ _), ih]
    simp [monoEval]

theorem eval_toMv (ρ : String → ℚ) (d : Dict) : eval ρ (toMv d) = polyEval ρ d := by
  induction d with
  | nil => simp [toMv]
  | cons p d ih => rw [toMv_cons, map_add, ih, eval_mono, polyEval_cons]; simp

theorem monoExp_inj {k1 k2 : Mono} (h1 : k1.Pairwise (· ≤ ·)) (h2 : k2.Pairwise (· ≤ ·))
    (h : monoExp k1 = monoExp k2) : k1 = k2 := by
  have : (k1 : Multiset String) = k2 := Multiset.toFinsupp.injective h
  exact List.Perm.eq_of_pairwise' h1 h2 (Multiset.coe_eq_coe.mp this)

theorem coeff_toMv {d : Dict} (hs : ∀ p ∈ d, p.1.Pairwise (· ≤ ·)) (hn : KeysNodup d) {k : Mono}
    (hk : k.Pairwise (· ≤ ·)) : coeff (monoExp k) (toMv d) = (d.lookup k).getD 0 := by
  induction d with
  | nil => simp [toMv]
  | cons p d ih =>
    obtain ⟨k', v⟩ := p
    simp only [KeysNodup, List.map_cons, List.nodup_cons] at hn
    rw [toMv_cons, coeff_add, coeff_monomial, ih (fun q hq => hs q (by simp [hq])) hn.2]
    by_cases h : k = k'
    · subst h
      have : d.lookup k = none := by
        cases hl : d.lookup k with
        | none => rfl
        | some w => exact absurd (List.mem_map.mpr ⟨_, mem_of_lookup hl, rfl⟩) hn.1
      simp [List.lookup_cons, this]
    · have hne : monoExp k' ≠ monoExp k := fun e => h (monoExp_inj hk (hs (k', v) (by simp)) e.symm)
      simp [List.lookup_cons, beq_eq_false_iff_ne.mpr h, hne]

/-- Two dictionaries with sorted distinct keys that take the same values at all rational points have the same
coefficients. -/
theorem lookup_eq_of_eval {d e : Dict} (hs : ∀ p ∈ d, p.1.Pairwise (· ≤ ·)) (hn : KeysNodup d)
    (hs' : ∀ p ∈ e, p.1.Pairwise (· ≤ ·)) (hn' : KeysNodup e)
    (h : ∀ ρ : String → ℚ, polyEval ρ d = polyEval ρ e) (k : Mono) :
    (d.lookup k).getD 0 = (e.lookup k).getD 0 := by
  have hmv : toMv d = toMv e := by
    apply MvPolynomial.funext
    intro ρ
    rw [eval_toMv, eval_toMv, h]
  by_cases hk : k.Pairwise (· ≤ ·)
  · rw [← coeff_toMv hs hn hk, ← coeff_toMv hs' hn' hk, hmv]
  · have hnone : ∀ {x : Dict}, (∀ p ∈ x, p.1.Pairwise (· ≤ ·)) → x.lookup k = none := by
      intro x hx
      cases hl : x.lookup k with
      | none => rfl
      | some w => exact absurd (hx _ (mem_of_lookup hl)) hk
    rw [hnone hs, hnone hs']

end Pywmi
