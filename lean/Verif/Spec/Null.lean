import Verif.Spec.Problem
import Verif.Smt.Congr
import Verif.Props.Literals
import Mathlib.MeasureTheory.Measure.Lebesgue.EqHaar

set_option linter.unusedSectionVars false
set_option linter.unusedSimpArgs false

/-! # Boundaries of linear comparisons are null sets -/

namespace Pywmi
open Formula MeasureTheory

/-- An affine function that is not identically zero is non-zero almost everywhere. -/
theorem affine_ne_zero {n : ℕ} {g : (Fin n → ℝ) → ℝ}
    (haff : ∀ (c : ℝ) (x y z : Fin n → ℝ), g (c • (x - y) + z) = c * (g x - g y) + g z) (hne : ∃ x, g x ≠ 0) :
    ∀ᵐ x, g x ≠ 0 := by
  let s : AffineSubspace ℝ (Fin n → ℝ) :=
    { carrier := {x | g x = 0}
      smul_vsub_vadd_mem' := fun c x y z hx hy hz => by
        simp only [Set.mem_ofPred_eq] at hx hy hz ⊢
        rw [vsub_eq_sub, vadd_eq_add, haff, hx, hy, hz]; ring }
  have hs : s ≠ ⊤ := by
    obtain ⟨x, hx⟩ := hne
    intro h
    have : x ∈ s := by rw [h]; trivial
    exact hx this
  have := Measure.addHaar_affineSubspace (volume : Measure (Fin n → ℝ)) s hs
  rw [ae_iff]
  convert this using 2
  ext x
  show ¬ g x ≠ 0 ↔ g x = 0
  simp

theorem polyEval_affine {d : Dict} (hd : ∀ p ∈ d, p.1.length ≤ 1) (c : ℝ) (a b e : String → ℝ) :
    polyEval (fun n => c * (a n - b n) + e n) d = c * (polyEval a d - polyEval b d) + polyEval e d := by
  induction d with
  | nil => simp [polyEval]
  | cons p d ih =>
    have h1 := hd p (by simp)
    have h2 := ih fun q hq => hd q (by simp [hq])
    simp only [polyEval, List.map_cons, List.sum_cons] at h2 ⊢
    rw [h2]
    obtain ⟨k, v⟩ := p
    match k, h1 with
    | [], _ => simp [monoEval]; ring
    | [n], _ => simp [monoEval]; ring

theorem setReals_affine (σ : Env ℝ) (rs : List String) (c : ℝ) (x y z : Fin rs.length → ℝ) :
    (σ.setReals rs (c • (x - y) + z)).r =
      fun n => c * ((σ.setReals rs x).r n - (σ.setReals rs y).r n) + (σ.setReals rs z).r n := by
  funext n
  simp only [Env.setReals]
  split_ifs
  · simp
  · simp

theorem linear_ne_zero {d : Dict} (hd : ∀ p ∈ d, p.1.length ≤ 1) (σ : Env ℝ) (rs : List String)
    (hne : ∃ x, polyEval (σ.setReals rs x).r d ≠ 0) : ∀ᵐ x, polyEval (σ.setReals rs x).r d ≠ 0 :=
  affine_ne_zero (g := fun x => polyEval (σ.setReals rs x).r d)
    (fun c x y z => by simp only [setReals_affine, polyEval_affine hd]) hne

/-- The two sides of a linear comparison that differ somewhere differ almost everywhere. -/
theorem boundary_null {l r : Formula} (hl : linTerm l = true) (hr : linTerm r = true) {rs : List String} (hnd : rs.Nodup)
    (hcov : ∀ p ∈ syms l ++ syms r, p.1 ∈ rs) (hne : ∃ τ : Env ℝ, value τ l ≠ value τ r) (σ : Env ℝ) :
    ∀ᵐ x, value (σ.setReals rs x) l ≠ value (σ.setReals rs x) r := by
  have wl := polyTerm_wt l (linTerm_polyTerm l hl)
  have wr := polyTerm_wt r (linTerm_polyTerm r hr)
  obtain ⟨q, hq, -⟩ := linFromSmt_linear (K := ℝ) hl hr (.inl rfl : (Formula.le l r = .le l r ∨ _))
  obtain ⟨c, hc, he, hk, -⟩ := linFromSmt_cmp (K := ℝ) wl wr (.inl rfl) hq
  have hc' : (c : ℝ) ≠ 0 := by exact_mod_cast hc.ne'
  have key : ∀ τ : Env ℝ, polyEval τ.r q ≠ 0 ↔ value τ l ≠ value τ r := fun τ => by
    rw [he τ]; simp [hc', sub_eq_zero]
  have := linear_ne_zero hk σ rs (by
    obtain ⟨τ, hτ⟩ := hne
    refine ⟨fun i => τ.r rs[i], ?_⟩
    rw [key]
    have hag : ∀ p ∈ syms l ++ syms r, p.2 = .real → Agree (σ.setReals rs fun i => τ.r rs[i]) τ p := fun p hp ht => by
      obtain ⟨n, ty⟩ := p
      simp only at ht
      subst ht
      obtain ⟨i, hi, hn⟩ := List.mem_iff_getElem.mp (hcov _ hp)
      simp only at hn
      subst hn
      exact setReals_get hnd ⟨i, hi⟩
    have s1 := isAllReal_syms l (linTerm_allReal l hl)
    have s2 := isAllReal_syms r (linTerm_allReal r hr)
    rw [value_congr wl fun p hp => hag p (by simp [hp]) (s1 p hp), value_congr wr fun p hp => hag p (by simp [hp]) (s2 p hp)]
    exact hτ)
  filter_upwards [this] with x hx
  exact (key _).mp hx

end Pywmi
