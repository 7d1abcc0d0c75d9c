import Verif.Xadd.ResolveRun
import Verif.Spec.Wmi

set_option linter.unusedSectionVars false
set_option linter.unusedSimpArgs false

/-!
# Diagrams far away, and the integral over one variable after the other
-/

namespace Pywmi
open Formula MeasureTheory Set

theorem lin_tail (a c : ℝ) : ∃ K : ℝ, (∃ b : Bool, ∀ t, K < t → (a + c * t < 0 ↔ b = true)) ∧ ∃ b : Bool, ∀ t, t < -K → (a + c * t < 0 ↔ b = true) := by
  rcases lt_trichotomy c 0 with hc | hc | hc
  · refine ⟨|a / c|, ⟨true, fun t ht => ?_⟩, ⟨false, fun t ht => ?_⟩⟩
    · have h1 := neg_abs_le (a / c)
      have h2 : c * t < c * (-(a / c)) := mul_lt_mul_of_neg_left (by linarith [le_abs_self (-(a / c)), abs_neg (a / c)]) hc
      have h3 : c * (-(a / c)) = -a := by rw [mul_neg, mul_div_cancel₀ _ hc.ne]
      simp only [iff_true]; linarith
    · have h2 : c * (-(a / c)) < c * t := mul_lt_mul_of_neg_left (by linarith [le_abs_self (a / c)]) hc
      have h3 : c * (-(a / c)) = -a := by rw [mul_neg, mul_div_cancel₀ _ hc.ne]
      simp only [Bool.false_eq_true, iff_false, not_lt]; linarith
  · subst hc
    refine ⟨0, ⟨decide (a < 0), fun t _ => by simp⟩, ⟨decide (a < 0), fun t _ => by simp⟩⟩
  · refine ⟨|a / c|, ⟨false, fun t ht => ?_⟩, ⟨true, fun t ht => ?_⟩⟩
    · have h2 : c * (-(a / c)) < c * t := mul_lt_mul_of_pos_left (by linarith [le_abs_self (-(a / c)), abs_neg (a / c)]) hc
      have h3 : c * (-(a / c)) = -a := by rw [mul_neg, mul_div_cancel₀ _ hc.ne']
      simp only [Bool.false_eq_true, iff_false, not_lt]; linarith
    · have h2 : c * t < c * (-(a / c)) := mul_lt_mul_of_pos_left (by linarith [le_abs_self (a / c)]) hc
      have h3 : c * (-(a / c)) = -a := by rw [mul_neg, mul_div_cancel₀ _ hc.ne']
      simp only [iff_true]; linarith

section
variable {E : Type} [DecidableEq E] {X : XCtx E} {ev : E → (String → ℝ) → ℝ}

theorem DecOk.tail {d : Decision} (h : DecOk d) (σ : Env ℝ) (x : String) :
    ∃ K : ℝ, (∃ b : Bool, ∀ t, K < t → truth (σ.setR x t) d.test = b) ∧ ∃ b : Bool, ∀ t, t < -K → truth (σ.setR x t) d.test = b := by
  rcases h.2 with ⟨b, hb⟩ | ⟨q, -, hq, hg⟩
  · rw [hb]
    exact ⟨0, ⟨σ.b b, fun t _ => rfl⟩, ⟨σ.b b, fun t _ => rfl⟩⟩
  · obtain ⟨-, ht⟩ := DecOk.truth_lin hq hg
    obtain ⟨K, ⟨b1, h1⟩, ⟨b2, h2⟩⟩ := lin_tail (polyEval σ.r (q.filter fun p => p.1 ≠ [x])) (linCoef q [x] : ℝ)
    have e : ∀ t, polyEval (σ.setR x t).r q = polyEval σ.r (q.filter fun p => p.1 ≠ [x]) + (linCoef q [x] : ℝ) * t :=
      fun t => polyEval_var hq.nodup hq.lin x σ.r t
    refine ⟨K, ⟨b1, fun t hk => ?_⟩, ⟨b2, fun t hk => ?_⟩⟩
    · rw [Bool.eq_iff_iff, ht, e, h1 t hk]
    · rw [Bool.eq_iff_iff, ht, e, h2 t hk]

/-- Far away a diagram is a polynomial. -/
theorem XTree.slice_tail (hb : BackLaw X.back ev) : ∀ {T : XTree E}, T.AllDec DecOk → ∀ (σ : Env ℝ) (x : String),
    ∃ K : ℝ, (∃ P : Polynomial ℝ, ∀ t, K < t → T.slice ev σ x t = P.eval t) ∧ ∃ P : Polynomial ℝ, ∀ t, t < -K → T.slice ev σ x t = P.eval t
  | .leaf e, _, σ, x => by
    obtain ⟨P, hP⟩ := hb.poly e x σ.r
    exact ⟨0, ⟨P, fun t _ => hP t⟩, ⟨P, fun t _ => hP t⟩⟩
  | .node d A B, h, σ, x => by
    obtain ⟨K1, ⟨P1, h1⟩, ⟨Q1, g1⟩⟩ := XTree.slice_tail hb h.2.1 σ x
    obtain ⟨K2, ⟨P2, h2⟩, ⟨Q2, g2⟩⟩ := XTree.slice_tail hb h.2.2 σ x
    obtain ⟨K3, ⟨b, h3⟩, ⟨c, g3⟩⟩ := h.1.tail σ x
    have m1 : K1 ≤ max K1 (max K2 K3) := le_max_left _ _
    have m2 : K2 ≤ max K1 (max K2 K3) := (le_max_left _ _).trans (le_max_right _ _)
    have m3 : K3 ≤ max K1 (max K2 K3) := (le_max_right _ _).trans (le_max_right _ _)
    refine ⟨max K1 (max K2 K3), ⟨if b then P1 else P2, fun t ht => ?_⟩, ⟨if c then Q1 else Q2, fun t ht => ?_⟩⟩
    · rw [XTree.slice_node, h3 t (by linarith)]
      cases b
      · simpa using h2 t (by linarith)
      · simpa using h1 t (by linarith)
    · rw [XTree.slice_node, g3 t (by linarith)]
      cases c
      · simpa using g2 t (by linarith)
      · simpa using g1 t (by linarith)

theorem poly_zero_of_ae {S : Set ℝ} (hS : volume S ≠ 0) {P : Polynomial ℝ} (h : ∀ᵐ t, t ∈ S → P.eval t = 0) : P = 0 := by
  by_contra hne
  have hfin : {t : ℝ | P.eval t = 0}.Finite := by
    by_contra hinf
    exact hne (Polynomial.eq_zero_of_infinite_isRoot P hinf)
  have h1 : ∀ᵐ t, t ∉ {t : ℝ | P.eval t = 0} := measure_eq_zero_iff_ae_notMem.mp (hfin.measure_zero volume)
  exact hS (measure_eq_zero_iff_ae_notMem.mpr (by filter_upwards [h, h1] with t a b c using b (a c)))

/-- A diagram that is zero almost everywhere far away is zero far away. -/
theorem XTree.vanish_of_ae (hb : BackLaw X.back ev) {T : XTree E} (hT : T.AllDec DecOk) {σ : Env ℝ} {x : String} {M : ℝ}
    (h : ∀ᵐ t, M < |t| → T.slice ev σ x t = 0) : Vanish (T.slice ev σ x) univ := by
  obtain ⟨K, ⟨P, hP⟩, ⟨Q, hQ⟩⟩ := XTree.slice_tail hb hT σ x
  have hP0 : P = 0 := poly_zero_of_ae (S := Ioi (max K |M|)) (by simp) (by
    filter_upwards [h] with t ht hm
    simp only [mem_Ioi, max_lt_iff] at hm
    rw [← hP t hm.1]
    exact ht (lt_of_le_of_lt (le_abs_self M) (lt_of_lt_of_le hm.2 (le_abs_self t))))
  have hQ0 : Q = 0 := poly_zero_of_ae (S := Iio (min (-K) (-|M|))) (by simp) (by
    filter_upwards [h] with t ht hm
    simp only [mem_Iio, lt_min_iff] at hm
    rw [← hQ t hm.1]
    exact ht (lt_of_le_of_lt (le_abs_self M) (by linarith [neg_le_abs t])))
  refine ⟨|K|, fun t _ ht => ?_⟩
  have := le_abs_self K
  rcases le_or_gt 0 t with h0 | h0
  · rw [abs_of_nonneg h0] at ht
    rw [hP t (by linarith), hP0]; simp
  · rw [abs_of_neg h0] at ht
    rw [hQ t (by linarith), hQ0]; simp

end

/-! ### Integrals over one variable after the other -/

theorem setReals_setR {σ : Env ℝ} {y : String} {ys : List String} (hy : y ∉ ys) (t : ℝ) (x : Fin ys.length → ℝ) :
    (σ.setR y t).setReals ys x = (σ.setReals ys x).setR y t := by
  simp only [Env.setReals, Env.setR, Env.mk.injEq, true_and]
  funext n
  by_cases hn : n = y
  · subst hn
    have h2 : ¬ ys.idxOf n < ys.length := by rwa [List.idxOf_lt_length_iff]
    simp [h2]
  · by_cases h2 : ys.idxOf n < ys.length <;> simp [h2, hn]

/-- The integral over the listed variables is the integral over the others of the integral over the first. -/
theorem intReals_inner {y : String} {ys : List String} (hy : y ∉ ys) {φ : Env ℝ → ℝ} {σ : Env ℝ}
    (h : Integrable fun x => φ (σ.setReals (y :: ys) x)) :
    intReals (y :: ys) φ σ = intReals ys (fun τ => ∫ t, φ (τ.setR y t)) σ ∧
    (Integrable fun x => ∫ t, φ ((σ.setReals ys x).setR y t)) ∧
    ∀ P : (Fin ys.length → ℝ) → ℝ → Prop, (∀ᵐ x : Fin (y :: ys).length → ℝ, P (fun i => x i.succ) (x 0)) → ∀ᵐ x, ∀ᵐ t, P x t := by
  have hmp := volume_preserving_piFinSuccAbove (fun _ : Fin (ys.length + 1) => ℝ) 0
  have hsw : MeasurePreserving (Prod.swap : ℝ × (Fin ys.length → ℝ) → (Fin ys.length → ℝ) × ℝ) volume volume :=
    Measure.measurePreserving_swap
  have h1 : intReals (y :: ys) φ σ = ∫ p : ℝ × (Fin ys.length → ℝ), φ ((σ.setReals ys p.2).setR y p.1) := by
    rw [intReals]
    have := (hmp.integral_comp' (g := fun p : ℝ × (Fin ys.length → ℝ) => φ ((σ.setReals ys p.2).setR y p.1)))
    rw [← this]
    refine integral_congr_ae ?_
    filter_upwards with x
    rw [setReals_cons hy, setReals_setR hy]
    rfl
  have h2 : Integrable fun p : ℝ × (Fin ys.length → ℝ) => φ ((σ.setReals ys p.2).setR y p.1) := by
    rw [← hmp.integrable_comp_emb (MeasurableEquiv.measurableEmbedding _)]
    refine h.congr ?_
    filter_upwards with x
    rw [setReals_cons hy, setReals_setR hy]
    rfl
  rw [Measure.volume_eq_prod] at h2
  refine ⟨?_, h2.integral_prod_right, fun P hP => ?_⟩
  · rw [h1, Measure.volume_eq_prod, integral_prod_symm _ h2]
    rfl
  · have h3 : ∀ᵐ p : ℝ × (Fin ys.length → ℝ), P p.2 p.1 := by
      have := hmp.symm.quasiMeasurePreserving.ae hP
      filter_upwards [this] with p hp
      simpa using hp
    have h4 : ∀ᵐ p : (Fin ys.length → ℝ) × ℝ, P p.1 p.2 := by
      have hsw' : MeasurePreserving (Prod.swap : (Fin ys.length → ℝ) × ℝ → ℝ × (Fin ys.length → ℝ)) volume volume :=
        Measure.measurePreserving_swap
      exact hsw'.quasiMeasurePreserving.ae h3
    rw [Measure.volume_eq_prod] at h4
    exact Measure.ae_ae_of_ae_prod h4

/-- Summing over one Boolean variable first. -/
theorem sumBools_inner {b : String} {bs : List String} (hb : b ∉ bs) (φ : Env ℝ → ℝ) (σ : Env ℝ) :
    sumBools (b :: bs) φ σ = sumBools bs (fun τ => φ (τ.setB b true) + φ (τ.setB b false)) σ := by
  have hcomm : ∀ (σ : Env ℝ) {a : String} (_ : a ≠ b) (v u : Bool), (σ.setB a v).setB b u = (σ.setB b u).setB a v := by
    intro σ a h v u
    simp only [Env.setB, Env.mk.injEq, and_true]
    funext n
    by_cases h1 : n = a <;> by_cases h2 : n = b <;> simp [h1, h2, h, Ne.symm h]
  have key : ∀ (bs : List String), b ∉ bs → ∀ σ : Env ℝ,
      sumBools bs φ (σ.setB b true) + sumBools bs φ (σ.setB b false) = sumBools bs (fun τ => φ (τ.setB b true) + φ (τ.setB b false)) σ := by
    intro bs
    induction bs with
    | nil => intro _ σ; rfl
    | cons c bs ih =>
      intro h σ
      simp only [List.mem_cons, not_or] at h
      simp only [sumBools]
      rw [← ih h.2, ← ih h.2, hcomm σ (Ne.symm h.1), hcomm σ (Ne.symm h.1), hcomm σ (Ne.symm h.1), hcomm σ (Ne.symm h.1)]
      ring
  exact key bs hb σ

end Pywmi
