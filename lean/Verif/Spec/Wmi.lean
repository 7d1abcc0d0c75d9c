import Verif.Smt.Formula
import Mathlib.MeasureTheory.Constructions.Pi
import Mathlib.MeasureTheory.Integral.Bochner.Set
import Mathlib.MeasureTheory.Integral.Prod
import Mathlib.MeasureTheory.Measure.Lebesgue.Basic

set_option linter.unusedSectionVars false
set_option linter.unusedSimpArgs false

/-!
# SPEC: weighted model integrals

The mathematical meaning of a weighted model integration problem: the sum over the Boolean assignments of the Lebesgue
integral over the real variables.  Nothing here refers to the code.
-/

namespace Pywmi
open Formula MeasureTheory

/-- SPEC: the assignment with the given values for the listed real variables. -/
def Env.setReals (σ : Env ℝ) (rs : List String) (x : Fin rs.length → ℝ) : Env ℝ :=
  { σ with r := fun n => if h : rs.idxOf n < rs.length then x ⟨rs.idxOf n, h⟩ else σ.r n }

/-- SPEC: the sum over all values of the listed Boolean variables. -/
def sumBools (bs : List String) (φ : Env ℝ → ℝ) (σ : Env ℝ) : ℝ :=
  match bs with
  | [] => φ σ
  | b :: bs => sumBools bs φ (σ.setB b true) + sumBools bs φ (σ.setB b false)

/-- SPEC: the Lebesgue integral over the listed real variables. -/
noncomputable def intReals (rs : List String) (φ : Env ℝ → ℝ) (σ : Env ℝ) : ℝ :=
  ∫ x : Fin rs.length → ℝ, φ (σ.setReals rs x)

/-- SPEC: the weighted model integral of a function of the assignment. -/
noncomputable def wmiOf (bs rs : List String) (φ : Env ℝ → ℝ) (σ : Env ℝ) : ℝ :=
  sumBools bs (intReals rs φ) σ

/-- SPEC: the function integrated: the weight where the support holds, else 0. -/
noncomputable def density (support weight : Formula) (σ : Env ℝ) : ℝ :=
  if truth σ support then value σ weight else 0

/-- SPEC: the weighted model integral of a support and a weight. -/
noncomputable def wmi (bs rs : List String) (support weight : Formula) : ℝ :=
  wmiOf bs rs (density support weight) ⟨fun _ => false, fun _ => 0⟩

/-! ### Measurability -/

/-- SPEC: a function of the assignment that is measurable in the values of the variables. -/
def EnvMeas (φ : Env ℝ → ℝ) : Prop :=
  ∀ {Ω : Type} [MeasurableSpace Ω] (e : Ω → Env ℝ), (∀ n, Measurable fun ω => (e ω).r n) →
    (∀ n, Measurable fun ω => (e ω).b n) → Measurable fun ω => φ (e ω)

theorem measurable_truth_value {Ω : Type} [MeasurableSpace Ω] {e : Ω → Env ℝ}
    (hr : ∀ n, Measurable fun ω => (e ω).r n) (hb : ∀ n, Measurable fun ω => (e ω).b n) (f : Formula) :
    (Measurable fun ω => truth (e ω) f) ∧ Measurable fun ω => value (e ω) f := by
  have hb2 : ∀ (o : Bool → Bool → Bool) (g h : Ω → Bool), Measurable g → Measurable h → Measurable fun ω => o (g ω) (h ω) := by
    intro o g h hg hh
    exact (measurable_of_countable fun p : Bool × Bool => o p.1 p.2).comp (hg.prodMk hh)
  have hdec : ∀ (p : Ω → Prop) [DecidablePred p], MeasurableSet {ω | p ω} → Measurable fun ω => decide (p ω) := by
    intro p _ hp
    refine measurable_to_bool ?_
    have : (fun ω => decide (p ω)) ⁻¹' {true} = {ω | p ω} := by ext ω; simp
    rw [this]; exact hp
  have hset : ∀ g : Ω → Bool, Measurable g → MeasurableSet {ω | g ω = true} := fun g hg =>
    hg (measurableSet_singleton true)
  induction f using Formula.induct with
  | and as ih =>
    refine ⟨?_, by simp only [value]; exact measurable_const⟩
    simp only [truth, truthAll_eq]
    induction as with
    | nil => exact measurable_const
    | cons a as ih' =>
      simp only [List.all_cons]
      exact hb2 _ _ _ (ih a (by simp)).1 (ih' fun x hx => ih x (by simp [hx]))
  | or as ih =>
    refine ⟨?_, by simp only [value]; exact measurable_const⟩
    simp only [truth, truthAny_eq]
    induction as with
    | nil => exact measurable_const
    | cons a as ih' =>
      simp only [List.any_cons]
      exact hb2 _ _ _ (ih a (by simp)).1 (ih' fun x hx => ih x (by simp [hx]))
  | implies l r hl hr' =>
    exact ⟨by simp only [truth]; exact hb2 (fun a b => !a || b) _ _ hl.1 hr'.1, by simp only [value]; exact measurable_const⟩
  | not a ha =>
    exact ⟨by simp only [truth]; exact hb2 (fun a _ => !a) _ _ ha.1 ha.1, by simp only [value]; exact measurable_const⟩
  | times as ih =>
    refine ⟨by simp only [truth]; exact measurable_const, ?_⟩
    simp only [value, valueProd_eq]
    induction as with
    | nil => exact measurable_const
    | cons a as ih' =>
      simp only [List.map_cons, List.prod_cons]
      exact (ih a (by simp)).2.mul (ih' fun x hx => ih x (by simp [hx]))
  | plus as ih =>
    refine ⟨by simp only [truth]; exact measurable_const, ?_⟩
    simp only [value, valueSum_eq]
    induction as with
    | nil => exact measurable_const
    | cons a as ih' =>
      simp only [List.map_cons, List.sum_cons]
      exact (ih a (by simp)).2.add (ih' fun x hx => ih x (by simp [hx]))
  | minus l r hl hr' => exact ⟨by simp only [truth]; exact measurable_const, by simp only [value]; exact hl.2.sub hr'.2⟩
  | ite c t e hc ht he =>
    exact ⟨by simp only [truth]; exact Measurable.ite (hset _ hc.1) ht.1 he.1,
      by simp only [value]; exact Measurable.ite (hset _ hc.1) ht.2 he.2⟩
  | pow b e hb' he =>
    refine ⟨by simp only [truth]; exact measurable_const, ?_⟩
    cases e with
    | realC q =>
      simp only [value]
      split_ifs
      · exact hb'.2.pow_const _
      · exact measurable_const
    | _ => simp only [value]; exact measurable_const
  | le l r hl hr' =>
    exact ⟨by simp only [truth]; exact hdec _ (measurableSet_le hl.2 hr'.2), by simp only [value]; exact measurable_const⟩
  | lt l r hl hr' =>
    exact ⟨by simp only [truth]; exact hdec _ (measurableSet_lt hl.2 hr'.2), by simp only [value]; exact measurable_const⟩
  | equals l r hl hr' =>
    exact ⟨by simp only [truth]; exact hdec _ (measurableSet_eq_fun hl.2 hr'.2), by simp only [value]; exact measurable_const⟩
  | iff l r hl hr' =>
    exact ⟨by simp only [truth]; exact hb2 (fun a b => a == b) _ _ hl.1 hr'.1, by simp only [value]; exact measurable_const⟩
  | sym n t => exact ⟨by simp only [truth]; exact hb n, by simp only [value]; exact hr n⟩
  | boolC b => exact ⟨by simp only [truth]; exact measurable_const, by simp only [value]; exact measurable_const⟩
  | realC q => exact ⟨by simp only [truth]; exact measurable_const, by simp only [value]; exact measurable_const⟩

theorem density_meas (support weight : Formula) : EnvMeas (density support weight) := by
  intro Ω _ e hr hb
  have h1 := (measurable_truth_value hr hb support).1 (measurableSet_singleton true)
  exact Measurable.ite h1 (measurable_truth_value hr hb weight).2 measurable_const

/-- The value of a term is bounded when its variables are. -/
theorem value_bounded (f : Formula) (M : ℝ) : ∃ C, ∀ σ : Env ℝ, (∀ p ∈ syms f, |σ.r p.1| ≤ M) → |value σ f| ≤ C := by
  have hlist : ∀ as : List Formula, (∀ a ∈ as, ∃ C, ∀ σ : Env ℝ, (∀ p ∈ syms a, |σ.r p.1| ≤ M) → |value σ a| ≤ C) →
      ∃ C, 1 ≤ C ∧ ∀ σ : Env ℝ, (∀ p ∈ symsList as, |σ.r p.1| ≤ M) → ∀ a ∈ as, |value σ a| ≤ C := by
    intro as
    induction as with
    | nil => intro _; exact ⟨1, le_refl _, by simp⟩
    | cons a as ih =>
      intro h
      obtain ⟨C1, h1⟩ := h a (by simp)
      obtain ⟨C2, h2, h3⟩ := ih fun x hx => h x (by simp [hx])
      refine ⟨max C1 C2, le_max_of_le_right h2, fun σ hσ x hx => ?_⟩
      rcases List.mem_cons.mp hx with rfl | hx
      · exact le_max_of_le_left (h1 σ fun p hp => hσ p (by simp [symsList, hp]))
      · exact le_max_of_le_right (h3 σ (fun p hp => hσ p (by simp [symsList, hp])) x hx)
  induction f using Formula.induct with
  | times as ih =>
    obtain ⟨C, h1, h2⟩ := hlist as ih
    refine ⟨C ^ as.length, fun σ hσ => ?_⟩
    simp only [value, valueProd_eq]
    replace h2 := h2 σ hσ
    clear hσ ih
    induction as with
    | nil => simp
    | cons a as ih =>
      simp only [List.map_cons, List.prod_cons, abs_mul, List.length_cons, pow_succ']
      exact mul_le_mul (h2 a (by simp)) (ih fun x hx => h2 x (by simp [hx])) (abs_nonneg _) (by linarith)
  | plus as ih =>
    obtain ⟨C, h1, h2⟩ := hlist as ih
    refine ⟨as.length * C, fun σ hσ => ?_⟩
    simp only [value, valueSum_eq]
    replace h2 := h2 σ hσ
    clear hσ ih
    induction as with
    | nil => simp
    | cons a as ih =>
      simp only [List.map_cons, List.sum_cons, List.length_cons]
      push_cast
      have h3 := h2 a (by simp)
      have h4 := ih fun x hx => h2 x (by simp [hx])
      calc _ ≤ |value σ a| + |(as.map (value σ)).sum| := abs_add_le _ _
        _ ≤ _ := by linarith
  | minus l r hl hr =>
    obtain ⟨C1, h1⟩ := hl
    obtain ⟨C2, h2⟩ := hr
    refine ⟨C1 + C2, fun σ hσ => ?_⟩
    simp only [value]
    have a1 := h1 σ fun p hp => hσ p (by simp [syms, hp])
    have a2 := h2 σ fun p hp => hσ p (by simp [syms, hp])
    calc _ ≤ |value σ l| + |value σ r| := abs_sub _ _
      _ ≤ _ := by linarith
  | ite c t e hc ht he =>
    obtain ⟨C1, h1⟩ := ht
    obtain ⟨C2, h2⟩ := he
    refine ⟨max C1 C2, fun σ hσ => ?_⟩
    simp only [value]
    split_ifs
    · exact le_max_of_le_left (h1 σ fun p hp => hσ p (by simp [syms, hp]))
    · exact le_max_of_le_right (h2 σ fun p hp => hσ p (by simp [syms, hp]))
  | pow b e hb he =>
    cases e with
    | realC q =>
      obtain ⟨C, h⟩ := hb
      refine ⟨max 0 (C ^ q.num.toNat), fun σ hσ => ?_⟩
      simp only [value]
      split_ifs
      · rw [abs_pow]
        exact le_max_of_le_right (pow_le_pow_left₀ (abs_nonneg _) (h σ fun p hp => hσ p (by simp [syms, hp])) _)
      · simp
    | _ => exact ⟨0, fun σ _ => by simp [value]⟩
  | sym n t => exact ⟨M, fun σ hσ => by simpa [value] using hσ (n, t) (by simp [syms])⟩
  | realC q => exact ⟨|(q : ℝ)|, fun σ _ => by simp [value]⟩
  | _ => exact ⟨0, fun σ _ => by simp [value]⟩

/-! ### Integrability -/

theorem setReals_meas (σ : Env ℝ) (rs : List String) :
    (∀ n, Measurable fun x => (σ.setReals rs x).r n) ∧ ∀ n, Measurable fun x => (σ.setReals rs x).b n := by
  refine ⟨fun n => ?_, fun n => measurable_const⟩
  simp only [Env.setReals]
  split_ifs
  · exact measurable_pi_apply _
  · exact measurable_const

/-- SPEC: bounded, and zero outside a box, in the listed real variables. -/
def Tame (rs : List String) (φ : Env ℝ → ℝ) (σ : Env ℝ) : Prop :=
  ∃ M C, ∀ x, |φ (σ.setReals rs x)| ≤ C ∧ (∀ i, M < |x i| → φ (σ.setReals rs x) = 0)

theorem Tame.integrable {rs : List String} {φ : Env ℝ → ℝ} {σ : Env ℝ} (hm : EnvMeas φ) (h : Tame rs φ σ) :
    Integrable fun x => φ (σ.setReals rs x) := by
  obtain ⟨M, C, h⟩ := h
  have hmeas : Measurable fun x => φ (σ.setReals rs x) := hm _ (setReals_meas σ rs).1 (setReals_meas σ rs).2
  set B : Set (Fin rs.length → ℝ) := Set.Icc (fun _ => -M) (fun _ => M) with hB
  have hind : (fun x => φ (σ.setReals rs x)) = B.indicator fun x => φ (σ.setReals rs x) := by
    funext x
    by_cases hx : x ∈ B
    · rw [Set.indicator_of_mem hx]
    · rw [Set.indicator_of_notMem hx]
      have : ∃ i, M < |x i| := by
        by_contra hcon
        push Not at hcon
        exact hx ⟨fun i => (abs_le.mp (hcon i)).1, fun i => (abs_le.mp (hcon i)).2⟩
      obtain ⟨i, hi⟩ := this
      exact (h x).2 i hi
  rw [hind, integrable_indicator_iff measurableSet_Icc]
  refine IntegrableOn.of_bound ?_ hmeas.aestronglyMeasurable C ?_
  · rw [Real.volume_Icc_pi]
    exact ENNReal.prod_lt_top fun _ _ => ENNReal.ofReal_lt_top
  · filter_upwards with x
    rw [Real.norm_eq_abs]
    exact (h x).1

/-! ### Sums and integrals -/

theorem sumBools_congr {bs : List String} {φ ψ : Env ℝ → ℝ} {σ : Env ℝ} (h : ∀ β : String → Bool, φ ⟨β, σ.r⟩ = ψ ⟨β, σ.r⟩) :
    sumBools bs φ σ = sumBools bs ψ σ := by
  induction bs generalizing σ with
  | nil => exact h σ.b
  | cons b bs ih => simp only [sumBools]; rw [ih (by simpa using h), ih (by simpa using h)]

theorem sumBools_add (bs : List String) (φ ψ : Env ℝ → ℝ) (σ : Env ℝ) :
    sumBools bs (fun σ => φ σ + ψ σ) σ = sumBools bs φ σ + sumBools bs ψ σ := by
  induction bs generalizing σ with
  | nil => rfl
  | cons b bs ih => simp only [sumBools, ih]; ring

theorem sumBools_mono {bs : List String} {φ ψ : Env ℝ → ℝ} {σ : Env ℝ} (h : ∀ β : String → Bool, φ ⟨β, σ.r⟩ ≤ ψ ⟨β, σ.r⟩) :
    sumBools bs φ σ ≤ sumBools bs ψ σ := by
  induction bs generalizing σ with
  | nil => exact h σ.b
  | cons b bs ih => simp only [sumBools]; exact add_le_add (ih (by simpa using h)) (ih (by simpa using h))

theorem wmiOf_add {bs rs : List String} {φ ψ : Env ℝ → ℝ} {σ : Env ℝ} (hφm : EnvMeas φ) (hψm : EnvMeas ψ)
    (hφ : ∀ β : String → Bool, Tame rs φ ⟨β, σ.r⟩) (hψ : ∀ β : String → Bool, Tame rs ψ ⟨β, σ.r⟩) :
    wmiOf bs rs (fun σ => φ σ + ψ σ) σ = wmiOf bs rs φ σ + wmiOf bs rs ψ σ := by
  simp only [wmiOf]
  rw [← sumBools_add]
  refine sumBools_congr fun β => ?_
  exact integral_add ((hφ β).integrable hφm) ((hψ β).integrable hψm)

theorem wmiOf_congr {bs rs : List String} {φ ψ : Env ℝ → ℝ} (h : ∀ σ, φ σ = ψ σ) (σ : Env ℝ) :
    wmiOf bs rs φ σ = wmiOf bs rs ψ σ := by
  rw [show φ = ψ from funext h]

theorem wmiOf_mono {bs rs : List String} {φ ψ : Env ℝ → ℝ} {σ : Env ℝ} (hφm : EnvMeas φ) (hψm : EnvMeas ψ)
    (hφ : ∀ β : String → Bool, Tame rs φ ⟨β, σ.r⟩) (hψ : ∀ β : String → Bool, Tame rs ψ ⟨β, σ.r⟩) (h : ∀ σ, φ σ ≤ ψ σ) :
    wmiOf bs rs φ σ ≤ wmiOf bs rs ψ σ :=
  sumBools_mono fun β => integral_mono ((hφ β).integrable hφm) ((hψ β).integrable hψm) fun _ => h _

theorem wmiOf_nonneg {bs rs : List String} {φ : Env ℝ → ℝ} {σ : Env ℝ} (h : ∀ σ, 0 ≤ φ σ) : 0 ≤ wmiOf bs rs φ σ := by
  have : sumBools bs (fun _ => 0) σ ≤ wmiOf bs rs φ σ := sumBools_mono fun β => integral_nonneg fun _ => h _
  have h0 : ∀ bs σ, sumBools bs (fun _ => 0) σ = 0 := by
    intro bs
    induction bs with
    | nil => intro σ; rfl
    | cons b bs ih => intro σ; simp [sumBools, ih]
  rwa [h0] at this

theorem setReals_cons {σ : Env ℝ} {y : String} {ys : List String} (hy : y ∉ ys) (x : Fin (ys.length + 1) → ℝ) :
    σ.setReals (y :: ys) x = (σ.setR y (x 0)).setReals ys fun i => x i.succ := by
  simp only [Env.setReals, Env.setR, Env.mk.injEq, true_and]
  funext n
  by_cases hn : n = y
  · subst hn
    have h1 : (n :: ys).idxOf n = 0 := by simp
    have h2 : ¬ ys.idxOf n < ys.length := by rwa [List.idxOf_lt_length_iff]
    simp [h1, h2]
  · have h1 : (y :: ys).idxOf n = ys.idxOf n + 1 := List.idxOf_cons_ne ys fun h => hn h.symm
    by_cases h2 : ys.idxOf n < ys.length
    · simp [h1, h2]
    · simp [h1, h2, hn]

/-- Fubini: the integral over a list of variables is the integral over the first of the integral over the others. -/
theorem intReals_cons {y : String} {ys : List String} (hy : y ∉ ys) {φ : Env ℝ → ℝ} {σ : Env ℝ}
    (h : Integrable fun x => φ (σ.setReals (y :: ys) x)) :
    intReals (y :: ys) φ σ = ∫ t, intReals ys φ (σ.setR y t) := by
  have hmp := volume_preserving_piFinSuccAbove (fun _ : Fin (ys.length + 1) => ℝ) 0
  have h1 : intReals (y :: ys) φ σ = ∫ p : ℝ × (Fin ys.length → ℝ), φ ((σ.setR y p.1).setReals ys p.2) := by
    rw [intReals]
    have := (hmp.integral_comp' (g := fun p : ℝ × (Fin ys.length → ℝ) => φ ((σ.setR y p.1).setReals ys p.2)))
    rw [← this]
    refine integral_congr_ae ?_
    filter_upwards with x
    rw [setReals_cons hy]
    rfl
  have h2 : Integrable fun p : ℝ × (Fin ys.length → ℝ) => φ ((σ.setR y p.1).setReals ys p.2) := by
    rw [← hmp.integrable_comp_emb (MeasurableEquiv.measurableEmbedding _)]
    refine h.congr ?_
    filter_upwards with x
    rw [setReals_cons hy]
    rfl
  rw [h1, Measure.volume_eq_prod, integral_prod _ (by rwa [← Measure.volume_eq_prod])]
  rfl

theorem Tame.tail {y : String} {ys : List String} (hy : y ∉ ys) {φ : Env ℝ → ℝ} {σ : Env ℝ} (h : Tame (y :: ys) φ σ) (t : ℝ) :
    Tame ys φ (σ.setR y t) := by
  obtain ⟨M, C, h⟩ := h
  refine ⟨M, C, fun x => ?_⟩
  have := h (Fin.cons t x)
  rw [setReals_cons hy] at this
  simp only [Fin.cons_zero, Fin.cons_succ] at this
  exact ⟨this.1, fun i hi => this.2 i.succ (by simpa using hi)⟩

/-- SPEC: the integral over the listed variables, one after the other, the first one outermost. -/
noncomputable def intIter (rs : List String) (φ : Env ℝ → ℝ) (σ : Env ℝ) : ℝ :=
  match rs with
  | [] => φ σ
  | x :: xs => ∫ t, intIter xs φ (σ.setR x t)

theorem setReals_nil (σ : Env ℝ) (x : Fin 0 → ℝ) : σ.setReals [] x = σ := by
  simp [Env.setReals]

theorem intReals_nil (φ : Env ℝ → ℝ) (σ : Env ℝ) : intReals [] φ σ = φ σ := by
  simp only [intReals, List.length_nil]
  rw [integral_congr_ae (g := fun _ => φ σ) (by filter_upwards with x; rw [setReals_nil])]
  simp [Measure.real, Measure.volume_pi_eq_dirac (α := fun _ : Fin 0 => ℝ) (fun i => i.elim0)]

/-- For tame functions the iterated integral is the Lebesgue integral. -/
theorem intReals_eq_iter {rs : List String} (hnd : rs.Nodup) {φ : Env ℝ → ℝ} (hm : EnvMeas φ) :
    ∀ {σ : Env ℝ}, Tame rs φ σ → intReals rs φ σ = intIter rs φ σ := by
  induction rs with
  | nil => intro σ _; exact intReals_nil φ σ
  | cons y ys ih =>
    intro σ h
    have hy := (List.nodup_cons.mp hnd).1
    rw [intReals_cons hy (h.integrable hm), intIter]
    refine integral_congr_ae ?_
    filter_upwards with t
    exact ih (List.nodup_cons.mp hnd).2 (h.tail hy t)

end Pywmi
