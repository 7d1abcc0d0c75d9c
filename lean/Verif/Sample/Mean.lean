import Verif.Spec.Problem
import Mathlib.MeasureTheory.Integral.IntervalIntegral.Basic
import Mathlib.Probability.StrongLaw
import Mathlib.Probability.Independence.InfinitePi

set_option linter.unusedSectionVars false
set_option linter.unusedSimpArgs false

/-!
# The mean of a function over uniform rows of a domain

Helper lemmas for Props/RejectionLaw.lean.
-/

namespace Pywmi
open Formula MeasureTheory ProbabilityTheory

/-! ## One row -/

/-- SPEC: the uniform distribution on the numbers from 0 to 1. -/
noncomputable def unif : Measure ℝ := volume.restrict (Set.Ico 0 1)

instance : IsProbabilityMeasure unif := ⟨by simp [unif]⟩

/-- The value of a variable made from a number. -/
noncomputable def Domain.drawEntry (D : Domain) (v : String) (u : ℝ) (σ : Env ℝ) : Env ℝ :=
  match D.varTypes.lookup v with
  | some .bool => σ.setB v (decide (u < 1 / 2))
  | some .real =>
    match D.varDomains.lookup v with
    | some (some l, some h) => σ.setR v ((l : ℝ) + u * ((h : ℝ) - (l : ℝ)))
    | _ => σ
  | none => σ

/-- The values of a list of variables. -/
noncomputable def Domain.drawEnv (D : Domain) : (vs : List String) → (Fin vs.length → ℝ) → Env ℝ → Env ℝ
  | [], _, σ => σ
  | v :: vs, x, σ => D.drawEnv vs (fun i => x i.succ) (D.drawEntry v (x 0) σ)

/-- An assignment that is measurable. -/
def MeasEnv {Ω : Type} [MeasurableSpace Ω] (e : Ω → Env ℝ) : Prop :=
  (∀ n, Measurable fun ω => (e ω).r n) ∧ ∀ n, Measurable fun ω => (e ω).b n

theorem EnvMeas.of {φ : Env ℝ → ℝ} (h : EnvMeas φ) {Ω : Type} [MeasurableSpace Ω] {e : Ω → Env ℝ} (he : MeasEnv e) :
    Measurable fun ω => φ (e ω) := h e he.1 he.2

section
variable {Ω : Type} [MeasurableSpace Ω]

theorem MeasEnv.setR {e : Ω → Env ℝ} (he : MeasEnv e) (v : String) {t : Ω → ℝ} (ht : Measurable t) : MeasEnv fun ω => (e ω).setR v (t ω) := by
  refine ⟨fun n => ?_, fun n => ?_⟩
  · by_cases hn : n = v
    · simpa [Env.setR, hn] using ht
    · simpa [Env.setR, hn] using he.1 n
  · exact he.2 n

theorem MeasEnv.setB {e : Ω → Env ℝ} (he : MeasEnv e) (v : String) {t : Ω → Bool} (ht : Measurable t) : MeasEnv fun ω => (e ω).setB v (t ω) := by
  refine ⟨fun n => ?_, fun n => ?_⟩
  · exact he.1 n
  · by_cases hn : n = v
    · simpa [Env.setB, hn] using ht
    · simpa [Env.setB, hn] using he.2 n

theorem MeasEnv.drawEntry {e : Ω → Env ℝ} (he : MeasEnv e) (D : Domain) (v : String) {u : Ω → ℝ} (hu : Measurable u) :
    MeasEnv fun ω => D.drawEntry v (u ω) (e ω) := by
  unfold Domain.drawEntry
  split
  · refine he.setB v ?_
    have : MeasurableSet {ω | u ω < 1 / 2} := measurableSet_lt hu measurable_const
    refine measurable_to_bool ?_
    convert this using 1
    ext ω
    simp
  · split
    · exact he.setR v (measurable_const.add (hu.mul measurable_const))
    · exact he
  · exact he

theorem MeasEnv.drawEnv (D : Domain) : ∀ (vs : List String) {e : Ω → Env ℝ}, MeasEnv e → ∀ {x : Ω → Fin vs.length → ℝ}, Measurable x →
    MeasEnv fun ω => D.drawEnv vs (x ω) (e ω) := by
  intro vs
  induction vs with
  | nil => intro e he x _; exact he
  | cons v vs ih =>
    intro e he x hx
    exact ih (he.drawEntry D v ((measurable_pi_apply (0 : Fin (vs.length + 1))).comp hx))
      (measurable_pi_lambda _ fun i => (measurable_pi_apply (i.succ : Fin (vs.length + 1))).comp hx)

theorem MeasEnv.const (σ : Env ℝ) : MeasEnv fun _ : Ω => σ := ⟨fun _ => measurable_const, fun _ => measurable_const⟩

end

/-- SPEC: the length of the interval of a real variable, the number of values of a Boolean variable. -/
def Domain.width (D : Domain) (v : String) : ℚ :=
  if D.varTypes.lookup v = some .bool then 2
  else match D.varDomains.lookup v with
    | some (some l, some h) => h - l
    | _ => 1

/-- Uniform numbers on an interval. -/
theorem unif_interval (l h : ℝ) (hle : l ≤ h) (G : ℝ → ℝ) : (h - l) * ∫ u, G (l + u * (h - l)) ∂unif = ∫ t in Set.Icc l h, G t := by
  have e : ∫ u, G (l + u * (h - l)) ∂unif = ∫ u in (0 : ℝ)..1, G (l + (h - l) * u) := by
    rw [intervalIntegral.integral_of_le zero_le_one, unif, integral_Ico_eq_integral_Ioc]
    simp only [mul_comm]
  have e2 := intervalIntegral.smul_integral_comp_add_mul (a := 0) (b := 1) G (h - l) l
  rw [smul_eq_mul] at e2
  rw [e, e2, mul_zero, mul_one, add_zero, add_sub_cancel, intervalIntegral.integral_of_le hle, integral_Icc_eq_integral_Ioc]

/-- A uniform number is below one half as often as not. -/
theorem unif_coin (a b : ℝ) : 2 * ∫ u, (if u < (1 : ℝ) / 2 then a else b) ∂unif = a + b := by
  have hs : MeasurableSet {u : ℝ | u < 1 / 2} := measurableSet_lt measurable_id measurable_const
  have e : (fun u : ℝ => if u < (1 : ℝ) / 2 then a else b) = fun u => Set.indicator {u : ℝ | u < 1 / 2} (fun _ => a - b) u + b := by
    funext u
    by_cases hu : u < (1 : ℝ) / 2
    · have : u ∈ {u : ℝ | u < 1 / 2} := hu
      rw [Set.indicator_of_mem this, if_pos hu]; ring
    · have : u ∉ {u : ℝ | u < 1 / 2} := hu
      rw [Set.indicator_of_notMem this, if_neg hu]; ring
  have hm : unif.real {u : ℝ | u < 1 / 2} = 1 / 2 := by
    have e1 : {u : ℝ | u < 1 / 2} ∩ Set.Ico 0 1 = Set.Ico 0 (1 / 2) := by
      ext u
      constructor
      · rintro ⟨h1, h2⟩
        exact ⟨h2.1, h1⟩
      · rintro ⟨h1, h2⟩
        exact ⟨h2, h1, by linarith⟩
    rw [Measure.real, unif, Measure.restrict_apply hs, e1, Real.volume_Ico]
    norm_num
  rw [e, integral_add ((integrable_const _).indicator hs) (integrable_const _), integral_indicator_const _ hs, hm]
  simp
  ring

/-- The first number and the others are independent. -/
theorem draw_split (D : Domain) (v : String) (vs : List String) {φ : Env ℝ → ℝ} (hm : EnvMeas φ) {C : ℝ} (hC : ∀ σ, |φ σ| ≤ C) (σ : Env ℝ) :
    ∫ x, φ (D.drawEnv (v :: vs) x σ) ∂(Measure.pi fun _ : Fin (v :: vs).length => unif) =
      ∫ u, ∫ x, φ (D.drawEnv vs x (D.drawEntry v u σ)) ∂(Measure.pi fun _ : Fin vs.length => unif) ∂unif := by
  have hmp := measurePreserving_piFinSuccAbove (fun _ : Fin (vs.length + 1) => unif) 0
  have hme : Measurable fun p : ℝ × (Fin vs.length → ℝ) => φ (D.drawEnv vs p.2 (D.drawEntry v p.1 σ)) :=
    hm.of (MeasEnv.drawEnv D vs ((MeasEnv.const σ).drawEntry D v measurable_fst) measurable_snd)
  have h1 := hmp.integral_comp' (g := fun p : ℝ × (Fin vs.length → ℝ) => φ (D.drawEnv vs p.2 (D.drawEntry v p.1 σ)))
  refine Eq.trans ?_ (h1.trans (integral_prod _ ?_))
  · rfl
  · exact Integrable.of_bound hme.aestronglyMeasurable C (by filter_upwards with p; rw [Real.norm_eq_abs]; exact hC _)

theorem sumBools_integral (bs : List String) (F : Env ℝ → ℝ) (v : String) (σ : Env ℝ)
    (h : ∀ β : String → Bool, Integrable fun t => F ((⟨β, σ.r⟩ : Env ℝ).setR v t)) :
    (Integrable fun t => sumBools bs F (σ.setR v t)) ∧
    ∫ t, sumBools bs F (σ.setR v t) = sumBools bs (fun τ => ∫ t, F (τ.setR v t)) σ := by
  induction bs generalizing σ with
  | nil => exact ⟨h σ.b, rfl⟩
  | cons b bs ih =>
    obtain ⟨i1, e1⟩ := ih (σ.setB b true) h
    obtain ⟨i2, e2⟩ := ih (σ.setB b false) h
    refine ⟨i1.add i2, ?_⟩
    simp only [sumBools]
    rw [← e1, ← e2]
    exact integral_add i1 i2

/-- The inner integral is integrable. -/
theorem intReals_integrable {y : String} {ys : List String} (hy : y ∉ ys) {φ : Env ℝ → ℝ} {σ : Env ℝ}
    (h : Integrable fun x => φ (σ.setReals (y :: ys) x)) : Integrable fun t => intReals ys φ (σ.setR y t) := by
  have hmp := volume_preserving_piFinSuccAbove (fun _ : Fin (ys.length + 1) => ℝ) 0
  have h2 : Integrable fun p : ℝ × (Fin ys.length → ℝ) => φ ((σ.setR y p.1).setReals ys p.2) := by
    rw [← hmp.integrable_comp_emb (MeasurableEquiv.measurableEmbedding _)]
    refine h.congr ?_
    filter_upwards with x
    rw [setReals_cons hy]
    rfl
  rw [Measure.volume_eq_prod] at h2
  exact h2.integral_prod_left

/-- SPEC: a variable is Boolean, or real with an interval. -/
def Domain.drawable (D : Domain) (v : String) : Prop :=
  D.varTypes.lookup v = some .bool ∨
  (D.varTypes.lookup v = some .real ∧ ∃ l h, D.varDomains.lookup v = some (some l, some h) ∧ l ≤ h)

/-- The mean over uniform rows, times the size of the box, is the sum and integral over the box. -/
theorem draw_mean (D : Domain) {φ : Env ℝ → ℝ} (hm : EnvMeas φ) {C : ℝ} (hC : ∀ σ, |φ σ| ≤ C) {M : ℝ} :
    ∀ (vs : List String), vs.Nodup → (∀ v ∈ vs, D.drawable v) →
    (∀ σ, ∀ v ∈ vs, D.varTypes.lookup v = some .real → M < |σ.r v| → φ σ = 0) →
    (∀ σ, ∀ v ∈ vs, D.varTypes.lookup v = some .real → ∀ l h : ℚ, D.varDomains.lookup v = some (some l, some h) →
      σ.r v ∉ Set.Icc (l : ℝ) (h : ℝ) → φ σ = 0) → ∀ σ : Env ℝ,
    ((vs.map D.width).prod : ℚ) * ∫ x, φ (D.drawEnv vs x σ) ∂(Measure.pi fun _ : Fin vs.length => unif) =
      wmiOf (vs.filter fun v => D.varTypes.lookup v = some .bool) (vs.filter fun v => D.varTypes.lookup v = some .real) φ σ := by
  intro vs
  induction vs with
  | nil =>
    intro _ _ _ _ σ
    simp [wmiOf, sumBools, intReals_nil, Domain.drawEnv]
  | cons v vs ih =>
    intro hnd hd hM hz σ
    have hnd' := List.nodup_cons.mp hnd
    have ih := ih hnd'.2 (fun w hw => hd w (by simp [hw])) (fun σ w hw => hM σ w (by simp [hw])) (fun σ w hw => hz σ w (by simp [hw]))
    rw [draw_split D v vs hm hC σ, List.map_cons, List.prod_cons]
    rcases hd v (by simp) with hb | ⟨hr, l, h, hlk, hle⟩
    · have hw : D.width v = 2 := by simp [Domain.width, hb]
      have e : ∀ u : ℝ, ∫ x, φ (D.drawEnv vs x (D.drawEntry v u σ)) ∂(Measure.pi fun _ : Fin vs.length => unif) =
          if u < (1 : ℝ) / 2 then ∫ x, φ (D.drawEnv vs x (σ.setB v true)) ∂(Measure.pi fun _ : Fin vs.length => unif)
          else ∫ x, φ (D.drawEnv vs x (σ.setB v false)) ∂(Measure.pi fun _ : Fin vs.length => unif) := by
        intro u
        simp only [Domain.drawEntry, hb]
        split_ifs with hu
        · rw [decide_eq_true hu]
        · rw [decide_eq_false hu]
      simp only [e]
      rw [hw]
      have hne : ¬ D.varTypes.lookup v = some .real := by rw [hb]; simp
      simp only [List.filter_cons, hb, hne, decide_true, if_true, wmiOf, sumBools]
      simp only [wmiOf] at ih
      have hf : (decide (some Ty.bool = some Ty.real)) = false := rfl
      simp only [hf, Bool.false_eq_true, if_false]
      rw [← ih, ← ih, ← mul_add, ← unif_coin]
      push_cast
      ring
    · have hw : D.width v = h - l := by simp [Domain.width, hr, hlk]
      have hle' : (l : ℝ) ≤ (h : ℝ) := by exact_mod_cast hle
      have e : ∀ u : ℝ, D.drawEntry v u σ = σ.setR v ((l : ℝ) + u * ((h : ℝ) - (l : ℝ))) := by
        intro u
        simp only [Domain.drawEntry, hr, hlk]
      simp only [e]
      set rs := vs.filter fun v => D.varTypes.lookup v = some .real with hrs
      set bs := vs.filter fun v => D.varTypes.lookup v = some .bool with hbs
      have hvrs : v ∉ rs := fun hh => hnd'.1 (List.mem_filter.mp hh).1
      have hf1 : (v :: vs).filter (fun v => D.varTypes.lookup v = some .bool) = bs := by simp [List.filter_cons, hr, hbs]
      have hf2 : (v :: vs).filter (fun v => D.varTypes.lookup v = some .real) = v :: rs := by simp [List.filter_cons, hr, hrs]
      rw [hf1, hf2, wmiOf]
      have hint : ∀ τ : Env ℝ, Integrable fun x => φ (τ.setReals (v :: rs) x) := by
        intro τ
        refine Tame.integrable hm ⟨M, C, fun x => ⟨hC _, fun i hi => ?_⟩⟩
        have hmem : (v :: rs)[i] ∈ v :: rs := List.getElem_mem _
        have hnd2 : (v :: rs).Nodup := List.nodup_cons.mpr ⟨hvrs, hnd'.2.filter _⟩
        have hval : (τ.setReals (v :: rs) x).r (v :: rs)[i] = x i := by
          have : (v :: rs).idxOf (v :: rs)[i] = i := hnd2.idxOf_getElem i i.2
          simp only [Env.setReals]
          rw [dif_pos (by rw [this]; exact i.2)]
          congr 1
          exact Fin.ext this
        have hin : (v :: rs)[i] ∈ v :: vs ∧ D.varTypes.lookup (v :: rs)[i] = some .real := by
          have hall : ∀ w ∈ v :: rs, w ∈ v :: vs ∧ D.varTypes.lookup w = some .real := by
            intro w hw
            rw [← hf2] at hw
            simpa using List.mem_filter.mp hw
          exact hall _ hmem
        exact hM _ _ hin.1 hin.2 (by rw [hval]; exact hi)
      have hcons : ∀ τ : Env ℝ, intReals (v :: rs) φ τ = ∫ t, intReals rs φ (τ.setR v t) := fun τ => intReals_cons hvrs (hint τ)
      rw [show intReals (v :: rs) φ = fun τ => ∫ t, intReals rs φ (τ.setR v t) from funext hcons,
        ← (sumBools_integral bs (intReals rs φ) v σ fun β => intReals_integrable hvrs (hint _)).2]
      have hzero : ∀ t : ℝ, t ∉ Set.Icc (l : ℝ) (h : ℝ) → sumBools bs (intReals rs φ) (σ.setR v t) = 0 := by
        intro t ht
        have : ∀ (bs : List String) (τ : Env ℝ), τ.r v = t → sumBools bs (intReals rs φ) τ = 0 := by
          intro bs
          induction bs with
          | nil =>
            intro τ hτ
            simp only [sumBools, intReals]
            rw [integral_congr_ae (g := fun _ => 0)]
            · simp
            · filter_upwards with x
              exact hz _ v (by simp) hr l h hlk (by rw [setReals_mem hvrs, hτ]; exact ht)
          | cons b bs ihb =>
            intro τ hτ
            simp only [sumBools]
            rw [ihb _ (by simpa [Env.setB] using hτ), ihb _ (by simpa [Env.setB] using hτ), add_zero]
        exact this bs _ (by simp [Env.setR])
      rw [← setIntegral_eq_integral_of_forall_compl_eq_zero hzero, ← unif_interval _ _ hle', hw]
      simp only [wmiOf] at ih
      simp only [← ih]
      rw [integral_const_mul]
      push_cast
      ring

end Pywmi
