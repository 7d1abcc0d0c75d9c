import Verif.Spec.Wmi
import Mathlib.Data.Finset.Update
import Mathlib.MeasureTheory.Integral.Marginal

set_option linter.unusedSectionVars false
set_option linter.unusedSimpArgs false

/-!
# SPEC: integrating out a set of real variables

Functions of the values of the real variables, and their integral over a finite set of variables.  Nothing here refers to
the code.
-/

namespace Pywmi
open MeasureTheory Function

/-- SPEC: the Lebesgue integral over the variables in `V`, as a function of the others. -/
noncomputable def margin (V : Finset String) (F : (String → ℝ) → ℝ) (ρ : String → ℝ) : ℝ :=
  ∫ x : V → ℝ, F (updateFinset ρ V x)

/-- SPEC: measurable, and bounded when finitely many variables are. -/
def Nice (F : (String → ℝ) → ℝ) : Prop :=
  Measurable F ∧ ∃ W : Finset String, ∀ M, ∃ C, ∀ ρ : String → ℝ, (∀ v ∈ W, |ρ v| ≤ M) → |F ρ| ≤ C

/-- SPEC: zero as soon as one of the variables is large. -/
def Within (M : ℝ) (V : Finset String) (F : (String → ℝ) → ℝ) : Prop := ∀ ρ : String → ℝ, ∀ v ∈ V, M < |ρ v| → F ρ = 0

/-- SPEC: a function that does not depend on the variables in `V`. -/
def Free (V : Finset String) (F : (String → ℝ) → ℝ) : Prop :=
  ∀ ρ ρ' : String → ℝ, (∀ v, v ∉ V → ρ v = ρ' v) → F ρ = F ρ'

section
variable {V W : Finset String} {F G : (String → ℝ) → ℝ}

theorem updateFinset_mem {ρ : String → ℝ} {x : V → ℝ} {v : String} (h : v ∈ V) : updateFinset ρ V x v = x ⟨v, h⟩ := by
  simp [updateFinset, h]

theorem updateFinset_notMem {ρ : String → ℝ} {x : V → ℝ} {v : String} (h : v ∉ V) : updateFinset ρ V x v = ρ v := by
  simp [updateFinset, h]

theorem Free.update (h : Free V F) (ρ : String → ℝ) (x : V → ℝ) : F (updateFinset ρ V x) = F ρ :=
  h _ _ fun _ hv => updateFinset_notMem hv

theorem Free.mono (h : Free V F) (hs : W ⊆ V) : Free W F := fun ρ ρ' e => h ρ ρ' fun v hv => e v fun hw => hv (hs hw)

theorem Free.mul (h : Free V F) (h' : Free V G) : Free V fun ρ => F ρ * G ρ := fun ρ ρ' e => by
  show F ρ * G ρ = F ρ' * G ρ'
  rw [h ρ ρ' e, h' ρ ρ' e]

theorem Free.add (h : Free V F) (h' : Free V G) : Free V fun ρ => F ρ + G ρ := fun ρ ρ' e => by
  show F ρ + G ρ = F ρ' + G ρ'
  rw [h ρ ρ' e, h' ρ ρ' e]

theorem Free.const (c : ℝ) : Free V fun _ => c := fun _ _ _ => rfl

theorem Within.mono {M : ℝ} (h : Within M V F) (hs : W ⊆ V) : Within M W F := fun ρ v hv => h ρ v (hs hv)

theorem Within.mul_left {M : ℝ} (h : Within M V G) : Within M V fun ρ => F ρ * G ρ := fun ρ v hv hm => by
  show F ρ * G ρ = 0
  rw [h ρ v hv hm, mul_zero]

theorem Within.mul_right {M : ℝ} (h : Within M V F) : Within M V fun ρ => F ρ * G ρ := fun ρ v hv hm => by
  show F ρ * G ρ = 0
  rw [h ρ v hv hm, zero_mul]

theorem Within.add {M : ℝ} (h : Within M V F) (h' : Within M V G) : Within M V fun ρ => F ρ + G ρ := fun ρ v hv hm => by
  show F ρ + G ρ = 0
  rw [h ρ v hv hm, h' ρ v hv hm, zero_add]

theorem Within.union {M : ℝ} (h : Within M V F) (h' : Within M W F) : Within M (V ∪ W) F := fun ρ v hv hm => by
  rcases Finset.mem_union.mp hv with hv | hv
  · exact h ρ v hv hm
  · exact h' ρ v hv hm

/-! ### Closure -/

theorem Nice.const (c : ℝ) : Nice fun _ => c := ⟨measurable_const, ∅, fun _ => ⟨|c|, fun _ _ => le_refl _⟩⟩

theorem Nice.var (n : String) : Nice fun ρ => ρ n :=
  ⟨measurable_pi_apply n, {n}, fun M => ⟨M, fun _ h => h n (by simp)⟩⟩

theorem Nice.mul (h : Nice F) (h' : Nice G) : Nice fun ρ => F ρ * G ρ := by
  obtain ⟨m, W, b⟩ := h
  obtain ⟨m', W', b'⟩ := h'
  refine ⟨m.mul m', W ∪ W', fun M => ?_⟩
  obtain ⟨C, hC⟩ := b M
  obtain ⟨C', hC'⟩ := b' M
  refine ⟨C * C', fun ρ hρ => ?_⟩
  have h1 := hC ρ fun v hv => hρ v (Finset.mem_union_left _ hv)
  have h2 := hC' ρ fun v hv => hρ v (Finset.mem_union_right _ hv)
  rw [abs_mul]
  exact mul_le_mul h1 h2 (abs_nonneg _) ((abs_nonneg _).trans h1)

theorem Nice.add (h : Nice F) (h' : Nice G) : Nice fun ρ => F ρ + G ρ := by
  obtain ⟨m, W, b⟩ := h
  obtain ⟨m', W', b'⟩ := h'
  refine ⟨m.add m', W ∪ W', fun M => ?_⟩
  obtain ⟨C, hC⟩ := b M
  obtain ⟨C', hC'⟩ := b' M
  refine ⟨C + C', fun ρ hρ => ?_⟩
  have h1 := hC ρ fun v hv => hρ v (Finset.mem_union_left _ hv)
  have h2 := hC' ρ fun v hv => hρ v (Finset.mem_union_right _ hv)
  exact (abs_add_le _ _).trans (add_le_add h1 h2)

theorem Nice.congr (h : Nice F) (e : ∀ ρ, G ρ = F ρ) : Nice G := by
  rwa [show G = F from funext e]

theorem Nice.list_sum {α : Type} (f : α → (String → ℝ) → ℝ) (xs : List α) (h : ∀ x ∈ xs, Nice (f x)) :
    Nice fun ρ => (xs.map fun x => f x ρ).sum := by
  induction xs with
  | nil => simpa using Nice.const 0
  | cons x xs ih =>
    simp only [List.map_cons, List.sum_cons]
    exact (h x (by simp)).add (ih fun y hy => h y (by simp [hy]))

theorem Nice.finset_prod {α : Type} [DecidableEq α] (f : α → (String → ℝ) → ℝ) (T : Finset α) (h : ∀ x ∈ T, Nice (f x)) :
    Nice fun ρ => ∏ x ∈ T, f x ρ := by
  induction T using Finset.induction_on with
  | empty => simpa using Nice.const 1
  | insert x T hx ih =>
    simp only [Finset.prod_insert hx]
    exact (h x (by simp)).mul (ih fun y hy => h y (by simp [hy]))

/-! ### Integrability -/

theorem measurable_update (V : Finset String) :
    Measurable fun p : (String → ℝ) × (V → ℝ) => updateFinset p.1 V p.2 := by
  refine measurable_pi_iff.mpr fun v => ?_
  by_cases hv : v ∈ V
  · simp only [updateFinset_mem hv]
    exact (measurable_pi_apply _).comp measurable_snd
  · simp only [updateFinset_notMem hv]
    exact (measurable_pi_apply _).comp measurable_fst

theorem measurable_update_right (ρ : String → ℝ) (V : Finset String) : Measurable fun x : V → ℝ => updateFinset ρ V x :=
  (measurable_update V).comp (measurable_const.prodMk measurable_id)

/-- The box in which the function lives. -/
theorem Within.indicator {M : ℝ} (hw : Within M V F) (ρ : String → ℝ) :
    (fun x : V → ℝ => F (updateFinset ρ V x)) =
      (Set.Icc (fun _ => -M) (fun _ => M)).indicator fun x : V → ℝ => F (updateFinset ρ V x) := by
  funext x
  by_cases hx : x ∈ Set.Icc (fun _ : V => -M) (fun _ => M)
  · rw [Set.indicator_of_mem hx]
  · rw [Set.indicator_of_notMem hx]
    have : ∃ i, M < |x i| := by
      by_contra hcon
      push Not at hcon
      exact hx ⟨fun i => (abs_le.mp (hcon i)).1, fun i => (abs_le.mp (hcon i)).2⟩
    obtain ⟨i, hi⟩ := this
    exact hw _ i.1 i.2 (by rw [updateFinset_mem i.2]; exact hi)

theorem box_finite (V : Finset String) (M : ℝ) : volume (Set.Icc (fun _ : V => -M) fun _ => M) < ⊤ := by
  rw [Real.volume_Icc_pi]
  exact ENNReal.prod_lt_top fun _ _ => ENNReal.ofReal_lt_top

/-- A bound on the box, uniform in the other variables. -/
theorem Nice.bound_box (h : Nice F) (V : Finset String) (M : ℝ) : ∃ W : Finset String, ∀ M0, ∃ C, 0 ≤ C ∧ ∀ ρ : String → ℝ,
    (∀ v ∈ W, |ρ v| ≤ M0) → ∀ x ∈ Set.Icc (fun _ : V => -M) (fun _ => M), |F (updateFinset ρ V x)| ≤ C := by
  obtain ⟨_, W, b⟩ := h
  refine ⟨W, fun M0 => ?_⟩
  obtain ⟨C, hC⟩ := b (max M M0)
  refine ⟨max C 0, le_max_right _ _, fun ρ hρ x hx => le_max_of_le_left (hC _ fun v hv => ?_)⟩
  by_cases hV : v ∈ V
  · rw [updateFinset_mem hV]
    exact le_max_of_le_left (abs_le.mpr ⟨hx.1 _, hx.2 _⟩)
  · rw [updateFinset_notMem hV]
    exact le_max_of_le_right (hρ v hv)

theorem exists_bound (W : Finset String) (ρ : String → ℝ) : ∃ M0, ∀ v ∈ W, |ρ v| ≤ M0 :=
  ⟨∑ w ∈ W, |ρ w|, fun _ hv => Finset.single_le_sum (f := fun w => |ρ w|) (fun _ _ => abs_nonneg _) hv⟩

theorem Nice.integrable {M : ℝ} (h : Nice F) (hw : Within M V F) (ρ : String → ℝ) :
    Integrable fun x : V → ℝ => F (updateFinset ρ V x) := by
  rw [hw.indicator ρ, integrable_indicator_iff measurableSet_Icc]
  obtain ⟨W, b⟩ := h.bound_box V M
  obtain ⟨M0, hM0⟩ := exists_bound W ρ
  obtain ⟨C, _, hC⟩ := b M0
  refine IntegrableOn.of_bound (box_finite V M)
    ((h.1.comp (measurable_update_right ρ V)).aestronglyMeasurable) C ?_
  filter_upwards [ae_restrict_mem measurableSet_Icc] with x hx
  exact hC ρ hM0 x hx

theorem Nice.margin {M : ℝ} (h : Nice F) (hw : Within M V F) : Nice (margin V F) := by
  refine ⟨?_, ?_⟩
  · have : StronglyMeasurable fun p : (String → ℝ) × (V → ℝ) => F (updateFinset p.1 V p.2) :=
      (h.1.comp (measurable_update V)).stronglyMeasurable
    exact this.integral_prod_right'.measurable
  · obtain ⟨W, b⟩ := h.bound_box V M
    refine ⟨W, fun M0 => ?_⟩
    obtain ⟨C, _, hC⟩ := b M0
    refine ⟨C * (volume (Set.Icc (fun _ : V => -M) fun _ => M)).toReal, fun ρ hρ => ?_⟩
    rw [Pywmi.margin, hw.indicator ρ, integral_indicator measurableSet_Icc]
    exact norm_setIntegral_le_of_norm_le_const (f := fun x : V → ℝ => F (updateFinset ρ V x)) (box_finite V M)
      fun x hx => hC ρ hρ x hx

theorem Within.margin {M : ℝ} (hw : Within M W F) (hd : Disjoint V W) : Within M W (margin V F) := fun ρ v hv hm => by
  have : (fun x : V → ℝ => F (updateFinset ρ V x)) = fun _ => 0 := funext fun x => by
    refine hw _ v hv ?_
    rw [updateFinset_notMem fun h => Finset.disjoint_left.mp hd h hv]
    exact hm
  rw [Pywmi.margin, this, integral_zero]

theorem Free.margin (h : Free W F) : Free W (margin V F) := fun ρ ρ' e => by
  unfold Pywmi.margin
  congr 1
  funext x
  refine h _ _ fun v hv => ?_
  by_cases hV : v ∈ V
  · rw [updateFinset_mem hV, updateFinset_mem hV]
  · rw [updateFinset_notMem hV, updateFinset_notMem hV, e v hv]

theorem Free.margin_self : Free V (Pywmi.margin V F) := fun ρ ρ' e => by
  unfold Pywmi.margin
  congr 1
  funext x
  congr 1
  funext v
  by_cases hV : v ∈ V
  · rw [updateFinset_mem hV, updateFinset_mem hV]
  · rw [updateFinset_notMem hV, updateFinset_notMem hV, e v hV]

/-! ### Laws of the integral -/

theorem margin_empty (F : (String → ℝ) → ℝ) (ρ : String → ℝ) : margin ∅ F ρ = F ρ := by
  unfold margin
  have : (fun x : (∅ : Finset String) → ℝ => F (updateFinset ρ ∅ x)) = fun _ => F ρ := by
    funext x; rw [updateFinset_empty]
  rw [this, integral_const]
  have : IsEmpty (∅ : Finset String) := ⟨fun i => Finset.notMem_empty _ i.2⟩
  rw [Measure.real, Measure.volume_pi_eq_dirac (α := fun _ : (∅ : Finset String) => ℝ) (fun i => isEmptyElim i)]
  simp

theorem margin_congr (h : ∀ ρ, F ρ = G ρ) (ρ : String → ℝ) : margin V F ρ = margin V G ρ := by
  rw [show F = G from funext h]

theorem margin_zero (V : Finset String) (ρ : String → ℝ) : margin V (fun _ => 0) ρ = 0 := by simp [margin]

theorem margin_mul_left (h : Free V F) (ρ : String → ℝ) : margin V (fun ρ => F ρ * G ρ) ρ = F ρ * margin V G ρ := by
  unfold margin
  rw [← integral_const_mul]
  congr 1
  funext x
  show F _ * G _ = _
  rw [h.update]

theorem margin_add {M : ℝ} (hF : Nice F) (hG : Nice G) (wF : Within M V F) (wG : Within M V G) (ρ : String → ℝ) :
    margin V (fun ρ => F ρ + G ρ) ρ = margin V F ρ + margin V G ρ :=
  integral_add (hF.integrable wF ρ) (hG.integrable wG ρ)

/-- Fubini: a union of disjoint sets of variables can be integrated out one set after the other. -/
theorem margin_union {M : ℝ} (hd : Disjoint V W) (hF : Nice F) (hw : Within M (V ∪ W) F) (ρ : String → ℝ) :
    margin (V ∪ W) F ρ = margin V (margin W F) ρ := by
  have hmp := volume_preserving_piFinsetUnion (fun _ : String => ℝ) hd
  have e : ∀ p : (V → ℝ) × (W → ℝ), updateFinset ρ (V ∪ W) (MeasurableEquiv.piFinsetUnion (fun _ => ℝ) hd p) =
      updateFinset (updateFinset ρ V p.1) W p.2 := fun p => (updateFinset_updateFinset hd).symm
  have h1 : margin (V ∪ W) F ρ = ∫ p : (V → ℝ) × (W → ℝ), F (updateFinset (updateFinset ρ V p.1) W p.2) := by
    rw [margin, ← hmp.integral_comp']
    simp only [e]
  have h2 : Integrable fun p : (V → ℝ) × (W → ℝ) => F (updateFinset (updateFinset ρ V p.1) W p.2) := by
    have := hF.integrable hw ρ
    rw [← hmp.integrable_comp_emb (MeasurableEquiv.measurableEmbedding _)] at this
    refine this.congr ?_
    filter_upwards with p
    simp only [Function.comp, e]
  rw [h1, Measure.volume_eq_prod, integral_prod _ (by rwa [← Measure.volume_eq_prod])]
  rfl

/-- The integral of a product of functions of different variables. -/
theorem margin_prod (hd : Disjoint V W) (hF : Free W F) (hG : Free V G) (ρ : String → ℝ) :
    margin (V ∪ W) (fun ρ => F ρ * G ρ) ρ = margin V F ρ * margin W G ρ := by
  have hmp := volume_preserving_piFinsetUnion (fun _ : String => ℝ) hd
  have e : ∀ p : (V → ℝ) × (W → ℝ), updateFinset ρ (V ∪ W) (MeasurableEquiv.piFinsetUnion (fun _ => ℝ) hd p) =
      updateFinset (updateFinset ρ V p.1) W p.2 := fun p => (updateFinset_updateFinset hd).symm
  have eG : ∀ p : (V → ℝ) × (W → ℝ), G (updateFinset (updateFinset ρ V p.1) W p.2) = G (updateFinset ρ W p.2) := fun p => by
    refine hG _ _ fun v hv => ?_
    by_cases hW : v ∈ W
    · rw [updateFinset_mem hW, updateFinset_mem hW]
    · rw [updateFinset_notMem hW, updateFinset_notMem hW, updateFinset_notMem hv]
  rw [margin, ← hmp.integral_comp']
  simp only [e, eG, hF.update]
  rw [Measure.volume_eq_prod, integral_prod_mul (fun x => F (updateFinset ρ V x)) fun y => G (updateFinset ρ W y)]
  rfl

end
end Pywmi
