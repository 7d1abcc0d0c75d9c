import Verif.Sample.Stream
import Mathlib.Probability.Moments.Variance

set_option linter.unusedSectionVars false
set_option linter.unusedSimpArgs false

/-!
# C79: what the rejection engine estimates

When the numbers of the generator are independent and uniform, the expected value of `compute_volume` is the weighted
model integral, its mean square error is known and falls with the number of samples, and volumes and probabilities
converge, with probability one.
-/

namespace Pywmi
open Formula MeasureTheory ProbabilityTheory Filter Topology

/-- SPEC: the numbers of the generator, from a random state on, are independent and uniform. -/
structure IidUniform (R : Rng ℝ) {Ω : Type} [MeasurableSpace Ω] (P : Measure Ω) (s : Ω → R.State) : Prop where
  prob : IsProbabilityMeasure P
  meas : ∀ k, Measurable fun ω => R.out (s ω) k
  law : ∀ k, P.map (fun ω => R.out (s ω) k) = unif
  indep : iIndepFun (fun k ω => R.out (s ω) k) P

/-- The assignment of a row. -/
noncomputable def blockEnv (D : Domain) (R : Rng ℝ) (s : R.State) (i : ℕ) : Env ℝ :=
  D.drawEnv D.vars (fun j => R.out s (i * D.vars.length + j)) env0

section
variable {R : Rng ℝ} {Ω : Type} [MeasurableSpace Ω] {P : Measure Ω} {s : Ω → R.State}

theorem IidUniform.block_meas (h : IidUniform R P s) (m i : ℕ) :
    Measurable fun ω => fun j : Fin m => R.out (s ω) (i * m + j) := measurable_pi_lambda _ fun _ => h.meas _

theorem IidUniform.block_law (h : IidUniform R P s) (m i : ℕ) :
    P.map (fun ω => fun j : Fin m => R.out (s ω) (i * m + j)) = Measure.pi fun _ : Fin m => unif := by
  have := h.prob
  have hinj : Function.Injective fun j : Fin m => i * m + (j : ℕ) := fun a b hab => Fin.ext (by simpa using hab)
  have hi := h.indep.precomp hinj
  rw [(iIndepFun_iff_map_fun_eq_pi_map fun j => (h.meas _).aemeasurable).mp hi]
  simp only [h.law]

theorem IidUniform.block_indep (h : IidUniform R P s) {m i i' : ℕ} (hne : i ≠ i') :
    IndepFun (fun ω => fun j : Fin m => R.out (s ω) (i * m + j)) (fun ω => fun j : Fin m => R.out (s ω) (i' * m + j)) P := by
  let S : ℕ → Finset ℕ := fun i => Finset.univ.image fun j : Fin m => i * m + (j : ℕ)
  have hmem : ∀ (i : ℕ) (j : Fin m), i * m + (j : ℕ) ∈ S i := fun i j => Finset.mem_image.mpr ⟨j, Finset.mem_univ _, rfl⟩
  have hdis : Disjoint (S i) (S i') := by
    rw [Finset.disjoint_left]
    intro a h1 h2
    obtain ⟨j, -, rfl⟩ := Finset.mem_image.mp h1
    obtain ⟨j', -, e⟩ := Finset.mem_image.mp h2
    have hm : 0 < m := Fin.pos j
    apply hne
    have e1 : (i * m + (j : ℕ)) / m = i := by rw [mul_comm, Nat.mul_add_div hm, Nat.div_eq_of_lt j.2, add_zero]
    have e2 : (i' * m + (j' : ℕ)) / m = i' := by rw [mul_comm, Nat.mul_add_div hm, Nat.div_eq_of_lt j'.2, add_zero]
    rw [← e1, ← e2, e]
  have := h.indep.indepFun_finset (S i) (S i') hdis h.meas
  exact this.comp (φ := fun y (j : Fin m) => y ⟨_, hmem i j⟩) (ψ := fun y (j : Fin m) => y ⟨_, hmem i' j⟩)
    (measurable_pi_lambda _ fun _ => measurable_pi_apply _) (measurable_pi_lambda _ fun _ => measurable_pi_apply _)

/-- What the law of the generator gives for a bounded function of the rows. -/
theorem IidUniform.rows (h : IidUniform R P s) (D : Domain) {φ : Env ℝ → ℝ} (hm : EnvMeas φ) {C : ℝ} (hC : ∀ σ, |φ σ| ≤ C) :
    (∀ i, MemLp (fun ω => φ (blockEnv D R (s ω) i)) 2 P) ∧
    (∀ i, ∫ ω, φ (blockEnv D R (s ω) i) ∂P = ∫ x, φ (D.drawEnv D.vars x env0) ∂(Measure.pi fun _ : Fin D.vars.length => unif)) ∧
    (∀ i, IdentDistrib (fun ω => φ (blockEnv D R (s ω) i)) (fun ω => φ (blockEnv D R (s ω) 0)) P P) ∧
    Pairwise fun i j => IndepFun (fun ω => φ (blockEnv D R (s ω) i)) (fun ω => φ (blockEnv D R (s ω) j)) P := by
  have := h.prob
  have hg : Measurable fun x : Fin D.vars.length → ℝ => φ (D.drawEnv D.vars x env0) :=
    hm.of (MeasEnv.drawEnv D D.vars (MeasEnv.const env0) measurable_id)
  have hX : ∀ i, Measurable fun ω => φ (blockEnv D R (s ω) i) := fun i => hg.comp (h.block_meas _ i)
  refine ⟨fun i => ?_, fun i => ?_, fun i => ?_, fun i j hij => ?_⟩
  · exact MemLp.of_bound (hX i).aestronglyMeasurable C (by filter_upwards with ω; rw [Real.norm_eq_abs]; exact hC _)
  · rw [← h.block_law D.vars.length i, integral_map (h.block_meas _ i).aemeasurable hg.aestronglyMeasurable]
    rfl
  · have e : IdentDistrib (fun ω => fun j : Fin D.vars.length => R.out (s ω) (i * D.vars.length + j))
        (fun ω => fun j : Fin D.vars.length => R.out (s ω) (0 * D.vars.length + j)) P P :=
      ⟨(h.block_meas _ i).aemeasurable, (h.block_meas _ 0).aemeasurable, by rw [h.block_law, h.block_law]⟩
    exact e.comp hg
  · exact (h.block_indep hij).comp hg hg

end

/-! ## The integrand -/

/-- SPEC: no weight is weight one. -/
def weightOr : Option Formula → Formula
  | none => .realC 1
  | some w => w

theorem inBox_value_bounded {D : Domain} {S w : Formula} (hP : Problem D S w) :
    ∃ C, ∀ σ : Env ℝ, D.inBox σ → |value σ w| ≤ C := by
  obtain ⟨M, h0, hM⟩ := box_bounded hP.box
  obtain ⟨C, hC⟩ := value_bounded w M
  refine ⟨C, fun σ hσ => ?_⟩
  classical
  let τ : Env ℝ := ⟨σ.b, fun v => if v ∈ D.reals then σ.r v else 0⟩
  have e : value σ w = value τ w := by
    refine value_congr hP.weightWt fun p hp => ?_
    obtain ⟨h1, h2⟩ := hP.weightVars p hp
    obtain ⟨n, t⟩ := p
    cases t with
    | bool => rfl
    | real => simp only [Agree, τ]; rw [if_pos (mem_reals.mpr ⟨h1, h2⟩)]
  rw [e]
  refine hC _ fun p _ => ?_
  by_cases hp : p.1 ∈ D.reals
  · simp only [τ, if_pos hp]; exact hM σ hσ _ hp
  · simp only [τ, if_neg hp, abs_zero]; exact h0

/-- What the integrand of a problem satisfies, for every power of it that is used. -/
structure BoxFun (D : Domain) (φ : Env ℝ → ℝ) : Prop where
  meas : EnvMeas φ
  bounded : ∃ C, ∀ σ, |φ σ| ≤ C
  zero : ∀ σ, ¬ D.inBox σ → φ σ = 0

theorem Problem.boxFun {D : Domain} {S w : Formula} (hP : Problem D S w) : BoxFun D (D.restricted true (density S w)) := by
  refine ⟨restricted_meas D true (density_meas S w), ?_, fun σ hσ => by simp [Domain.restricted, hσ]⟩
  obtain ⟨C, hC⟩ := inBox_value_bounded hP
  refine ⟨max C 0, fun σ => ?_⟩
  unfold Domain.restricted
  split_ifs with h
  · exact le_max_of_le_left ((density_le S w σ).trans (hC σ (h rfl)))
  · simp

theorem lookup_entry {β : Type} {d : List (String × β)} {k : String} {v : β} (h : d.lookup k = some v) : (k, v) ∈ d := by
  induction d with
  | nil => simp at h
  | cons p d ih =>
    obtain ⟨a, b⟩ := p
    by_cases hk : k = a
    · subst hk
      simp only [List.lookup_cons, beq_self_eq_true, Option.some.injEq] at h
      simp [h]
    · have hb : (k == a) = false := by simpa using hk
      simp only [List.lookup_cons, hb] at h
      exact List.mem_cons_of_mem _ (ih h)

theorem BoxFun.sq {D : Domain} {φ : Env ℝ → ℝ} (h : BoxFun D φ) : BoxFun D fun σ => φ σ ^ 2 := by
  obtain ⟨C, hC⟩ := h.bounded
  refine ⟨fun e hr hb => (h.meas e hr hb).pow_const 2, ⟨C ^ 2, fun σ => ?_⟩, fun σ hσ => by rw [h.zero σ hσ]; simp⟩
  rw [abs_pow]
  exact pow_le_pow_left₀ (abs_nonneg _) (hC σ) 2

/-- SPEC: the size of the box of a domain: the product of the lengths of the intervals and of 2 per Boolean variable. -/
def Domain.size (D : Domain) : ℚ := (D.vars.map D.width).prod

/-- The mean over rows, times the size of the box, is the integral. -/
theorem BoxFun.mean {D : Domain} (hD : BoxOk D) {φ : Env ℝ → ℝ} (h : BoxFun D φ) :
    (D.size : ℝ) * ∫ x, φ (D.drawEnv D.vars x env0) ∂(Measure.pi fun _ : Fin D.vars.length => unif) = wmiOf D.bools D.reals φ env0 := by
  obtain ⟨C, hC⟩ := h.bounded
  obtain ⟨M, h0, hM⟩ := box_bounded hD
  refine draw_mean D h.meas hC (M := M) D.vars hD.wf.nodup (fun v hv => hD.drawable hv) ?_ ?_ env0
  · intro σ v hv hr hlt
    refine h.zero σ fun hb => ?_
    have := hM σ hb v (mem_reals.mpr ⟨hv, hr⟩)
    linarith
  · intro σ v hv hr l u hlk hn
    refine h.zero σ fun hb => hn ?_
    have := hb (v, some l, some u) (lookup_entry hlk)
    simpa [Domain.inBounds] using this

/-! ## The engine on a stream -/

theorem out_bounds {R : Rng ℝ} (hR : RngOk R) (s : R.State) (k : ℕ) : 0 ≤ R.out s k ∧ R.out s k < 1 := ⟨hR.low _, hR.high _⟩

/-- The rows of the engine. -/
theorem uniform_blocks {R : Rng ℝ} (hR : RngOk R) {D : Domain} (hD : BoxOk D) (n : ℕ) (s : R.State) :
    ∃ (rows : List (List ℝ)) (s' : R.State), uniform R D n none s = .ok (rows, s') ∧ rows.length = n ∧
      ∀ (S w : Formula), Problem D S w →
        (rows.map fun row => if truth (rowEnv D.vars row) S then value (rowEnv D.vars row) w else 0).sum =
          ∑ i ∈ Finset.range n, D.restricted true (density S w) (blockEnv D R s i) := by
  obtain ⟨fs, hf, hag⟩ := drawEnv_agree D D.vars hD.wf.nodup fun v hv => hD.drawable hv
  refine ⟨_, _, by simp only [uniform, hf]; rfl, by simp [drawRows_out], fun S w hP => ?_⟩
  rw [drawRows_out, List.map_map, List.map_ofFn, List.sum_ofFn, Finset.sum_range]
  refine Finset.sum_congr rfl fun i _ => ?_
  have hA : ∀ f : Formula, D.covers f → ∀ p ∈ syms f, Agree (rowEnv D.vars (List.zipWith (fun f x => f x) fs
      (List.ofFn fun j : Fin D.vars.length => R.out s (i * D.vars.length + j)))) (blockEnv D R s i) p :=
    fun f hc p hp => hag _ env0 p.1 (hc p hp).1 p.2 (hc p hp).2
  have hbox : D.inBox (blockEnv D R s i) := drawEnv_inBox hD (fun j => out_bounds hR s _) env0
  have e : D.restricted true (density S w) (blockEnv D R s i) = density S w (blockEnv D R s i) := by
    simp [Domain.restricted, hbox]
  rw [e]
  simp only [Function.comp, density]
  rw [truth_congr hP.supportWt (hA S hP.supportVars), value_congr hP.weightWt (hA w hP.weightVars)]

theorem sum_filter_ite {α : Type} (rows : List α) (p : α → Bool) (f : α → ℝ) :
    ((rows.filter p).map f).sum = (rows.map fun r => if p r then f r else 0).sum := by
  induction rows with
  | nil => rfl
  | cons r rows ih =>
    simp only [List.filter_cons, List.map_cons, List.sum_cons, ← ih]
    split_ifs <;> simp

theorem rowWeight_or (D : Domain) (weight : Option Formula) (row : List ℝ) :
    rowWeight D weight row = value (rowEnv D.vars row) (weightOr weight) := by
  cases weight <;> simp [rowWeight, weightOr, value]

/-- What `compute_volume` returns, on the stream. -/
theorem rejectionVolume_blocks {R : Rng ℝ} (hR : RngOk R) {pypow : ℝ → ℝ → Except PyErr ℝ} (hpow : PowOk pypow) {D : Domain}
    {S : Formula} {weight : Option Formula} (hP : Problem D S (weightOr weight)) {n : ℕ} (hn : 0 < n) (s : R.State) :
    ∃ s', rejectionVolume R pypow D S weight n none s =
      .ok ((D.size : ℝ) / n * ∑ i ∈ Finset.range n, D.restricted true (density S (weightOr weight)) (blockEnv D R s i), s') := by
  obtain ⟨rows, s', e, hl, hsum⟩ := uniform_blocks hR hP.box n s
  have hne : rows ≠ [] := by rintro rfl; simp at hl; omega
  refine ⟨s', ?_⟩
  have hv := volumeOf_correct (K := ℝ) hpow hP.box.wf hP.supportWt (fun p hp => (hP.supportVars p hp).1) (weight := weight)
    (fun w hw => by subst hw; exact ⟨hP.weightWt, fun p hp => (hP.weightVars p hp).1⟩) ((boundVolume_correct hP.box).1.trans (by rw [boxVolume_width hP.box])) hne
  simp only [rejectionVolume, e, hv, hl, sum_filter_ite, rowWeight_or, hsum S _ hP]
  rfl

/-! ## C79 -/

/-- SPEC: the number returned; 0 on an error. -/
def returned {S : Type} : Except PyErr (ℝ × S) → ℝ
  | .ok v => v.1
  | .error _ => 0

section
variable {R : Rng ℝ} (hR : RngOk R) {Ω : Type} [MeasurableSpace Ω] {P : Measure Ω} {s : Ω → R.State} (hs : IidUniform R P s)
  {pypow : ℝ → ℝ → Except PyErr ℝ} (hpow : PowOk pypow) {D : Domain} {S : Formula} {weight : Option Formula}
  (hP : Problem D S (weightOr weight))
include hR hs hpow hP

/-- **C79**: for every number of samples, `compute_volume` does not fail, and its expected value is the weighted model
integral. -/
theorem rejection_unbiased {n : ℕ} (hn : 0 < n) :
    (∀ ω, ∃ v s', rejectionVolume R pypow D S weight n none (s ω) = .ok (v, s')) ∧
    Integrable (fun ω => returned (rejectionVolume R pypow D S weight n none (s ω))) P ∧
    ∫ ω, returned (rejectionVolume R pypow D S weight n none (s ω)) ∂P = D.volumeOf true (density S (weightOr weight)) := by
  have := hs.prob
  obtain ⟨C, hC⟩ := hP.boxFun.bounded
  obtain ⟨r1, r2, -, -⟩ := hs.rows D hP.boxFun.meas hC
  have hval : ∀ ω, returned (rejectionVolume R pypow D S weight n none (s ω)) =
      (D.size : ℝ) / n * ∑ i ∈ Finset.range n, D.restricted true (density S (weightOr weight)) (blockEnv D R (s ω) i) := by
    intro ω
    obtain ⟨s', e⟩ := rejectionVolume_blocks hR hpow hP hn (s ω)
    rw [e]; rfl
  have hi : ∀ i ∈ Finset.range n, Integrable (fun ω => D.restricted true (density S (weightOr weight)) (blockEnv D R (s ω) i)) P :=
    fun i _ => (r1 i).integrable (by norm_num)
  refine ⟨fun ω => ?_, ?_, ?_⟩
  · obtain ⟨s', e⟩ := rejectionVolume_blocks hR hpow hP hn (s ω)
    exact ⟨_, s', e⟩
  · simp only [hval]
    exact (integrable_finsetSum _ hi).const_mul _
  · simp only [hval]
    rw [integral_const_mul, integral_finsetSum _ hi]
    simp only [r2, Finset.sum_const, Finset.card_range, nsmul_eq_mul]
    have hm := hP.boxFun.mean hP.box
    have hn' : (n : ℝ) ≠ 0 := by exact_mod_cast hn.ne'
    rw [Domain.volumeOf, ← hm]
    field_simp

/-- **C79**: the mean square error of `compute_volume` with `n` samples is the size of the box times the integral of the
square, minus the square of the integral, over `n`. -/
theorem rejection_mean_square {n : ℕ} (hn : 0 < n) :
    ∫ ω, (returned (rejectionVolume R pypow D S weight n none (s ω)) - D.volumeOf true (density S (weightOr weight))) ^ 2 ∂P =
      ((D.size : ℝ) * D.volumeOf true (fun σ => density S (weightOr weight) σ ^ 2) -
        D.volumeOf true (density S (weightOr weight)) ^ 2) / n := by
  have := hs.prob
  obtain ⟨C, hC⟩ := hP.boxFun.bounded
  obtain ⟨r1, r2, r3, r4⟩ := hs.rows D hP.boxFun.meas hC
  obtain ⟨C2, hC2⟩ := hP.boxFun.sq.bounded
  obtain ⟨-, q2, -, -⟩ := hs.rows D hP.boxFun.sq.meas hC2
  obtain ⟨-, u2, u3⟩ := rejection_unbiased hR hs hpow hP hn
  set X : ℕ → Ω → ℝ := fun i ω => D.restricted true (density S (weightOr weight)) (blockEnv D R (s ω) i) with hX
  have hval : (fun ω => returned (rejectionVolume R pypow D S weight n none (s ω))) =
      fun ω => ((D.size : ℝ) / n) * (∑ i ∈ Finset.range n, X i) ω := by
    funext ω
    obtain ⟨s', e⟩ := rejectionVolume_blocks hR hpow hP hn (s ω)
    rw [e, Finset.sum_apply]; rfl
  have hvar := variance_eq_integral (X := fun ω => returned (rejectionVolume R pypow D S weight n none (s ω))) u2.aemeasurable
  rw [u3] at hvar
  rw [← hvar, hval, variance_const_mul, IndepFun.variance_sum (fun i _ => r1 i) (fun i _ j _ hij => r4 hij)]
  have hv : ∀ i, Var[X i; P] = Var[X 0; P] := fun i => (r3 i).variance_eq
  rw [Finset.sum_congr rfl fun i _ => hv i, Finset.sum_const, Finset.card_range, nsmul_eq_mul, variance_eq_sub (r1 0)]
  have m1 := hP.boxFun.mean hP.box
  have m2 := hP.boxFun.sq.mean hP.box
  have e1 : ∫ ω, X 0 ω ∂P = ∫ x, D.restricted true (density S (weightOr weight)) (D.drawEnv D.vars x env0) ∂(Measure.pi fun _ : Fin D.vars.length => unif) := r2 0
  have e2 : ∫ ω, (X 0 ^ 2) ω ∂P = ∫ x, (D.restricted true (density S (weightOr weight)) (D.drawEnv D.vars x env0)) ^ 2 ∂(Measure.pi fun _ : Fin D.vars.length => unif) := q2 0
  have e3 : D.restricted true (fun σ => density S (weightOr weight) σ ^ 2) = fun σ => D.restricted true (density S (weightOr weight)) σ ^ 2 := by
    funext σ
    unfold Domain.restricted
    split_ifs <;> simp
  have hn' : (n : ℝ) ≠ 0 := by exact_mod_cast hn.ne'
  rw [e1, e2, Domain.volumeOf, Domain.volumeOf, e3, ← m1, ← m2]
  field_simp

/-- **C79**: with probability one the volumes converge to the weighted model integral as the number of samples grows. -/
theorem rejection_converges :
    ∀ᵐ ω ∂P, Tendsto (fun n => returned (rejectionVolume R pypow D S weight n none (s ω))) atTop
      (𝓝 (D.volumeOf true (density S (weightOr weight)))) := by
  have := hs.prob
  obtain ⟨C, hC⟩ := hP.boxFun.bounded
  obtain ⟨r1, r2, r3, r4⟩ := hs.rows D hP.boxFun.meas hC
  have hl := strong_law_ae_real (fun i ω => D.restricted true (density S (weightOr weight)) (blockEnv D R (s ω) i))
    ((r1 0).integrable (by norm_num)) (fun i j hij => r4 hij) r3
  filter_upwards [hl] with ω hω
  rw [r2 0] at hω
  have h2 := hω.const_mul (D.size : ℝ)
  rw [show (D.size : ℝ) * _ = _ from hP.boxFun.mean hP.box] at h2
  refine h2.congr' ?_
  filter_upwards [eventually_gt_atTop 0] with n hn
  obtain ⟨s', e⟩ := rejectionVolume_blocks hR hpow hP hn (s ω)
  rw [e]
  simp only [returned]
  ring

/-- **C79**: with probability one the answer to every query is eventually a number, and these numbers converge to the
ratio of the weighted model integrals, if that of the support is positive. -/
theorem rejection_probabilities_converge (hpos : 0 < D.volumeOf true (density S (weightOr weight))) {qs : List Formula}
    (hq : ∀ q ∈ qs, wt .bool q = true ∧ D.covers q) :
    ∀ᵐ ω ∂P, ∃ f : Formula → ℕ → ℝ,
      (∀ᶠ n in atTop, ∃ s', rejectionProbabilities R pypow D S weight qs n (s ω) = .ok (qs.map fun q => some (f q n), s')) ∧
      ∀ q ∈ qs, Tendsto (f q) atTop (𝓝 (D.volumeOf true (density (.and [S, q]) (weightOr weight)) /
        D.volumeOf true (density S (weightOr weight)))) := by
  have := hs.prob
  have hPq : ∀ q ∈ qs, Problem D (.and [S, q]) (weightOr weight) := by
    intro q hqm
    refine ⟨hP.box, by simp [wt, wtAll, hP.supportWt, (hq q hqm).1], hP.weightWt, fun p hp => ?_, hP.weightVars⟩
    simp only [syms, symsList, List.append_nil, List.mem_append] at hp
    exact hp.elim (hP.supportVars p) ((hq q hqm).2 p)
  have hlaw : ∀ T, Problem D T (weightOr weight) → ∀ᵐ ω ∂P, Tendsto (fun n : ℕ => (D.size : ℝ) *
      ((∑ i ∈ Finset.range n, D.restricted true (density T (weightOr weight)) (blockEnv D R (s ω) i)) / n)) atTop
      (𝓝 (D.volumeOf true (density T (weightOr weight)))) := by
    intro T hT
    obtain ⟨C, hC⟩ := hT.boxFun.bounded
    obtain ⟨r1, r2, r3, r4⟩ := hs.rows D hT.boxFun.meas hC
    have hl := strong_law_ae_real (fun i ω => D.restricted true (density T (weightOr weight)) (blockEnv D R (s ω) i))
      ((r1 0).integrable (by norm_num)) (fun i j hij => r4 hij) r3
    filter_upwards [hl] with ω hω
    rw [r2 0] at hω
    have h2 := hω.const_mul (D.size : ℝ)
    rw [show (D.size : ℝ) * _ = _ from hT.boxFun.mean hT.box] at h2
    exact h2
  have hall : ∀ᵐ ω ∂P, ∀ q ∈ qs, Tendsto (fun n : ℕ => (D.size : ℝ) *
      ((∑ i ∈ Finset.range n, D.restricted true (density (.and [S, q]) (weightOr weight)) (blockEnv D R (s ω) i)) / n)) atTop
      (𝓝 (D.volumeOf true (density (.and [S, q]) (weightOr weight)))) :=
    (ae_ball_iff (List.finite_toSet qs).countable).mpr fun q hqm => hlaw _ (hPq q hqm)
  filter_upwards [hlaw S hP, hall] with ω h0 h1
  have hsize : 0 ≤ (D.size : ℝ) := by
    have : 0 ≤ D.size := by
      rw [Domain.size, ← boxVolume_width hP.box]
      refine mul_nonneg (List.prod_nonneg fun x hx => ?_) (by positivity)
      obtain ⟨⟨v, b⟩, hb, rfl⟩ := List.mem_map.mp hx
      obtain ⟨l, u, rfl, hle⟩ := hP.box.box v b (lookup_mem_nodup hP.box.wf.domNodup hb)
      simpa using hle
    exact_mod_cast this
  refine ⟨fun q n => (∑ i ∈ Finset.range n, D.restricted true (density (.and [S, q]) (weightOr weight)) (blockEnv D R (s ω) i)) /
    ∑ i ∈ Finset.range n, D.restricted true (density S (weightOr weight)) (blockEnv D R (s ω) i), ?_, fun q hqm => ?_⟩
  · filter_upwards [h0.eventually (lt_mem_nhds hpos)] with n hn
    obtain ⟨rows, s', e, hl, hsum⟩ := uniform_blocks hR hP.box n (s ω)
    refine ⟨s', ?_⟩
    have hpr := probabilitiesOf_correct (K := ℝ) hpow hP.box.wf hP.supportWt (fun p hp => (hP.supportVars p hp).1) (weight := weight)
      (fun w hw => by subst hw; exact ⟨hP.weightWt, fun p hp => (hP.weightVars p hp).1⟩)
      (fun q hqm => ⟨(hq q hqm).1, fun p hp => ((hq q hqm).2 p hp).1⟩) rows
    have hS : ((rows.filter fun row => truth (rowEnv D.vars row) S).map (rowWeight D weight)).sum =
        ∑ i ∈ Finset.range n, D.restricted true (density S (weightOr weight)) (blockEnv D R (s ω) i) := by
      rw [sum_filter_ite, ← hsum S _ hP]
      simp only [rowWeight_or]
    have htot : 0 < ∑ i ∈ Finset.range n, D.restricted true (density S (weightOr weight)) (blockEnv D R (s ω) i) := by
      by_contra hc
      have hd := div_nonpos_of_nonpos_of_nonneg (not_lt.mp hc) (Nat.cast_nonneg (α := ℝ) n)
      have := mul_nonpos_of_nonneg_of_nonpos hsize hd
      linarith
    simp only [rejectionProbabilities, e, hpr]
    congr 2
    refine List.map_congr_left fun q hqm => ?_
    rw [if_pos (by rw [hS]; exact htot)]
    congr 1
    rw [share, hS]
    congr 1
    rw [List.filter_filter, sum_filter_ite, ← hsum _ _ (hPq q hqm)]
    simp only [rowWeight_or]
    congr 1
    refine List.map_congr_left fun row _ => ?_
    have ht : truth (rowEnv D.vars row) (.and [S, q]) = (truth (rowEnv D.vars row) q && truth (rowEnv D.vars row) S) := by
      simp [truth, truthAll, Bool.and_comm]
    rw [ht]
  · refine ((h1 q hqm).div h0 hpos.ne').congr' ?_
    filter_upwards [h0.eventually (lt_mem_nhds hpos), eventually_gt_atTop 0] with n hn hn0
    have hn' : (n : ℝ) ≠ 0 := by exact_mod_cast hn0.ne'
    have hV : (D.size : ℝ) ≠ 0 := by
      intro h
      rw [h, zero_mul] at hn
      exact lt_irrefl _ hn
    simp only [Pi.div_apply]
    rw [mul_div_mul_left _ _ hV, div_div_div_cancel_right₀ hn']

end

/-! ## A generator that meets the assumption -/

/-- A generator that reads a stream of numbers; numbers outside `[0, 1)` are read as 0. -/
noncomputable def streamRng : Rng ℝ where
  State := ℕ → ℝ
  next f := (if 0 ≤ f 0 ∧ f 0 < 1 then f 0 else 0, fun k => f (k + 1))
  choose f _ := (0, f)

theorem streamRng_ok : RngOk streamRng where
  low f := by
    simp only [streamRng]
    split_ifs with h
    · exact h.1
    · exact le_refl _
  high f := by
    simp only [streamRng]
    split_ifs with h
    · exact h.2
    · exact one_pos
  choose _ n hn := hn

theorem streamRng_out (f : ℕ → ℝ) (k : ℕ) : streamRng.out f k = if 0 ≤ f k ∧ f k < 1 then f k else 0 := by
  have : ∀ (k : ℕ) (f : ℕ → ℝ), streamRng.skip f k = fun j => f (k + j) := by
    intro k
    induction k with
    | zero => intro f; funext j; simp [Rng.skip]
    | succ k ih =>
      intro f
      refine (ih _).trans ?_
      funext j
      simp only [streamRng]
      congr 1
      ring
  simp only [Rng.out, this]
  simp [streamRng]

/-- The assumption is met by a stream of independent uniform numbers. -/
theorem streamRng_iid : IidUniform streamRng (Measure.infinitePi fun _ : ℕ => unif) (fun f => f) := by
  have hc : Measurable fun x : ℝ => if 0 ≤ x ∧ x < 1 then x else 0 :=
    Measurable.ite (measurableSet_Ico (a := (0 : ℝ)) (b := 1)) measurable_id measurable_const
  have hfun : ∀ k, (fun f : ℕ → ℝ => streamRng.out f k) = fun f => (fun x : ℝ => if 0 ≤ x ∧ x < 1 then x else 0) (f k) :=
    fun k => funext fun f => streamRng_out f k
  refine ⟨inferInstance, fun k => ?_, fun k => ?_, ?_⟩
  · rw [hfun]
    exact hc.comp (measurable_pi_apply k)
  · rw [hfun, show (fun f : ℕ → ℝ => (fun x : ℝ => if 0 ≤ x ∧ x < 1 then x else 0) (f k)) =
      (fun x : ℝ => if 0 ≤ x ∧ x < 1 then x else 0) ∘ fun f : ℕ → ℝ => f k from rfl,
      ← Measure.map_map hc (measurable_pi_apply k), Measure.infinitePi_map_eval]
    have : (fun x : ℝ => if 0 ≤ x ∧ x < 1 then x else 0) =ᵐ[unif] id := by
      rw [unif, Filter.EventuallyEq, ae_restrict_iff' measurableSet_Ico]
      filter_upwards with x hx
      exact if_pos hx
    rw [Measure.map_congr this, Measure.map_id]
  · have := iIndepFun_infinitePi (P := fun _ : ℕ => unif) (X := fun _ x => if 0 ≤ x ∧ x < 1 then x else (0 : ℝ)) fun _ => hc
    simpa only [streamRng_out] using this

/-! ## A concrete case -/

noncomputable def idealPow (x y : ℝ) : Except PyErr ℝ := .ok (x ^ y)

theorem idealPow_ok : PowOk idealPow := fun x n => by simp [idealPow]

/-- The volume of the whole box is its size. -/
theorem volumeOf_whole {D : Domain} (hD : BoxOk D) : D.volumeOf true (density (.boolC true) (.realC 1)) = (D.size : ℝ) := by
  have hP : Problem D (.boolC true) (weightOr none) := ⟨hD, rfl, rfl, by intro p hp; simp [syms] at hp, by intro p hp; simp [weightOr, syms] at hp⟩
  have h := (rejection_unbiased streamRng_ok streamRng_iid idealPow_ok hP one_pos).2.2
  refine h.symm.trans ?_
  have hval : ∀ f : ℕ → ℝ, returned (rejectionVolume streamRng idealPow D (.boolC true) none 1 none f) = (D.size : ℝ) := by
    intro f
    obtain ⟨s', e⟩ := rejectionVolume_blocks streamRng_ok idealPow_ok hP one_pos f
    have hbox : D.inBox (blockEnv D streamRng f 0) := drawEnv_inBox hD (fun j => out_bounds streamRng_ok f _) env0
    have e1 : D.restricted true (density (.boolC true) (weightOr none)) (blockEnv D streamRng f 0) = 1 := by
      simp [Domain.restricted, hbox, density, truth, value, weightOr]
    rw [e, Finset.sum_range_one, e1]
    simp [returned]
  simp [hval]

theorem sampleDomain_size : 0 < sampleDomain.size := by
  simp [Domain.size, Domain.width, sampleDomain, List.lookup]
  norm_num

/-- The hypotheses of the theorems above are met: a support that couples a Boolean and a real variable, and a weight. -/
theorem sampleProblem : Problem sampleDomain (.or [.sym "a" .bool, .le (.sym "x" .real) (.realC 1)]) (weightOr (some (.sym "x" .real))) :=
  ⟨sampleDomain_box, rfl, rfl, by unfold Domain.covers; decide, by unfold Domain.covers; decide⟩

example : ∫ f, returned (rejectionVolume streamRng idealPow sampleDomain (.or [.sym "a" .bool, .le (.sym "x" .real) (.realC 1)])
      (some (.sym "x" .real)) 7 none f) ∂(Measure.infinitePi fun _ : ℕ => unif) =
    sampleDomain.volumeOf true (density (.or [.sym "a" .bool, .le (.sym "x" .real) (.realC 1)]) (.sym "x" .real)) :=
  (rejection_unbiased streamRng_ok streamRng_iid idealPow_ok sampleProblem (by norm_num)).2.2

/-- A positive volume, as the theorem on probabilities asks. -/
example : 0 < sampleDomain.volumeOf true (density (.boolC true) (weightOr none)) := by
  rw [weightOr, volumeOf_whole sampleDomain_box]
  exact_mod_cast sampleDomain_size

end Pywmi
