import Mathlib.Analysis.SpecialFunctions.BinaryEntropy
import Verif.Sample.Gain
import Verif.Props.AdaptiveOracle

set_option linter.unusedSectionVars false

/-!
# C62: what the split criterion measures, and the empty volume

`information_gain` lies between 0 and the entropy of the cell.  It is 0 exactly if the split tells nothing about the labels,
that is, if the accepted and rejected samples are distributed over the two sides in the same ratio.
-/

namespace Pywmi

open Formula

theorem sideEntropy_eq {a b : ℕ} (h : a + b ≠ 0) :
    sideEntropy a b = Real.binEntropy ((a : ℝ) / ((a + b : ℕ) : ℝ)) / Real.log 2 := by
  have hn : ((a + b : ℕ) : ℝ) ≠ 0 := by exact_mod_cast h
  have hq : 1 - (a : ℝ) / ((a + b : ℕ) : ℝ) = (b : ℝ) / ((a + b : ℕ) : ℝ) := by
    field_simp; push_cast; ring
  have hl : ∀ x : ℝ, x * (if x ≠ 0 then Real.logb 2 x else 0) = x * Real.log x / Real.log 2 := by
    intro x
    by_cases hx : x = 0
    · simp [hx]
    · simp [hx, Real.logb, mul_div_assoc]
  simp only [sideEntropy, h, if_false, neg_mul, hl]
  rw [Real.binEntropy, hq, Real.log_inv, Real.log_inv]
  ring

theorem ratio_mem {a b : ℕ} : (a : ℝ) / ((a + b : ℕ) : ℝ) ∈ Set.Icc (0 : ℝ) 1 := by
  refine ⟨by positivity, ?_⟩
  apply div_le_one_of_le₀
  · exact_mod_cast Nat.le_add_right a b
  · positivity

/-- **C62**: the entropy lies between 0 and 1; it is 0 exactly for samples with one label only and 1 exactly for equally many of both. -/
theorem sideEntropy_range {a b : ℕ} (h : a + b ≠ 0) :
    0 ≤ sideEntropy a b ∧ sideEntropy a b ≤ 1 ∧ (sideEntropy a b = 0 ↔ a = 0 ∨ b = 0) ∧ (sideEntropy a b = 1 ↔ a = b) := by
  have h2 : 0 < Real.log 2 := Real.log_pos (by norm_num)
  have hn : ((a + b : ℕ) : ℝ) ≠ 0 := by exact_mod_cast h
  rw [sideEntropy_eq h]
  refine ⟨div_nonneg (Real.binEntropy_nonneg ratio_mem.1 ratio_mem.2) h2.le, (div_le_one h2).mpr Real.binEntropy_le_log_two, ?_, ?_⟩
  · rw [div_eq_zero_iff, or_iff_left h2.ne', Real.binEntropy_eq_zero, div_eq_zero_iff, or_iff_left hn, div_eq_one_iff_eq hn]
    constructor
    · rintro (h | h)
      · exact .inl (by exact_mod_cast h)
      · right; have : a = a + b := by exact_mod_cast h
        omega
    · rintro (rfl | rfl)
      · exact .inl (by simp)
      · exact .inr (by simp)
  · rw [div_eq_one_iff_eq h2.ne', Real.binEntropy_eq_log_two, div_eq_iff hn]
    constructor
    · intro e
      have : (2 : ℝ) * a = (a + b : ℕ) := by rw [e]; ring
      have : 2 * a = a + b := by exact_mod_cast this
      omega
    · rintro rfl
      push_cast; ring

theorem sideEntropy_nonneg (a b : ℕ) : 0 ≤ sideEntropy a b := by
  by_cases h : a + b = 0
  · simp [sideEntropy, h]
  · exact (sideEntropy_range h).1

/-- The gain as a function of the four counts. -/
theorem gain_core {a b c d n : ℕ} (hn : n = a + b + (c + d)) (h0 : n ≠ 0) :
    let w : ℝ := ((a + b : ℕ) : ℝ) / (n : ℝ)
    let G := sideEntropy (a + c) (b + d) - w * sideEntropy a b - (1 - w) * sideEntropy c d
    0 ≤ G ∧ G ≤ sideEntropy (a + c) (b + d) ∧ (G = 0 ↔ a * d = b * c) := by
  intro w G
  have hnR : (n : ℝ) ≠ 0 := by exact_mod_cast h0
  have hnE : (n : ℝ) = a + b + (c + d) := by rw [hn]; push_cast; ring
  have hw0 : 0 ≤ w := by positivity
  have hw1 : 1 - w = ((c + d : ℕ) : ℝ) / n := by
    simp only [w]; field_simp; rw [hnE]; push_cast; ring
  have hw1' : 0 ≤ 1 - w := by rw [hw1]; positivity
  have hup : G ≤ sideEntropy (a + c) (b + d) := by
    have h1 := mul_nonneg hw0 (sideEntropy_nonneg a b)
    have h2 := mul_nonneg hw1' (sideEntropy_nonneg c d)
    simp only [G]; linarith
  rcases Nat.eq_zero_or_pos (a + b) with hab | hab
  · have ha : a = 0 := by omega
    have hb : b = 0 := by omega
    subst ha hb
    have : w = 0 := by simp [w]
    have hG : G = 0 := by simp [G, this]
    exact ⟨hG.ge, hup, by simp [hG]⟩
  rcases Nat.eq_zero_or_pos (c + d) with hcd | hcd
  · have hc : c = 0 := by omega
    have hd : d = 0 := by omega
    subst hc hd
    have : 1 - w = 0 := by rw [hw1]; simp
    have hw : w = 1 := by linarith
    have hG : G = 0 := by simp [G, hw]
    exact ⟨hG.ge, hup, by simp [hG]⟩
  have h2 : 0 < Real.log 2 := Real.log_pos (by norm_num)
  have hA : ((a + b : ℕ) : ℝ) ≠ 0 := by exact_mod_cast hab.ne'
  have hC : ((c + d : ℕ) : ℝ) ≠ 0 := by exact_mod_cast hcd.ne'
  have hwp : 0 < w := div_pos (by exact_mod_cast hab) (by exact_mod_cast Nat.pos_of_ne_zero h0)
  have hwp1 : 0 < 1 - w := by rw [hw1]; exact div_pos (by exact_mod_cast hcd) (by exact_mod_cast Nat.pos_of_ne_zero h0)
  have hN : ((a + c + (b + d) : ℕ) : ℝ) = n := by rw [hn]; push_cast; ring
  have hmix : (((a + c : ℕ) : ℝ)) / ((a + c + (b + d) : ℕ) : ℝ) =
      w * ((a : ℝ) / ((a + b : ℕ) : ℝ)) + (1 - w) * ((c : ℝ) / ((c + d : ℕ) : ℝ)) := by
    rw [hN, hw1]; simp only [w]; field_simp; push_cast; ring
  have hGe : G = (Real.binEntropy (w * ((a : ℝ) / ((a + b : ℕ) : ℝ)) + (1 - w) * ((c : ℝ) / ((c + d : ℕ) : ℝ))) -
      (w * Real.binEntropy ((a : ℝ) / ((a + b : ℕ) : ℝ)) + (1 - w) * Real.binEntropy ((c : ℝ) / ((c + d : ℕ) : ℝ)))) / Real.log 2 := by
    simp only [G]
    rw [sideEntropy_eq (by omega), sideEntropy_eq hab.ne', sideEntropy_eq hcd.ne', hmix]
    ring
  have hxy : (a : ℝ) / ((a + b : ℕ) : ℝ) = (c : ℝ) / ((c + d : ℕ) : ℝ) ↔ a * d = b * c := by
    rw [div_eq_div_iff hA hC]
    constructor
    · intro e
      have : a * (c + d) = c * (a + b) := by exact_mod_cast e
      nlinarith
    · intro e
      have : a * (c + d) = c * (a + b) := by nlinarith
      exact_mod_cast this
  by_cases he : (a : ℝ) / ((a + b : ℕ) : ℝ) = (c : ℝ) / ((c + d : ℕ) : ℝ)
  · have hG : G = 0 := by
      rw [hGe, ← he]
      have : w * ((a : ℝ) / ((a + b : ℕ) : ℝ)) + (1 - w) * ((a : ℝ) / ((a + b : ℕ) : ℝ)) = (a : ℝ) / ((a + b : ℕ) : ℝ) := by ring
      rw [this]; ring
    exact ⟨hG.ge, hup, by simp [hG, hxy.mp he]⟩
  · have hs := Real.strictConcave_binEntropy.2 (ratio_mem (a := a) (b := b)) (ratio_mem (a := c) (b := d)) he hwp hwp1 (by ring)
    simp only [smul_eq_mul] at hs
    have hG : 0 < G := by rw [hGe]; exact div_pos (by linarith) h2
    exact ⟨hG.le, hup, ⟨fun h => absurd h hG.ne', fun h => absurd (hxy.mpr h) he⟩⟩

theorem countTrue_and_le : ∀ (xs ys : List Bool), countTrue (xs.zipWith (· && ·) ys) ≤ countTrue ys
  | [], ys => by simp [countTrue]
  | x :: xs, [] => by simp [countTrue]
  | x :: xs, y :: ys => by
    have ih := countTrue_and_le xs ys
    simp only [countTrue, List.zipWith_cons_cons, List.filter_cons, id] at ih ⊢
    cases x <;> cases y <;> simp <;> omega

theorem countTrue_not (ys : List Bool) : countTrue (ys.map (!·)) = ys.length - countTrue ys ∧ countTrue ys ≤ ys.length := by
  induction ys with
  | nil => simp [countTrue]
  | cons y ys ih =>
    simp only [countTrue, List.map_cons, List.filter_cons, id, List.length_cons] at ih ⊢
    cases y <;> simp <;> omega

/-- **C62**: the information gain lies between 0 and the entropy of the cell; it is 0 exactly if the accepted and the rejected samples
are distributed over the two sides in the same ratio. -/
theorem infoGain_range (samples : List (List ℝ)) {labels : List Bool} (h : labels ≠ []) (i : ℕ) (v : ℚ) :
    0 ≤ infoGain sideEntropy samples labels i v ∧
    infoGain sideEntropy samples labels i v ≤ sideEntropy (countTrue labels) (labels.length - countTrue labels) ∧
    (infoGain sideEntropy samples labels i v = 0 ↔
      (gainCounts samples labels i v).1 * (gainCounts samples labels i v).2.2.2 =
        (gainCounts samples labels i v).2.1 * (gainCounts samples labels i v).2.2.1) := by
  have hc := countTrue_not labels
  have h1 := countTrue_and_le (samples.map fun row => decide (row.getD i 0 ≤ ((v : ℚ) : ℝ))) labels
  have h2 := countTrue_and_le (samples.map fun row => decide (row.getD i 0 ≤ ((v : ℚ) : ℝ))) (labels.map (!·))
  rw [hc.1] at h2
  have hl : labels.length ≠ 0 := by simpa using h
  simp only [infoGain, gainCounts]
  generalize countTrue ((samples.map fun row => decide (row.getD i 0 ≤ ((v : ℚ) : ℝ))).zipWith (· && ·) labels) = a at *
  generalize countTrue ((samples.map fun row => decide (row.getD i 0 ≤ ((v : ℚ) : ℝ))).zipWith (· && ·) (labels.map (!·))) = b at *
  have key := gain_core (a := a) (b := b) (c := countTrue labels - a) (d := labels.length - countTrue labels - b)
    (n := labels.length) (by omega) hl
  rw [show a + (countTrue labels - a) = countTrue labels by omega,
    show b + (labels.length - countTrue labels - b) = labels.length - countTrue labels by omega] at key
  exact key

/-- **C62** (partial: only when the real variables come first in the domain, see `gain_wrong_column`): a split on a variable has gain 0
exactly if acceptance and the side of the split are independent in the sample. -/
theorem infoGain_split_partial {D : Domain} {support : Formula} {i : ℕ} {v : String} (hcol : D.vars.idxOf v = i) (x : ℚ)
    {samples : List (List ℝ)} (hne : samples ≠ []) :
    infoGain sideEntropy samples (samples.map fun row => truth (rowEnv D.vars row) support) i x = 0 ↔
      (splitCounts D support v x samples).1 * (splitCounts D support v x samples).2.2.2 =
        (splitCounts D support v x samples).2.1 * (splitCounts D support v x samples).2.2.1 := by
  have h := (infoGain_range samples (labels := samples.map fun row => truth (rowEnv D.vars row) support) (by simpa using hne) i x).2.2
  rw [gainCounts_partial hcol x samples] at h
  exact h

/-! ## The empty volume -/

section
variable {K : Type} [Field K] [LinearOrder K] [IsStrictOrderedRing K]

theorem treeEmpty_eq (V : ℚ) : ∀ T : ATree K, treeEmpty V T = ((T.leaves.filter (·.empty)).map fun c => c.volume / V).sum
  | .leaf c => by
    cases h : c.empty <;> simp [treeEmpty, ATree.leaves, h]
  | .node _ _ l r => by
    rw [treeEmpty, treeEmpty_eq V l, treeEmpty_eq V r, ATree.leaves, List.filter_append, List.map_append, List.sum_append]

theorem Grown.volumes {B : ABuilder K} {rs : List String} {bs vol stk T stk'} (g : Grown B rs bs vol stk T stk') :
    0 ≤ vol → ∀ c ∈ T.leaves, 0 ≤ c.volume := by
  induction g with
  | stop _ hv => intro h c hc; simp only [ATree.leaves, List.mem_singleton] at hc; subst hc; rw [hv]; exact h
  | empty _ hv => intro h c hc; simp only [ATree.leaves, List.mem_singleton] at hc; subst hc; rw [hv]; exact h
  | node _ _ _ _ _ _ _ ih1 ih2 =>
    intro h c hc
    rcases List.mem_append.mp hc with hc | hc
    · exact ih1 (by linarith) c hc
    · exact ih2 (by linarith) c hc

theorem estimate_and_empty {B : ABuilder K} {cond : Formula} (cs : List (ACell K)) (h : ∀ c ∈ cs, 0 ≤ c.volume) :
    (cs.map (leafEstimate B none cond)).sum + (((cs.filter (·.empty)).map (·.volume)).sum : ℚ) ≤ ((cs.map (·.volume)).sum : ℚ) := by
  induction cs with
  | nil => simp
  | cons c cs ih =>
    have ih := ih fun x hx => h x (by simp [hx])
    have hb := leafEstimate_bounds (B := B) (cond := cond) (h c (by simp))
    cases he : c.empty with
    | true =>
      have : leafEstimate B none cond c = 0 := by simp [leafEstimate, he]
      simp only [List.map_cons, List.sum_cons, List.filter_cons, he, if_true, this, Rat.cast_add]
      linarith
    | false =>
      simp only [List.map_cons, List.sum_cons, List.filter_cons, he, Bool.false_eq_true, if_false, Rat.cast_add]
      linarith [hb.2]

/-- **C62**: `get_empty_volume` is the share of the box that lies in cells declared empty; the reported volume lies in the rest. -/
theorem adaptiveVolume_rest {B : ABuilder K} {rs : List String} {bs : ABounds} (hB : BuilderOk B rs bs) {fuel : ℕ} {s0 : B.rng.State}
    {T : ATree K} {V : Option ℚ} {s : B.rng.State} (h : buildRoot B fuel s0 = .ok (T, V, s)) (n : ℕ) :
    0 ≤ treeEmpty (cellVolume bs) T ∧ treeEmpty (cellVolume bs) T ≤ 1 ∧
    treeEmpty (cellVolume bs) T * cellVolume bs = ((T.leaves.filter (·.empty)).map fun c => cellVolume c.bounds).sum ∧
    ∃ v T' s', adaptiveVolume B rs (cellVolume bs) none n T s = .ok (v, T', s') ∧
      treeEmpty (cellVolume bs) T' = treeEmpty (cellVolume bs) T ∧
      v ≤ ((cellVolume bs * (1 - treeEmpty (cellVolume bs) T) : ℚ) : K) := by
  obtain ⟨v, T', s', e1, e2, e3, _⟩ := adaptiveVolume_correct hB h (weight := none) (by simp) n
  obtain ⟨_, p2, p3⟩ := tree_partition hB h
  obtain ⟨_, stk', g⟩ := buildRoot_grown hB h
  have hV := cellVolume_pos hB.wide
  have hpos := g.volumes hV.le
  have hsum : ∀ cs : List (ACell K), (cs.map fun c => c.volume / cellVolume bs).sum * cellVolume bs = (cs.map (·.volume)).sum := by
    intro cs
    induction cs with
    | nil => simp
    | cons c cs ih => simp only [List.map_cons, List.sum_cons, add_mul, ih, div_mul_cancel₀ _ hV.ne']
  have hemp : treeEmpty (cellVolume bs) T' = treeEmpty (cellVolume bs) T := by
    rw [treeEmpty_eq, treeEmpty_eq]
    have := congrArg (fun l : List (ABounds × ℚ × Bool) => ((l.filter (·.2.2)).map fun p => p.2.1 / cellVolume bs)) e2
    simp only [List.filter_map, List.map_map, Function.comp_def] at this
    rw [this]
  have hvol : T'.leaves.map (·.volume) = T.leaves.map (·.volume) := by
    have := congrArg (List.map fun p : ABounds × ℚ × Bool => p.2.1) e2
    simpa [SameCells, List.map_map, Function.comp_def] using this
  have hpos' : ∀ c ∈ T'.leaves, 0 ≤ c.volume := by
    intro c hc
    have : c.volume ∈ T'.leaves.map (·.volume) := List.mem_map_of_mem hc
    rw [hvol] at this
    obtain ⟨c', hc', e⟩ := List.mem_map.mp this
    rw [← e]
    exact hpos c' hc'
  have hE : treeEmpty (cellVolume bs) T * cellVolume bs = ((T.leaves.filter (·.empty)).map (·.volume)).sum := by
    rw [treeEmpty_eq, hsum]
  have hle : ((T.leaves.filter (·.empty)).map (·.volume)).sum ≤ cellVolume bs := by
    rw [← p3]
    have : ∀ cs : List (ACell K), (∀ c ∈ cs, 0 ≤ c.volume) → ((cs.filter (·.empty)).map (·.volume)).sum ≤ (cs.map (·.volume)).sum := by
      intro cs
      induction cs with
      | nil => simp
      | cons c cs ih =>
        intro h
        have := ih fun x hx => h x (by simp [hx])
        have h0 := h c (by simp)
        rw [List.filter_cons]
        split <;> simp only [List.map_cons, List.sum_cons] <;> linarith
    exact this _ hpos
  refine ⟨?_, ?_, ?_, v, T', s', e1, hemp, ?_⟩
  · rw [treeEmpty_eq]
    refine List.sum_nonneg fun x hx => ?_
    obtain ⟨c, hc, rfl⟩ := List.mem_map.mp hx
    exact div_nonneg (hpos c (List.mem_filter.mp hc).1) hV.le
  · rw [← hE] at hle
    exact le_of_mul_le_mul_right (by linarith) hV
  · rw [hE]
    congr 1
    exact List.map_congr_left fun c hc => p2 c (List.mem_filter.mp hc).1
  · have hh := estimate_and_empty (B := B) (cond := .boolC true) T'.leaves hpos'
    rw [hvol, p3, ← hsum, ← treeEmpty_eq, hemp] at hh
    have : v = (T'.leaves.map (leafEstimate B none (.boolC true))).sum := e3
    rw [this]
    push_cast at hh ⊢
    linarith

end

/-! ## Concrete cases -/

/-- A split that separates the labels has a gain. -/
example : 0 < infoGain sideEntropy [[1/4], [3/4]] [true, false] 0 (1/2) := by
  have h := infoGain_range [[1/4], [3/4]] (labels := [true, false]) (by simp) 0 (1/2)
  refine lt_of_le_of_ne h.1 fun e => ?_
  have := h.2.2.mp e.symm
  norm_num [gainCounts, countTrue] at this

end Pywmi
