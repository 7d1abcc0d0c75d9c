import Verif.Props.ConvexFloat

set_option linter.unusedSectionVars false
set_option linter.unusedSimpArgs false

/-!
# C108: a region of which the LattE back-end loses an inequality
-/

namespace Pywmi
open Formula MeasureTheory

/-- Two real variables between 0 and 1. -/
def squareXY : Domain := ⟨["x", "y"], [("x", .real), ("y", .real)], [("x", some 0, some 1), ("y", some 0, some 1)]⟩

theorem squareXY_reals : squareXY.reals = ["x", "y"] := by decide

/-- `0 <= x <= 1`, `0 <= y <= 1` and `x/999983 + y/999979 <= 1/999961`, about the half of the square. -/
def cutSquare : List Dict := [[(["x"], 1), ([], -1)], [(["x"], -1)], [(["y"], 1), ([], -1)], [(["y"], -1)], primeIneq]

/-- The rows written. -/
def cutRows : List (List ℚ) := [[1, -1, 0], [0, 1, 0], [1, 0, -1], [0, 0, 1], [0, 0, 0]]

theorem cutSquare_rows {lim : ℚ → ℚ} (hlim : LimLaw lim) :
    ∃ f, Latte.prepareFloat lim ["x", "y"] (.boolC true) [] cutSquare = .ok (f, cutRows) := by
  have h1 : scaleFloat lim [(["x"], 1), ([], -1)] = .ok [(["x"], 1), ([], -1)] := by
    rw [scale_float_partial hlim (by decide) (by decide)]; decide +kernel
  have h2 : scaleFloat lim [(["x"], -1)] = .ok [(["x"], -1)] := by
    rw [scale_float_partial hlim (by decide) (by decide)]; decide +kernel
  have h3 : scaleFloat lim [(["y"], 1), ([], -1)] = .ok [(["y"], 1), ([], -1)] := by
    rw [scale_float_partial hlim (by decide) (by decide)]; decide +kernel
  have h4 : scaleFloat lim [(["y"], -1)] = .ok [(["y"], -1)] := by
    rw [scale_float_partial hlim (by decide) (by decide)]; decide +kernel
  have h5 := (scale_float_rounds hlim).1
  obtain ⟨g1, e1⟩ : ∃ g, linToSmt [(["x"], 1), ([], -1)] = .ok g := ⟨_, rfl⟩
  obtain ⟨g2, e2⟩ : ∃ g, linToSmt [(["x"], -1)] = .ok g := ⟨_, rfl⟩
  obtain ⟨g3, e3⟩ : ∃ g, linToSmt [(["y"], 1), ([], -1)] = .ok g := ⟨_, rfl⟩
  obtain ⟨g4, e4⟩ : ∃ g, linToSmt [(["y"], -1)] = .ok g := ⟨_, rfl⟩
  obtain ⟨g5, e5⟩ : ∃ g, linToSmt [] = .ok g := ⟨_, rfl⟩
  simp only [cutSquare, Latte.prepareFloat, h1, h2, h3, h4, h5, e1, e2, e3, e4, e5]
  refine ⟨_, congrArg _ (Prod.ext rfl ?_)⟩
  dsimp only
  decide +kernel

theorem cutRows_int : ∀ row ∈ cutRows, row.length = 2 + 1 ∧ ∀ a ∈ row, ∃ z : ℤ, a = z := by
  intro row hrow
  simp only [cutRows, List.mem_cons, List.not_mem_nil, or_false] at hrow
  have h0 : ∃ z : ℤ, (0 : ℚ) = z := ⟨0, by norm_num⟩
  have h1 : ∃ z : ℤ, (1 : ℚ) = z := ⟨1, by norm_num⟩
  have h2 : ∃ z : ℤ, (-1 : ℚ) = z := ⟨-1, by norm_num⟩
  rcases hrow with rfl | rfl | rfl | rfl | rfl <;> exact ⟨rfl, by simp only [List.forall_mem_cons, List.not_mem_nil, false_implies, implies_true, and_true]; simp only [h0, h1, h2, and_self]⟩

theorem cutRows_polytope : polytope 2 (cutRows.map fun row => row.map (·.num)) = Set.Icc (fun _ => 0) fun _ => 1 := by
  have e : (cutRows.map fun row => row.map (·.num)) = [[1, -1, 0], [0, 1, 0], [1, 0, -1], [0, 0, 1], [0, 0, 0]] := by decide +kernel
  ext x
  rw [e]
  simp only [polytope, Set.mem_ofPred_eq, List.forall_mem_cons, List.not_mem_nil, false_implies, implies_true, and_true, rowAt, Set.mem_Icc,
    Pi.le_def, Fin.forall_fin_two]
  simp [List.ofFn_succ]
  constructor
  · rintro ⟨a, b, c, d⟩
    exact ⟨⟨b, d⟩, by linarith, by linarith⟩
  · rintro ⟨⟨a, b⟩, c, d⟩
    exact ⟨by linarith, a, by linarith, b⟩

theorem square_one : ∫ _ in Set.Icc (fun _ : Fin 2 => (0 : ℝ)) fun _ => 1, (1 : ℝ) = 1 := by
  rw [setIntegral_const, smul_eq_mul, mul_one, measureReal_def, Real.volume_Icc_pi]
  simp

theorem squareXY_get (x : Fin squareXY.reals.length → ℝ) :
    (env0.setReals squareXY.reals x).r "x" = x ⟨0, by decide⟩ ∧ (env0.setReals squareXY.reals x).r "y" = x ⟨1, by decide⟩ :=
  ⟨setReals_get (σ := env0) (rs := squareXY.reals) (by decide) (x := x) ⟨0, by decide⟩,
    setReals_get (σ := env0) (rs := squareXY.reals) (by decide) (x := x) ⟨1, by decide⟩⟩

theorem squareXY_volume {a b : ℝ} (h : a ≤ b) : volume.real (Set.Icc (fun _ : Fin squareXY.reals.length => a) fun _ => b) = (b - a) ^ 2 := by
  rw [measureReal_def, Real.volume_Icc_pi, Finset.prod_const, Finset.card_univ, Fintype.card_fin, squareXY_reals, List.length_cons, List.length_singleton,
    ENNReal.toReal_pow, ENNReal.toReal_ofReal (by linarith)]

theorem cutSquare_region : regionSet squareXY cutSquare ⊆ Set.Icc (fun _ => 0) (fun _ => 1) \ Set.Icc (fun _ => 3 / 4) fun _ => 1 := by
  intro x hx
  have hi : ∀ i : Fin squareXY.reals.length, i = ⟨0, by decide⟩ ∨ i = ⟨1, by decide⟩ := fun i => by
    have := i.2
    simp only [squareXY_reals, List.length_cons, List.length_nil] at this
    rcases Nat.lt_or_ge i.1 1 with h | h
    · exact .inl (Fin.ext (by simp only; omega))
    · exact .inr (Fin.ext (by simp only; omega))
  obtain ⟨gx, gy⟩ := squareXY_get x
  simp only [regionSet, cutSquare, primeIneq, Set.mem_ofPred_eq, List.forall_mem_cons, List.not_mem_nil, false_implies, implies_true, and_true] at hx
  simp [polyEval, monoEval, gx, gy] at hx
  obtain ⟨h1, h2, h3, h4, h5⟩ := hx
  refine ⟨⟨fun i => ?_, fun i => ?_⟩, fun ⟨h, _⟩ => ?_⟩
  · rcases hi i with rfl | rfl <;> simp only <;> linarith
  · rcases hi i with rfl | rfl <;> simp only <;> linarith
  · have a0 := h ⟨0, by decide⟩
    have a1 := h ⟨1, by decide⟩
    simp only at a0 a1
    norm_num at h5
    linarith

theorem readAnswer_text (q : ℚ) : Latte.readAnswer (Latte.answerText q) = .ok q := by
  obtain ⟨z, n, hz, hn, h, -⟩ := (Latte.readAnswer_correct (Latte.answerText q)).1 _ _ (Latte.answerText_found q)
  rw [Latte.int_intText] at hz
  rw [Latte.nat_natText] at hn
  cases hz; cases hn
  rw [h q.den_nz, Rat.num_div_den]

/-- **C108, negation**: with a LattE and a solver that are right, the part of the unit square with `x/999983 + y/999979 <= 1/999961` has, for the
LattE back-end, the area 1 of the whole square. -/
theorem latte_float_square {lim : ℚ → ℚ} (hlim : LimLaw lim) (sat : Formula → Bool) :
    Latte.integrateFloat lim Latte.ideal sat squareXY cutSquare [([], 1)] = .ok 1 ∧
      squareXY.volumeOf false (regionFn cutSquare [([], 1)]) ≤ 15 / 16 := by
  constructor
  · obtain ⟨f, hf⟩ := cutSquare_rows hlim
    have hv : squareXY.realVars = .ok ["x", "y"] := by decide
    simp only [Latte.integrateFloat, hv, hf]
    have hm : Latte.monomialsFloat lim ["x", "y"] [([], 1)] = [(1, [0, 0])] := by
      simp only [Latte.monomialsFloat, List.map_cons, List.map_nil, hlim.same (show (1 : ℚ).den ≤ 1000000 by norm_num)]
      rfl
    have hint : ∫ x in polytope 2 (cutRows.map fun row => row.map (·.num)), monosAt [(1, [0, 0])] x = 1 := by
      rw [cutRows_polytope]
      have : ∀ x : Fin 2 → ℝ, monosAt [(1, [0, 0])] x = 1 := fun x => by simp [monosAt, List.ofFn_succ]
      simp only [this]
      exact square_one
    have hr : ∃ q : ℚ, (q : ℝ) = ∫ x in polytope 2 (cutRows.map fun row => row.map (·.num)), monosAt [(1, [0, 0])] x := ⟨1, by rw [hint]; norm_num⟩
    have hq : hr.choose = 1 := by
      have := hr.choose_spec.trans hint
      exact_mod_cast this
    have : Latte.ideal (Latte.polyText [(1, [0, 0])]) (Latte.hrepText 2 cutRows) = some (Latte.answerText 1) := by
      simp only [Latte.ideal, Latte.polyText_correct, Latte.hrepText_correct cutRows_int]
      rw [dif_pos hr, hq]
    rw [hm]
    simp only [List.length_cons, List.length_nil, Nat.zero_add, Nat.reduceAdd, this]
    exact readAnswer_text 1
  · rw [volumeOf_region (by decide)]
    have : ∀ x : Fin squareXY.reals.length → ℝ, polyEval (env0.setReals squareXY.reals x).r [([], 1)] = 1 := fun x => by simp [polyEval, monoEval]
    simp only [this, setIntegral_const, smul_eq_mul, mul_one]
    have hfin : volume (Set.Icc (fun _ : Fin squareXY.reals.length => (0 : ℝ)) fun _ => 1) ≠ ⊤ := isCompact_Icc.measure_lt_top.ne
    refine (measureReal_mono cutSquare_region (measure_ne_top_of_subset Set.sdiff_subset hfin)).trans ?_
    rw [measureReal_sdiff (Set.Icc_subset_Icc (fun _ => by norm_num) le_rfl) measurableSet_Icc (measure_ne_top_of_subset (Set.Icc_subset_Icc (fun _ => by norm_num) le_rfl) hfin),
      squareXY_volume (by norm_num), squareXY_volume (by norm_num)]
    norm_num

end Pywmi
