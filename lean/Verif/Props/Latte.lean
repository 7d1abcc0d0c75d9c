import Mathlib.Analysis.SpecificLimits.Basic
import Mathlib.Topology.Order.OrderClosed
import Mathlib.Topology.Instances.Real.Lemmas
import Verif.Math.Latte
import Verif.Props.Math

set_option linter.unusedSectionVars false
set_option linter.unusedSimpArgs false

/-!
# C11: what is written for LattE is the integrand and the region

The specification is LattE's own reading of its input: a row `b a₁ … aₙ` stands for `b + Σ aᵢ xᵢ ≥ 0`, a monomial
`[c,[e₁,…,eₙ]]` for `c · Π xᵢ^eᵢ`.
-/

namespace Pywmi
open Prog

section
variable {K : Type} [Field K] [LinearOrder K] [IsStrictOrderedRing K]

/-- SPEC: the left-hand side of an H-representation row at a point. -/
def rowValue (vars : List String) (ρ : String → K) (row : List ℚ) : K :=
  (List.zipWith (fun (a : ℚ) (t : K) => (a : K) * t) row (1 :: vars.map ρ)).sum

/-- SPEC: the polytope described by the rows. -/
def hrepRegion (vars : List String) (rows : List (List ℚ)) (K : Type) [Field K] [LinearOrder K] : Set (String → K) :=
  {ρ | ∀ row ∈ rows, 0 ≤ rowValue vars ρ row}

/-- SPEC: value of LattE's list of monomials. -/
def monomialsValue (vars : List String) (ρ : String → K) (ms : List (ℚ × List ℕ)) : K :=
  (ms.map fun m => (m.1 : K) * (List.zipWith (fun (t : K) (e : ℕ) => t ^ e) (vars.map ρ) m.2).prod).sum

/-- A bound that the LattE backend can express: a nonempty linear inequality over the given variables. -/
def LatteOk (vars : List String) (d : Dict) : Prop :=
  WFLin d ∧ d ≠ [] ∧ (∀ p ∈ d, p.1.length ≤ 1) ∧ ∀ n ∈ linVars d, n ∈ vars

theorem rowValue_row (vars : List String) (hv : vars.Nodup) (ρ : String → K) {i : Dict}
    (hk : ∀ p ∈ i, p.1.length ≤ 1) (hn : KeysNodup i) (hs : ∀ n ∈ linVars i, n ∈ vars) :
    rowValue vars ρ (linB i :: vars.map fun v => -linCoef i [v]) = -polyEval ρ i := by
  rw [polyEval_linear hk hn hv hs]
  simp only [rowValue, List.zipWith_cons_cons, List.sum_cons, linB]
  have : List.zipWith (fun (a : ℚ) (t : K) => (a : K) * t) (vars.map fun v => -linCoef i [v]) (vars.map ρ) =
      vars.map fun v => -((linCoef i [v] : K) * ρ v) := by
    clear hv hs
    induction vars with
    | nil => rfl
    | cons a vs ih => simp [ih]
  rw [this]
  have h2 : (vars.map fun v => -((linCoef i [v] : K) * ρ v)).sum = -(vars.map fun v => (linCoef i [v] : K) * ρ v).sum := by
    clear hv hs this
    induction vars with
    | nil => simp
    | cons a vs ih => simp [ih]; ring
  rw [h2]; push_cast; ring

theorem latteRow_spec {vars : List String} (hv : vars.Nodup) {d : Dict} (h : LatteOk vars d) :
    ∃ row, latteRow vars d = .ok row ∧ row.length = vars.length + 1 ∧ (∀ a ∈ row, ∃ z : ℤ, a = z) ∧
      ∀ ρ : String → K, 0 ≤ rowValue vars ρ row ↔ polyEval ρ d ≤ 0 := by
  obtain ⟨hw, hne, hk, hs⟩ := h
  obtain ⟨L, g, hL, hg, h1, h2, -⟩ := scale_spec hw.2 hne
  have hpos : (0 : ℚ) < (L : ℚ) / g := div_pos (by exact_mod_cast hL) (by exact_mod_cast hg)
  set i : Dict := d.map fun p => (p.1, p.2 * ((L : ℚ) / (g : ℚ))) with hi
  have hki : ∀ p ∈ i, p.1.length ≤ 1 := by
    intro p hp; obtain ⟨q, hq, rfl⟩ := List.mem_map.mp hp; exact hk q hq
  have hni : KeysNodup i := hw.1.mapVal _
  have hsi : ∀ n ∈ linVars i, n ∈ vars := by
    intro n hn
    apply hs
    simp only [linVars, hi, List.mem_flatMap, List.mem_map] at hn ⊢
    obtain ⟨_, ⟨q, hq, rfl⟩, hn⟩ := hn
    exact ⟨q, hq, hn⟩
  have hint : ∀ k, ∃ z : ℤ, linCoef i k = z := by
    intro k
    unfold linCoef
    cases hl : i.lookup k with
    | none => exact ⟨0, by simp⟩
    | some v =>
      obtain ⟨q, hq, he⟩ := List.mem_map.mp (mem_of_lookup hl)
      obtain ⟨z, hz⟩ := h2 q hq
      refine ⟨z, ?_⟩
      simp only [Prod.mk.injEq] at he
      simp [← he.2, hz]
  refine ⟨linB i :: vars.map fun v => -linCoef i [v], by simp [latteRow, h1], by simp, ?_, ?_⟩
  · intro a ha
    rcases List.mem_cons.mp ha with rfl | ha
    · obtain ⟨z, hz⟩ := hint []; exact ⟨-z, by simp [linB, hz]⟩
    · obtain ⟨v, -, rfl⟩ := List.mem_map.mp ha
      obtain ⟨z, hz⟩ := hint [v]; exact ⟨-z, by simp [hz]⟩
  · intro ρ
    rw [rowValue_row vars hv ρ hki hni hsi, hi, polyEval_scale]
    have hfk : (0 : K) < (((L : ℚ) / g : ℚ) : K) := by exact_mod_cast hpos
    rw [neg_nonneg]
    constructor
    · intro h; by_contra h'; exact absurd (mul_pos (not_le.mp h') hfk) (not_lt.mpr h)
    · intro h; exact mul_nonpos_of_nonpos_of_nonneg h hfk.le

/-- C11: the rows written for LattE are integral and describe exactly the closed region of the bounds. -/
theorem latteRows_correct {vars : List String} (hv : vars.Nodup) {bounds : List Dict}
    (h : ∀ d ∈ bounds, LatteOk vars d) :
    ∃ rows, latteRows vars bounds = .ok rows ∧ rows.length = bounds.length ∧
      (∀ row ∈ rows, row.length = vars.length + 1 ∧ ∀ a ∈ row, ∃ z : ℤ, a = z) ∧
      hrepRegion vars rows K = {ρ | ∀ d ∈ bounds, polyEval ρ d ≤ 0} := by
  induction bounds with
  | nil => exact ⟨[], rfl, rfl, by simp, by simp [hrepRegion]⟩
  | cons d ds ih =>
    obtain ⟨row, e1, l1, i1, r1⟩ := latteRow_spec (K := K) hv (h d (by simp))
    obtain ⟨rows, e2, l2, i2, r2⟩ := ih fun d hd => h d (by simp [hd])
    refine ⟨row :: rows, ?_, by simp [l2], ?_, ?_⟩
    · unfold latteRows at e2 ⊢; simp [mapE, e1, e2]
    · intro r hr
      rcases List.mem_cons.mp hr with rfl | hr
      · exact ⟨l1, i1⟩
      · exact i2 r hr
    · ext ρ
      have := Set.ext_iff.mp r2 ρ
      simp only [hrepRegion, Set.mem_ofPred_eq, List.forall_mem_cons] at this ⊢
      rw [r1, this]

/-- C11: the monomials written for LattE are the integrand. -/
theorem latteMonomials_correct {vars : List String} (hv : vars.Nodup) {poly : Dict}
    (hs : ∀ p ∈ poly, ∀ n ∈ p.1, n ∈ vars) (ρ : String → K) :
    monomialsValue vars ρ (latteMonomials vars poly) = polyEval ρ poly ∧
      ∀ m ∈ latteMonomials vars poly, m.2.length = vars.length := by
  constructor
  · unfold monomialsValue latteMonomials polyEval
    rw [List.map_map]
    congr 1
    apply List.map_congr_left
    intro p hp
    simp only [Function.comp, latteExponents]
    rw [monoEval_count hv (hs p hp)]
    congr 2
    clear hs hv
    induction vars with
    | nil => rfl
    | cons a vs ih => simp [ih]
  · intro m hm
    obtain ⟨p, -, rfl⟩ := List.mem_map.mp hm
    simp [latteExponents]

/-- C11 (finding): an inequality without any coefficient left (as `LinearInequality.from_smt` returns for `x <= x`)
makes the backend raise TypeError instead of being ignored. -/
theorem latteRows_empty_bound (vars : List String) (ds : List Dict) :
    linFromSmt (.le (.sym "x" .real) (.sym "x" .real)) = .ok [] ∧
      latteRows vars ([] :: ds) = .error .typeError := by
  constructor
  · decide +kernel
  · rfl

end

theorem continuous_polyEval (d : Dict) : Continuous fun ρ : String → ℝ => polyEval ρ d := by
  induction d with
  | nil => simpa using continuous_const
  | cons p d ih =>
    simp only [polyEval_cons]
    refine (continuous_const.mul ?_).add ih
    unfold monoEval
    induction p.1 with
    | nil => simpa using continuous_const
    | cons n k ih =>
      simp only [List.map_cons, List.prod_cons]
      exact Continuous.mul (continuous_apply n) ih

theorem polyEval_segment {d : Dict} (hk : ∀ p ∈ d, p.1.length ≤ 1) (ρ τ : String → ℝ) (t : ℝ) :
    polyEval (fun n => (1 - t) * ρ n + t * τ n) d = (1 - t) * polyEval ρ d + t * polyEval τ d := by
  induction d with
  | nil => simp
  | cons p d ih =>
    rw [polyEval_cons, polyEval_cons, polyEval_cons, ih fun q hq => hk q (by simp [hq])]
    obtain ⟨k, v⟩ := p
    have := hk (k, v) (by simp)
    match k, this with
    | [], _ => simp [monoEval]; ring
    | [n], _ => simp [monoEval]; ring

/-- C11: strictness does not matter to LattE.  If the open region of the bounds is not empty, the polytope that is
written is its closure. -/
theorem latteRows_closure {vars : List String} (hv : vars.Nodup) {bounds : List Dict}
    (h : ∀ d ∈ bounds, LatteOk vars d) (hne : ∃ τ : String → ℝ, ∀ d ∈ bounds, polyEval τ d < 0) :
    ∃ rows, latteRows vars bounds = .ok rows ∧
      hrepRegion vars rows ℝ = closure {ρ | ∀ d ∈ bounds, ρ ∈ halfSpace d ℝ} := by
  obtain ⟨rows, h1, -, -, h4⟩ := latteRows_correct (K := ℝ) hv h
  refine ⟨rows, h1, h4.trans ?_⟩
  apply Set.Subset.antisymm
  · intro ρ hρ
    obtain ⟨τ, hτ⟩ := hne
    have hlim : Filter.Tendsto (fun n : ℕ => fun m : String => (1 - 1 / ((n : ℝ) + 1)) * ρ m + 1 / ((n : ℝ) + 1) * τ m)
        Filter.atTop (nhds ρ) := by
      rw [tendsto_pi_nhds]
      intro m
      have h0 := tendsto_one_div_add_atTop_nhds_zero_nat (𝕜 := ℝ)
      have := ((tendsto_const_nhds (x := (1 : ℝ))).sub h0).mul_const (ρ m) |>.add (h0.mul_const (τ m))
      simpa using this
    refine mem_closure_of_tendsto hlim (Filter.Eventually.of_forall fun n => ?_)
    intro d hd
    simp only [halfSpace, Set.mem_ofPred_eq]
    rw [polyEval_segment (h d hd).2.2.1]
    have hp : (0 : ℝ) < 1 / ((n : ℝ) + 1) := by positivity
    have hp1 : 1 / ((n : ℝ) + 1) ≤ 1 := by
      rw [div_le_one (by positivity)]
      have : (0 : ℝ) ≤ n := Nat.cast_nonneg n
      linarith
    have a1 := mul_nonpos_of_nonneg_of_nonpos (sub_nonneg.mpr hp1) (hρ d hd)
    have a2 := mul_neg_of_pos_of_neg hp (hτ d hd)
    linarith
  · have hcl : IsClosed {ρ : String → ℝ | ∀ d ∈ bounds, polyEval ρ d ≤ 0} := by
      have : {ρ : String → ℝ | ∀ d ∈ bounds, polyEval ρ d ≤ 0} = ⋂ d ∈ bounds, {ρ | polyEval ρ d ≤ 0} := by
        ext; simp
      rw [this]
      exact isClosed_biInter fun d _ => isClosed_le (continuous_polyEval d) continuous_const
    exact closure_minimal (fun ρ hρ d hd => (hρ d hd).le) hcl

/-! ### The hypotheses are met -/

/-- The triangle `0 < x`, `0 < y`, `x/2 + y/3 < 1`. -/
def sampleBounds : List Dict :=
  [[(["x"], -1)], [(["y"], -1)], [(["x"], 1/2), (["y"], 1/3), ([], -1)]]

example : latteRows ["x", "y"] sampleBounds = .ok [[0, 1, 0], [0, 0, 1], [6, -3, -2]] := by decide +kernel

theorem sampleBounds_ok : ∀ d ∈ sampleBounds, LatteOk ["x", "y"] d := by
  intro d hd
  simp only [sampleBounds, List.mem_cons, List.not_mem_nil, or_false] at hd
  rcases hd with rfl | rfl | rfl <;>
    refine ⟨⟨by simp [KeysNodup], by simp⟩, by simp, by simp, by simp [linVars]⟩

example : ∃ rows, latteRows ["x", "y"] sampleBounds = .ok rows ∧
      hrepRegion ["x", "y"] rows ℝ = closure {ρ | ∀ d ∈ sampleBounds, ρ ∈ halfSpace d ℝ} :=
  latteRows_closure (by decide) sampleBounds_ok ⟨fun _ => 1/2, by
    intro d hd
    simp only [sampleBounds, List.mem_cons, List.not_mem_nil, or_false] at hd
    rcases hd with rfl | rfl | rfl <;> norm_num [polyEval, monoEval]⟩

example : latteMonomials ["x", "y"] [(["x", "x", "y"], 3), ([], 2)] = [(3, [2, 1]), (2, [0, 0])] := by decide +kernel

example (ρ : String → ℚ) : monomialsValue ["x", "y"] ρ (latteMonomials ["x", "y"] [(["x", "x", "y"], 3), ([], 2)]) =
    polyEval ρ [(["x", "x", "y"], 3), ([], 2)] :=
  (latteMonomials_correct (by decide) (by simp) ρ).1

end Pywmi
