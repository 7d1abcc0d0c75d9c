import Verif.Engine.ConvexFloat
import Verif.Props.ScaleFloat
import Verif.Props.ConvexCases

set_option linter.unusedSectionVars false
set_option linter.unusedSimpArgs false

/-!
# C108: the LattE back-end with Python's numbers
-/

namespace Pywmi
open Formula MeasureTheory

/-- SPEC: inequalities that are scaled without rounding. -/
def SmallDens (is : List Dict) : Prop := ∀ d ∈ is, (∀ p ∈ d, p.2.den ≤ 1000000) ∧ denLcm d < 9007199254740992

theorem prepareFloat_eq {lim : ℚ → ℚ} (hlim : LimLaw lim) (vars : List String) : ∀ (is : List Dict) (f : Formula) (rows : List (List ℚ)), SmallDens is →
    Latte.prepareFloat lim vars f rows is = Latte.prepare vars f rows is
  | [], f, rows, _ => rfl
  | d :: ds, f, rows, h => by
    have hd := h d (by simp)
    rw [Latte.prepareFloat, Latte.prepare, scale_float_partial hlim hd.1 hd.2]
    cases linScaleToInteger d with
    | error e => rfl
    | ok i =>
      simp only
      cases linToSmt i with
      | error e => rfl
      | ok g => exact prepareFloat_eq hlim vars ds _ _ fun x hx => h x (by simp [hx])

/-- The polynomial with its coefficients replaced. -/
def limPoly (lim : ℚ → ℚ) (p : Dict) : Dict := p.map fun e => (e.1, lim e.2)

/-- **C108** (partial: inequalities that are scaled without rounding): LattE is asked for the polynomial whose coefficients are the closest
fractions with denominators up to a million. -/
theorem latte_float_partial {lim : ℚ → ℚ} (hlim : LimLaw lim) (run : List Char → List Char → Option (List Char)) (sat : Formula → Bool) (D : Domain)
    {is : List Dict} (hs : SmallDens is) (p : Dict) : Latte.integrateFloat lim run sat D is p = Latte.integrate run sat D is (limPoly lim p) := by
  unfold Latte.integrateFloat Latte.integrate
  cases D.realVars with
  | error e => rfl
  | ok vars =>
    simp only
    rw [prepareFloat_eq hlim vars is _ _ hs]
    have : latteMonomials vars (limPoly lim p) = Latte.monomialsFloat lim vars p := by
      simp [latteMonomials, limPoly, Latte.monomialsFloat, Function.comp_def]
    rw [this]
    cases Latte.prepare vars (.boolC true) [] is with
    | error e => rfl
    | ok r =>
      obtain ⟨g, rows⟩ := r
      rfl

/-- **C108** (partial): with coefficients of denominators up to a million the answer is the integral, as in C78. -/
theorem latte_float_exact_partial {lim : ℚ → ℚ} (hlim : LimLaw lim) {run : List Char → List Char → Option (List Char)} (hrun : LatteSound run)
    {sat : Formula → Bool} (hsat : ∀ f, sat f = false → ∀ σ : Env ℝ, truth σ f = false) {D : Domain} (hD : D.WF) (hb : D.bools = []) {is : List Dict}
    (hl : LinearOver D is) (hs : SmallDens is) {p : Dict} (hp : ∀ m ∈ p, ∀ n ∈ m.1, n ∈ D.reals) (hq : ∀ m ∈ p, m.2.den ≤ 1000000)
    (hfin : volume (regionSet D is) ≠ ⊤) {v : ℚ} (h : Latte.integrateFloat lim run sat D is p = .ok v) :
    (v : ℝ) = D.volumeOf false (regionFn is p) := by
  rw [latte_float_partial hlim run sat D hs] at h
  have : limPoly lim p = p := by
    conv_rhs => rw [← List.map_id p]
    exact List.map_congr_left fun e he => Prod.ext rfl (hlim.same (hq e he))
  rw [this] at h
  exact (latte_correct hrun hsat hD hb hl hp hfin).1 v h

/-- **C108, negation**: a constant weight below 1/2000000 is integrated to 0, over every region. -/
theorem latte_float_tiny {lim : ℚ → ℚ} (hlim : LimLaw lim) {run : List Char → List Char → Option (List Char)} (hrun : LatteSound run)
    {sat : Formula → Bool} (hsat : ∀ f, sat f = false → ∀ σ : Env ℝ, truth σ f = false) {D : Domain} (hD : D.WF) (hb : D.bools = []) {is : List Dict}
    (hl : LinearOver D is) (hs : SmallDens is) {q : ℚ} (hq : |q| < 1 / 2000000) (hfin : volume (regionSet D is) ≠ ⊤) {v : ℚ}
    (h : Latte.integrateFloat lim run sat D is [([], q)] = .ok v) : v = 0 ∧ D.volumeOf false (regionFn is [([], q)]) = q * volume.real (regionSet D is) := by
  rw [latte_float_partial hlim run sat D hs] at h
  have h0 : limPoly lim [([], q)] = [([], 0)] := by simp [limPoly, hlim.tiny hq]
  rw [h0] at h
  have := (latte_correct hrun hsat hD hb hl (by simp) hfin).1 v h
  rw [volumeOf_region hb] at this ⊢
  constructor
  · have h2 : (v : ℝ) = 0 := by rw [this]; simp [polyEval, monoEval]
    exact_mod_cast h2
  · simp [polyEval, monoEval, mul_comm]

/-- **C108, negation**: the inequality of `scale_float_rounds` is written as a row of zeros, which all points satisfy. -/
theorem latte_float_row {lim : ℚ → ℚ} (hlim : LimLaw lim) (f : Formula) (rows : List (List ℚ)) :
    Latte.prepareFloat lim ["x", "y"] f rows [primeIneq] = .ok (.and [f, .le (.realC 0) (.realC 0)], rows ++ [[0, 0, 0]]) := by
  rw [Latte.prepareFloat, (scale_float_rounds hlim).1]
  rfl

/-! ## The hypotheses are met -/

theorem upToTwo_dens : SmallDens upToTwo := by
  intro d hd
  simp only [upToTwo, List.mem_cons, List.not_mem_nil, or_false] at hd
  rcases hd with rfl | rfl <;> exact ⟨by decide, by decide⟩

theorem upToTwo_const (q : ℚ) : boxX.volumeOf false (regionFn upToTwo [([], q)]) = 2 * q := by
  rw [volumeOf_region (by decide), upToTwo_region]
  have : ∀ x : Fin boxX.reals.length → ℝ, polyEval (env0.setReals boxX.reals x).r [([], q)] = q := fun x => by simp [polyEval, monoEval]
  simp only [this, setIntegral_const, smul_eq_mul]
  rw [show volume.real (Set.Icc (fun _ : Fin boxX.reals.length => (0 : ℝ)) fun _ => 2) = 2 from boxX_interval 2 (by norm_num)]

open Classical in
theorem upToTwo_latte {lim : ℚ → ℚ} (hlim : LimLaw lim) (q : ℚ) :
    Latte.integrateFloat lim Latte.ideal (fun f => decide (∃ σ : Env ℝ, truth σ f = true)) boxX upToTwo [([], q)] = .ok (2 * lim q) := by
  rw [latte_float_partial hlim _ _ _ upToTwo_dens, show limPoly lim [([], q)] = [([], lim q)] from rfl]
  have hfin : volume (regionSet boxX upToTwo) ≠ ⊤ := by
    rw [upToTwo_region]
    exact isCompact_Icc.measure_lt_top.ne
  obtain ⟨h1, h2⟩ := latte_correct Latte.ideal_sound (sat := fun f => decide (∃ σ : Env ℝ, truth σ f = true))
    (fun f h σ => by simpa using (of_decide_eq_false h) ∘ fun h' => ⟨σ, h'⟩) boxX_box.wf (by decide) upToTwo_linear (p := [([], lim q)])
    (by simp) hfin
  cases h : Latte.integrate Latte.ideal (fun f => decide (∃ σ : Env ℝ, truth σ f = true)) boxX upToTwo [([], lim q)] with
  | ok v =>
    have := h1 v h
    rw [upToTwo_const] at this
    exact congrArg _ (by exact_mod_cast this)
  | error e =>
    rcases h2 e h with ⟨-, hm⟩ | ⟨-, ⟨pf, hf, rows, ms, hr, k1, k2, k3⟩, -⟩
    · simp [upToTwo] at hm
    · simp only [Latte.ideal, k1, k2, k3, upToTwo_const] at hr
      rw [dif_pos ⟨2 * lim q, by push_cast; rfl⟩] at hr
      cases hr

open Classical in
/-- **C108, negation**: with a LattE and a solver that are right, a density of 1/3000000 on `0 <= x <= 2` is integrated to 0. -/
theorem latte_float_loses {lim : ℚ → ℚ} (hlim : LimLaw lim) :
    Latte.integrateFloat lim Latte.ideal (fun f => decide (∃ σ : Env ℝ, truth σ f = true)) boxX upToTwo [([], 1 / 3000000)] = .ok 0 ∧
      boxX.volumeOf false (regionFn upToTwo [([], 1 / 3000000)]) = 1 / 1500000 := by
  refine ⟨?_, by rw [upToTwo_const]; norm_num⟩
  rw [upToTwo_latte hlim, hlim.tiny (by rw [abs_of_pos] <;> norm_num), mul_zero]

open Classical in
/-- A density of 2/3 is integrated exactly. -/
theorem latte_float_example {lim : ℚ → ℚ} (hlim : LimLaw lim) :
    Latte.integrateFloat lim Latte.ideal (fun f => decide (∃ σ : Env ℝ, truth σ f = true)) boxX upToTwo [([], 2 / 3)] = .ok (4 / 3) := by
  rw [upToTwo_latte hlim, hlim.same (by norm_num)]
  norm_num

end Pywmi
