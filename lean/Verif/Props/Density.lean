import Verif.Util.Density
import Verif.Props.Check
import Verif.Smt.Congr

set_option linter.unusedSectionVars false
set_option linter.unusedSimpArgs false

/-!
# C90: plots of densities
-/

namespace Pywmi
open Formula Prog

section
variable {K : Type} [Field K] [LinearOrder K] [IsStrictOrderedRing K]

/-! ### Specification -/

/-- SPEC: assumption on pysmt's `simplify`: the same meaning, no new symbols. -/
structure SimpKeeps (K : Type) [Field K] [LinearOrder K] [IsStrictOrderedRing K] (simp : Formula → Formula) : Prop where
  wt : ∀ ty f, wt ty f = true → wt ty (simp f) = true
  syms : ∀ f, ∀ p ∈ syms (simp f), p ∈ syms f
  truth : ∀ f, Formula.wt .bool f = true → ∀ σ : Env K, truth σ (simp f) = truth σ f
  value : ∀ f, Formula.wt .real f = true → ∀ σ : Env K, value σ (simp f) = value σ f

/-- SPEC: the density of a support and a weight at an assignment. -/
def densityAt (support weight : Formula) (σ : Env K) : K := if truth σ support = true then value σ weight else 0

/-- SPEC: `a` is one of `n` points from `lo` to `hi` with equal distances, both ends included. -/
def OnGrid (lo hi : K) (n : ℕ) (a : K) : Prop := ∃ i < n, a * ((n - 1 : ℕ) : K) = lo * ((n - 1 : ℕ) : K) + i * (hi - lo)

/-- SPEC: only these real variables occur. -/
def OnlyReals (vs : List String) (f : Formula) : Prop := ∀ p ∈ Formula.syms f, p.2 = .real ∧ p.1 ∈ vs

/-! ### Lemmas -/

theorem linspace_mem {lo hi : K} {n : ℕ} (hn : 1 < n) (a : K) : a ∈ linspace lo hi n ↔ OnGrid lo hi n a := by
  have h0 : ((n - 1 : ℕ) : K) ≠ 0 := by
    have : n - 1 ≠ 0 := by omega
    exact_mod_cast this
  simp only [linspace, List.mem_map, List.mem_range, OnGrid]
  refine exists_congr fun i => and_congr_right fun _ => ⟨?_, ?_⟩
  · rintro rfl; field_simp
  · intro h
    field_simp
    rw [mul_comm _ a]
    exact h.symm

theorem gridColumn_ok {pypow : K → K → Except PyErr K} (hpow : PowOk pypow) {u v : String} (huv : u ≠ v) {support weight : Formula}
    (hs : wt .bool support = true) (hw : wt .real weight = true) (ss : OnlyReals [u, v] support) (sw : OnlyReals [u, v] weight)
    (ys : List K) (x : K) :
    gridColumn pypow [u, v] support weight ys x =
      .ok (ys.map fun y => (x, y, densityAt support weight (rowEnv [u, v] [x, y]))) := by
  have hnd : [u, v].Nodup := by simp [huv]
  have e1 := evaluate_table_correct hpow hnd (rows := ys.map fun y => [x, y]) hs fun p hp => (ss p hp).2
  have e2 := evaluate_table_correct hpow hnd (rows := ys.map fun y => [x, y]) hw fun p hp => (sw p hp).2
  simp only [List.length_cons, List.length_nil, Nat.zero_add, Nat.reduceAdd] at e1 e2
  simp only [gridColumn, e1, e2, denRows, weigh, elementwise_map, List.map_map]
  congr 1
  rw [List.zipWith_map_right, List.zipWith_self]
  refine List.map_congr_left fun y _ => ?_
  simp [densityAt, Function.comp]

theorem density_congr {u v : String} {support weight : Formula} (hs : wt .bool support = true) (hw : wt .real weight = true)
    (ss : OnlyReals [u, v] support) (sw : OnlyReals [u, v] weight) {σ τ : Env K}
    (hu : σ.r u = τ.r u) (hv : σ.r v = τ.r v) : densityAt support weight σ = densityAt support weight τ := by
  have agree : ∀ p : String × Ty, p.2 = .real ∧ p.1 ∈ [u, v] → Agree σ τ p := by
    rintro ⟨n, t⟩ ⟨ht, hm⟩
    simp only at ht hm
    subst ht
    simp only [List.mem_cons, List.not_mem_nil, or_false] at hm
    rcases hm with rfl | rfl
    · exact hu
    · exact hv
  unfold densityAt
  rw [truth_congr hs fun p hp => agree p (ss p hp), value_congr hw fun p hp => agree p (sw p hp)]

/-- SPEC: a domain with two real variables and their bounds. -/
structure TwoReals (D : Domain) (u v : String) : Prop where
  vars : D.vars = [u, v]
  ne : u ≠ v
  tu : dictGet D.varTypes u = .ok .real
  tv : dictGet D.varTypes v = .ok .real

theorem TwoReals.bools {D : Domain} {u v : String} (h : TwoReals D u v) : D.boolVars = .ok [] := by
  simp [Domain.boolVars, h.vars, Domain.ofType, h.tu, h.tv]

theorem TwoReals.reals {D : Domain} {u v : String} (h : TwoReals D u v) : D.realVars = .ok [u, v] := by
  simp [Domain.realVars, h.vars, Domain.ofType, h.tu, h.tv]

/-- SPEC: the number of points on an axis. -/
def gridSize (d3 : Bool) : ℕ := if d3 then 1000 else 100

/-- C90: what is drawn for a domain with two real variables, whichever features are chosen: the points of a grid over the bounds of the
features, with the density at the point whose first variable is the first coordinate and whose second variable is the second coordinate. -/
theorem density_drawn {pypow : K → K → Except PyErr K} (hpow : PowOk pypow) {simp : Formula → Formula} (hsimp : SimpKeeps K simp) {D : Domain}
    {u v : String} (hD : TwoReals D u v) {support weight : Formula} (hs : wt .bool support = true) (hw : wt .real weight = true)
    (ss : OnlyReals [u, v] support) (sw : OnlyReals [u, v] weight) {fX fY : Option String} {x y : String} (hx : chooseFeat [u, v] 0 fX = .ok x)
    (hy : chooseFeat [u, v] 1 fY = .ok y) {lx ux ly uy : ℚ} (bx : dictGet D.varDomains x = .ok (some lx, some ux))
    (by_ : dictGet D.varDomains y = .ok (some ly, some uy)) (d3 : Bool) :
    ∃ P, densityPoints pypow simp D support weight fX fY d3 = .ok P ∧ P.length = gridSize d3 * gridSize d3 ∧
      (∀ a b, (∃ z, (a, b, z) ∈ P) ↔ OnGrid (lx : K) ux (gridSize d3) a ∧ OnGrid (ly : K) uy (gridSize d3) b) ∧
      ∀ a b z, (a, b, z) ∈ P → ∀ σ : Env K, σ.r u = a → σ.r v = b → z = densityAt support weight σ := by
  have hn : 1 < gridSize d3 := by cases d3 <;> decide
  have ss' : OnlyReals [u, v] (simp support) := fun p hp => ss p (hsimp.syms _ p hp)
  have sw' : OnlyReals [u, v] (simp weight) := fun p hp => sw p (hsimp.syms _ p hp)
  have hcol := fun ys x => gridColumn_ok hpow hD.ne (hsimp.wt _ _ hs) (hsimp.wt _ _ hw) ss' sw' ys x
  have hmap : ∀ xs ys, mapE (gridColumn pypow D.vars (simp support) (simp weight) ys) xs =
      .ok (xs.map fun x => ys.map fun y => (x, y, densityAt (simp support) (simp weight) (rowEnv [u, v] [x, y]))) := by
    intro xs ys
    rw [hD.vars]
    exact mapE_ok fun x _ => hcol ys x
  refine ⟨((linspace (lx : K) ux (gridSize d3)).map fun x => (linspace (ly : K) uy (gridSize d3)).map fun y =>
    (x, y, densityAt (simp support) (simp weight) (rowEnv [u, v] [x, y]))).flatten, ?_, ?_, ?_, ?_⟩
  · simp only [densityPoints, hD.bools, hD.reals, hx, hy, List.length_nil, ne_eq, not_true_eq_false, if_false, axis, bx, by_, hmap]
    rfl
  · simp [linspace, List.length_flatten, List.map_map, Function.comp_def]
  · intro a b
    rw [← linspace_mem hn, ← linspace_mem hn]
    simp only [List.mem_flatten, List.mem_map]
    constructor
    · rintro ⟨z, l, ⟨x, hx, rfl⟩, hl⟩
      obtain ⟨y, hy, e⟩ := List.mem_map.mp hl
      cases e
      exact ⟨hx, hy⟩
    · rintro ⟨ha, hb⟩
      exact ⟨_, _, ⟨a, ha, rfl⟩, List.mem_map.mpr ⟨b, hb, rfl⟩⟩
  · intro a b z h σ hu hv
    simp only [List.mem_flatten, List.mem_map] at h
    obtain ⟨l, ⟨x, hx, rfl⟩, hl⟩ := h
    obtain ⟨y, hy, e⟩ := List.mem_map.mp hl
    cases e
    have e1 : densityAt (simp support) (simp weight) (rowEnv [u, v] [a, b]) = densityAt support weight (rowEnv [u, v] [a, b]) := by
      unfold densityAt
      rw [hsimp.truth _ hs, hsimp.value _ hw]
    rw [e1]
    refine density_congr hs hw ss sw ?_ ?_
    · simp [rowEnv, hu]
    · rw [hv]
      have : List.idxOf v [u, v] = 1 := by
        rw [List.idxOf_cons_ne _ hD.ne]; simp
      simp [rowEnv, this]

/-- SPEC: what the user sees at a point: the density where the feature on each axis has the coordinate of the point. -/
def ShowsAt (P : List (K × K × K)) (x y : String) (support weight : Formula) : Prop :=
  ∀ a b z, (a, b, z) ∈ P → ∀ σ : Env K, σ.r x = a → σ.r y = b → z = densityAt support weight σ

/-- C90: the plot of a density over two real variables shows the density at every point of the grid over the bounds, if the features are
the two variables in the order of the domain (as they are by default). Missing: exchanged features (`density_exchanged`), further variables
(`density_third`). -/
theorem density_shows_partial {pypow : K → K → Except PyErr K} (hpow : PowOk pypow) {simp : Formula → Formula} (hsimp : SimpKeeps K simp) {D : Domain}
    {u v : String} (hD : TwoReals D u v) {support weight : Formula} (hs : wt .bool support = true) (hw : wt .real weight = true)
    (ss : OnlyReals [u, v] support) (sw : OnlyReals [u, v] weight) {fX fY : Option String} (hx : chooseFeat [u, v] 0 fX = .ok u)
    (hy : chooseFeat [u, v] 1 fY = .ok v) {lx ux ly uy : ℚ} (bx : dictGet D.varDomains u = .ok (some lx, some ux))
    (by_ : dictGet D.varDomains v = .ok (some ly, some uy)) (d3 : Bool) :
    ∃ P, densityPoints pypow simp D support weight fX fY d3 = .ok P ∧ P.length = gridSize d3 * gridSize d3 ∧
      (∀ a b, (∃ z, (a, b, z) ∈ P) ↔ OnGrid (lx : K) ux (gridSize d3) a ∧ OnGrid (ly : K) uy (gridSize d3) b) ∧ ShowsAt P u v support weight := by
  obtain ⟨P, h1, h2, h3, h4⟩ := density_drawn hpow hsimp hD hs hw ss sw hx hy bx by_ d3
  exact ⟨P, h1, h2, h3, h4⟩

/-- C90: domains with Boolean variables are refused whenever the features exist. -/
theorem density_bool {pypow : K → K → Except PyErr K} {simp : Formula → Formula} {D : Domain} {bs rs : List String} (hb : D.boolVars = .ok bs)
    (hne : bs ≠ []) (hr : D.realVars = .ok rs) {support weight : Formula} {fX fY : Option String} {x y : String}
    (hx : chooseFeat rs 0 fX = .ok x) (hy : chooseFeat rs 1 fY = .ok y) (d3 : Bool) :
    densityPoints pypow simp D support weight fX fY d3 = .error .assertionError := by
  have : bs.length ≠ 0 := by simpa using hne
  simp [densityPoints, hb, hr, hx, hy, this]

end

namespace DensityExample

/-- EXAMPLE: two real variables between 0 and 1. -/
def dom : Domain := ⟨["x", "y"], [("x", .real), ("y", .real)], [("x", (some 0, some 1)), ("y", (some 0, some 1))]⟩
/-- EXAMPLE: three real variables between 0 and 1. -/
def dom3 : Domain :=
  ⟨["x", "y", "z"], [("x", .real), ("y", .real), ("z", .real)], [("x", (some 0, some 1)), ("y", (some 0, some 1)), ("z", (some 0, some 1))]⟩
/-- EXAMPLE: the support `x <= 1`. -/
def sup : Formula := .le (.sym "x" .real) (.realC 1)
/-- EXAMPLE: the weight `x`. -/
def wgt : Formula := .sym "x" .real
/-- EXAMPLE: powers with natural exponents. -/
def pw (x y : ℚ) : Except PyErr ℚ := if y.den = 1 ∧ 0 ≤ y then .ok (x ^ y.num.toNat) else .error .other

theorem pw_ok : PowOk pw := by
  intro x n
  simp [pw]

theorem id_keeps : SimpKeeps ℚ id := ⟨fun _ _ h => h, fun _ _ h => h, fun _ _ _ => rfl, fun _ _ _ => rfl⟩

theorem dom_two : TwoReals dom "x" "y" := ⟨rfl, by decide, rfl, rfl⟩
theorem sup_wt : wt .bool sup = true := rfl
theorem wgt_wt : wt .real wgt = true := rfl
theorem sup_reals : OnlyReals ["x", "y"] sup := by simp [OnlyReals, sup, syms]
theorem wgt_reals : OnlyReals ["x", "y"] wgt := by simp [OnlyReals, wgt, syms]

/-- The hypotheses are met with the default features. -/
example : ∃ P : List (ℚ × ℚ × ℚ), densityPoints pw id dom sup wgt none none false = .ok P ∧ P.length = 100 * 100 ∧ ShowsAt P "x" "y" sup wgt := by
  obtain ⟨P, h1, h2, -, h4⟩ := density_shows_partial (K := ℚ) pw_ok id_keeps dom_two sup_wt wgt_wt sup_reals wgt_reals (fX := none) (fY := none)
    rfl rfl (lx := 0) (ux := 1) (ly := 0) (uy := 1) rfl rfl false
  exact ⟨P, h1, h2, h4⟩

end DensityExample

open DensityExample in
/-- C90 is wrong for exchanged features: the axes are exchanged, the values are not. The weight `x` over the features `y` and `x` is drawn
with the height 1 where `y` is 1 and `x` is 0. -/
theorem density_exchanged : ∃ P : List (ℚ × ℚ × ℚ), densityPoints pw id dom sup wgt (some "y") (some "x") false = .ok P ∧
    (1, 0, 1) ∈ P ∧ ¬ShowsAt P "y" "x" sup wgt := by
  obtain ⟨P, h1, h2, h3, h4⟩ := density_drawn (K := ℚ) pw_ok id_keeps dom_two sup_wt wgt_wt sup_reals wgt_reals (fX := some "y") (fY := some "x")
    rfl rfl (lx := 0) (ux := 1) (ly := 0) (uy := 1) rfl rfl false
  obtain ⟨z, hz⟩ := (h3 1 0).mpr ⟨⟨99, by decide, by norm_num [gridSize]⟩, ⟨0, by decide, by norm_num [gridSize]⟩⟩
  have hz1 := h4 1 0 z hz ⟨fun _ => false, fun n => if n = "x" then 1 else 0⟩ (by simp) (by simp)
  have : z = 1 := by rw [hz1]; simp [densityAt, sup, wgt, truth, value]
  subst this
  refine ⟨P, h1, hz, fun h => ?_⟩
  have := h 1 0 1 hz ⟨fun _ => false, fun n => if n = "y" then 1 else 0⟩ (by simp) (by simp)
  simp [densityAt, sup, wgt, truth, value] at this

open DensityExample in
/-- C90 is wrong for more than two variables: the table has two columns only, a support with the third variable raises an IndexError. -/
theorem density_third (weight : Formula) (d3 : Bool) :
    densityPoints pw id dom3 (.le (.sym "z" .real) (.realC 1)) weight (some "x") (some "z") d3 = .error .indexError := by
  have hcol : ∀ (ys : List ℚ) (x : ℚ), gridColumn pw dom3.vars (.le (.sym "z" .real) (.realC 1)) weight ys x = .error .indexError := by
    intro ys x
    have : evaluate pw dom3.vars (.le (.sym "z" .real) (.realC 1)) (.table (ys.map fun y => [x, y]) 2) = .error .indexError := by rfl
    simp [gridColumn, this]
  have hm : ∀ (ys : List ℚ) (n : ℕ), mapE (gridColumn pw dom3.vars (.le (.sym "z" .real) (.realC 1)) weight ys) (linspace 0 1 (n + 1)) =
      .error .indexError := by
    intro ys n
    simp [linspace, List.range_succ_eq_map, mapE, hcol]
  have hb : dom3.boolVars = .ok [] := rfl
  have hr : dom3.realVars = .ok ["x", "y", "z"] := rfl
  have hx : chooseFeat ["x", "y", "z"] 0 (some "x") = .ok "x" := rfl
  have hz : chooseFeat ["x", "y", "z"] 1 (some "z") = .ok "z" := rfl
  have ax : ∀ n, axis ℚ dom3 "x" n = .ok (linspace 0 1 n) := fun n => by
    have h : dictGet dom3.varDomains "x" = .ok (some 0, some 1) := rfl
    simp [axis, h]
  have az : ∀ n, axis ℚ dom3 "z" n = .ok (linspace 0 1 n) := fun n => by
    have h : dictGet dom3.varDomains "z" = .ok (some 0, some 1) := rfl
    simp [axis, h]
  simp only [densityPoints, hb, hr, hx, hz, List.length_nil, ne_eq, not_true_eq_false, if_false, ax, az, id]
  cases d3
  · simp only [Bool.false_eq_true, if_false, hm _ 99]
  · simp only [if_true, hm _ 999]

end Pywmi
