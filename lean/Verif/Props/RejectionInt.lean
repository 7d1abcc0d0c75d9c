import Verif.Engine.RejectionInt
import Verif.Props.RejectionLaw
import Verif.Props.Convex

set_option linter.unusedSectionVars false
set_option linter.unusedSimpArgs false

/-!
# C80: the rejection engine as convex integration back-end
-/

namespace Pywmi
open Formula MeasureTheory ProbabilityTheory Filter Topology Prog

/-! ## Linear programs -/

/-- SPEC: the product of a row and a point. -/
noncomputable def dotR (row : List ℚ) (x : List ℝ) : ℝ := (List.zipWith (fun (a : ℚ) (t : ℝ) => (a : ℝ) * t) row x).sum

/-- SPEC: the points `linprog` searches: its default is that no variable is negative. -/
def LpFeasible (A : List (List ℚ)) (b : List ℚ) (x : List ℝ) : Prop :=
  (∀ t ∈ x, 0 ≤ t) ∧ List.Forall₂ (fun (row : List ℚ) (c : ℚ) => dotR row x ≤ (c : ℝ)) A b

/-- SPEC: a point where the objective is smallest. -/
def LpMinimum (c : List ℚ) (A : List (List ℚ)) (b : List ℚ) (x : List ℚ) : Prop :=
  x.length = c.length ∧ LpFeasible A b (x.map fun q : ℚ => (q : ℝ)) ∧
  ∀ y : List ℝ, y.length = c.length → LpFeasible A b y → dotR c (x.map fun q : ℚ => (q : ℝ)) ≤ dotR c y

/-- SPEC: what is assumed of `scipy.optimize.linprog`: it finds a minimum if there is one. -/
def LinprogOk (lp : List ℚ → List (List ℚ) → List ℚ → Option (List ℚ)) : Prop :=
  ∀ c A b, (∃ x, LpMinimum c A b x) → ∃ x, lp c A b = some x ∧ LpMinimum c A b x

open Classical in
/-- The assumption can be met. -/
noncomputable def idealLinprog (c : List ℚ) (A : List (List ℚ)) (b : List ℚ) : Option (List ℚ) :=
  if h : ∃ x, LpMinimum c A b x then some h.choose else none

theorem idealLinprog_ok : LinprogOk idealLinprog := fun c A b h => ⟨h.choose, by rw [idealLinprog, dif_pos h], h.choose_spec⟩

/-! ## Regions -/

/-- SPEC: the points of the region without negative coordinate. -/
def posRegion (D : Domain) (is : List Dict) : Set (Fin D.reals.length → ℝ) := {x | x ∈ regionSet D is ∧ ∀ i, 0 ≤ x i}

/-- SPEC: every coordinate has a smallest and a largest value on that part of the region, at points with rational
coordinates.  This is so for bounded regions that are not empty. -/
def Extremes (D : Domain) (is : List Dict) : Prop :=
  ∀ j, (∃ q : Fin D.reals.length → ℚ, (fun i => (q i : ℝ)) ∈ posRegion D is ∧ ∀ x ∈ posRegion D is, (q j : ℝ) ≤ x j) ∧
    ∃ q : Fin D.reals.length → ℚ, (fun i => (q i : ℝ)) ∈ posRegion D is ∧ ∀ x ∈ posRegion D is, x j ≤ (q j : ℝ)

theorem zipWith_map_sum (rs : List String) (f : String → ℚ) (ρ : String → ℝ) :
    dotR (rs.map f) (rs.map ρ) = (rs.map fun v => (f v : ℝ) * ρ v).sum := by
  unfold dotR
  congr 1
  induction rs with
  | nil => rfl
  | cons v rs ih => simp [ih]

theorem lpFeasible_region {D : Domain} (hD : D.WF) {is : List Dict} (hl : LinearOver D is) (x : Fin D.reals.length → ℝ) :
    LpFeasible (lpMatrix D.reals is) (lpRight is) (List.ofFn x) ↔ x ∈ posRegion D is := by
  have h1 : (∀ t ∈ List.ofFn x, 0 ≤ t) ↔ ∀ i, 0 ≤ x i := by simp [List.mem_ofFn]
  have h2 : ∀ is : List Dict, LinearOver D is → (List.Forall₂ (fun (row : List ℚ) (c : ℚ) => dotR row (List.ofFn x) ≤ (c : ℝ)) (lpMatrix D.reals is) (lpRight is) ↔
      ∀ d ∈ is, polyEval (env0.setReals D.reals x).r d ≤ 0) := by
    intro is hl
    induction is with
    | nil => simp [lpMatrix, lpRight]
    | cons d is ih =>
      have ih := ih fun e he => hl e (by simp [he])
      obtain ⟨hw, hm⟩ := hl d (by simp)
      have e : dotR (D.reals.map fun v => linCoef d [v]) (List.ofFn x) ≤ ((linB d : ℚ) : ℝ) ↔ polyEval (env0.setReals D.reals x).r d ≤ 0 := by
        rw [← map_setReals (reals_nodup hD) env0 x, zipWith_map_sum, polyEval_linear (fun p hp => (hm p hp).1) hw.1 (reals_nodup hD)
          (fun n hn => by obtain ⟨m, hm', h⟩ := List.mem_flatMap.mp hn; exact (hm m hm').2 n h), linB]
        push_cast
        constructor <;> intro h <;> linarith
      simp only [lpMatrix, lpRight, List.map_cons, List.forall₂_cons, List.mem_cons, forall_eq_or_imp] at ih ⊢
      rw [e, ih]
  rw [LpFeasible, h1, h2 is hl]
  exact and_comm

theorem dotR_unit {n : ℕ} (j : Fin n) (a : ℚ) (x : Fin n → ℝ) : dotR (unitVec n j a) (List.ofFn x) = (a : ℝ) * x j := by
  have : List.zipWith (fun (a : ℚ) (t : ℝ) => (a : ℝ) * t) (unitVec n j a) (List.ofFn x) =
      List.ofFn fun i : Fin n => if i = j then (a : ℝ) * x i else 0 := by
    refine List.ext_getElem (by simp [unitVec]) fun i h1 h2 => ?_
    simp only [List.getElem_zipWith, unitVec, List.getElem_map, List.getElem_range, List.getElem_ofFn, Fin.ext_iff]
    split_ifs <;> simp
  rw [dotR, this, List.sum_ofFn]
  simp

/-- The coordinate found by `linprog`. -/
theorem lpEntry_ok {lp : List ℚ → List (List ℚ) → List ℚ → Option (List ℚ)} (hlp : LinprogOk lp) {D : Domain} (hD : D.WF)
    {is : List Dict} (hl : LinearOver D is) (j : Fin D.reals.length) {a : ℚ} {q : Fin D.reals.length → ℚ}
    (hq : (fun i => (q i : ℝ)) ∈ posRegion D is) (hmin : ∀ x ∈ posRegion D is, (a : ℝ) * q j ≤ (a : ℝ) * x j) :
    ∃ r : Fin D.reals.length → ℚ, lpEntry lp (unitVec D.reals.length j a) (lpMatrix D.reals is) (lpRight is) j = .ok (r j) ∧
      (fun i => (r i : ℝ)) ∈ posRegion D is ∧ ∀ x ∈ posRegion D is, (a : ℝ) * r j ≤ (a : ℝ) * x j := by
  have hcast : ∀ r : Fin D.reals.length → ℚ, (List.ofFn r).map (fun q : ℚ => (q : ℝ)) = List.ofFn fun i => (r i : ℝ) := fun r => by
    rw [List.map_ofFn]; rfl
  have hlist : ∀ {α : Type} (y : List α), y.length = D.reals.length → ∃ f : Fin D.reals.length → α, y = List.ofFn f := by
    intro α y hy
    refine ⟨fun i => y[i]'(by rw [hy]; exact i.2), ?_⟩
    refine List.ext_getElem (by simp [hy]) fun i h1 h2 => by simp
  have hlen : (unitVec D.reals.length j a).length = D.reals.length := by simp [unitVec]
  obtain ⟨x, e, hx1, hx2, hx3⟩ := hlp (unitVec D.reals.length j a) (lpMatrix D.reals is) (lpRight is)
    ⟨List.ofFn q, by simp [hlen], by rw [hcast]; exact (lpFeasible_region hD hl _).mpr hq, fun y hy hf => by
      obtain ⟨f, rfl⟩ := hlist y (hy.trans hlen)
      rw [hcast, dotR_unit, dotR_unit]
      exact hmin f ((lpFeasible_region hD hl f).mp hf)⟩
  obtain ⟨r, rfl⟩ := hlist x (hx1.trans hlen)
  rw [hcast] at hx2 hx3
  refine ⟨r, ?_, (lpFeasible_region hD hl _).mp hx2, fun y hy => ?_⟩
  · simp only [lpEntry, e]
    rw [List.getElem?_ofFn]
    simp [j.2]
  · have := hx3 (List.ofFn y) (by simp [hlen]) ((lpFeasible_region hD hl y).mpr hy)
    rwa [dotR_unit, dotR_unit] at this

/-! ## The box -/

/-- SPEC: a domain with another box. -/
def Domain.withBox (D : Domain) (L U : Fin D.reals.length → ℚ) : Domain :=
  ⟨D.vars, D.varTypes, List.ofFn fun j => (D.reals[j], some (L j), some (U j))⟩

theorem withBox_keys (D : Domain) (L U : Fin D.reals.length → ℚ) : (D.withBox L U).varDomains.map (·.1) = D.reals := by
  simp only [Domain.withBox, List.map_ofFn]
  refine List.ext_getElem (by simp) fun i h1 h2 => by simp

theorem withBox_ok {D : Domain} (hD : D.WF) {L U : Fin D.reals.length → ℚ} (h : ∀ j, L j ≤ U j) : BoxOk (D.withBox L U) := by
  refine ⟨⟨hD.nodup, hD.typesNodup, hD.types, by rw [withBox_keys]; exact reals_nodup hD, fun v => ?_⟩, fun v b hv => ?_⟩
  · rw [withBox_keys, mem_reals]
    refine ⟨fun h => mem_of_dictGet h.2, fun h => ⟨(hD.types v).mp (List.mem_map.mpr ⟨_, h, rfl⟩), ?_⟩⟩
    exact lookup_mem_nodup hD.typesNodup h
  · have := mem_of_dictGet hv
    obtain ⟨j, e⟩ := List.mem_ofFn.mp this
    simp only [Prod.mk.injEq] at e
    exact ⟨L j, U j, e.2.symm, h j⟩

theorem withBox_inBox {D : Domain} (hD : D.WF) (L U : Fin D.reals.length → ℚ) (x : Fin D.reals.length → ℝ) :
    (D.withBox L U).inBox (env0.setReals D.reals x) ↔ ∀ j, (L j : ℝ) ≤ x j ∧ x j ≤ (U j : ℝ) := by
  constructor
  · intro h j
    have := h (D.reals[j], some (L j), some (U j)) (List.mem_ofFn.mpr ⟨j, rfl⟩)
    rw [setReals_get (reals_nodup hD)] at this
    simpa [Domain.inBounds] using this
  · rintro h p hp
    obtain ⟨j, rfl⟩ := List.mem_ofFn.mp hp
    simp only [setReals_get (reals_nodup hD)]
    simpa [Domain.inBounds] using h j

theorem lpBounds_ok {lp : List ℚ → List (List ℚ) → List ℚ → Option (List ℚ)} (hlp : LinprogOk lp) {D : Domain} (hD : D.WF)
    {is : List Dict} (hl : LinearOver D is) (hx : Extremes D is) :
    ∃ L U : Fin D.reals.length → ℚ, lpBounds lp D.reals is = .ok (D.withBox L U).varDomains ∧
      ∀ j, 0 ≤ L j ∧ L j ≤ U j ∧ ∀ x ∈ posRegion D is, (L j : ℝ) ≤ x j ∧ x j ≤ (U j : ℝ) := by
  have one : ∀ j : Fin D.reals.length, ∃ l u : ℚ, lpInterval lp D.reals is j = .ok (D.reals[j], some l, some u) ∧
      0 ≤ l ∧ l ≤ u ∧ ∀ x ∈ posRegion D is, (l : ℝ) ≤ x j ∧ x j ≤ (u : ℝ) := by
    intro j
    obtain ⟨⟨q1, h1, m1⟩, q2, h2, m2⟩ := hx j
    obtain ⟨r1, e1, f1, g1⟩ := lpEntry_ok hlp hD hl j (a := 1) h1 (fun x hx => by simpa using m1 x hx)
    obtain ⟨r2, e2, f2, g2⟩ := lpEntry_ok hlp hD hl j (a := -1) h2 (fun x hx => by simpa using m2 x hx)
    refine ⟨r1 j, r2 j, ?_, ?_, ?_, fun x hx => ⟨by simpa using g1 x hx, by simpa using g2 x hx⟩⟩
    · simp only [lpInterval, e1, e2]
      simp [List.getD_eq_getElem?_getD]
    · have : (0 : ℝ) ≤ ((r1 j : ℚ) : ℝ) := f1.2 j
      exact_mod_cast this
    · have := g1 _ f2
      simp only [Rat.cast_one, one_mul] at this
      exact_mod_cast this
  choose L U h using one
  refine ⟨L, U, ?_, fun j => (h j).2⟩
  have : ∀ i ∈ List.range D.reals.length, lpInterval lp D.reals is i =
      .ok ((fun i => if hi : i < D.reals.length then (D.reals[i], some (L ⟨i, hi⟩), some (U ⟨i, hi⟩)) else ("", none, none)) i) := by
    intro i hi
    have hi := List.mem_range.mp hi
    simp only [hi, dif_pos]
    exact (h ⟨i, hi⟩).1
  rw [lpBounds, Prog.mapE_ok this]
  congr 1
  refine List.ext_getElem (by simp [Domain.withBox]) fun i h1 h2 => ?_
  have hi : i < D.reals.length := by simpa using h1
  simp [Domain.withBox, hi]

theorem withBox_volume {D : Domain} (hD : D.WF) (hb : D.bools = []) (L U : Fin D.reals.length → ℚ) (is : List Dict) (p : Dict) :
    (D.withBox L U).volumeOf true (regionFn is p) =
      ∫ x in {x | x ∈ regionSet D is ∧ ∀ j, (L j : ℝ) ≤ x j ∧ x j ≤ (U j : ℝ)}, polyEval (env0.setReals D.reals x).r p := by
  have hm : MeasurableSet {x | x ∈ regionSet D is ∧ ∀ j, (L j : ℝ) ≤ x j ∧ x j ≤ (U j : ℝ)} := by
    have e : {x | x ∈ regionSet D is ∧ ∀ j, (L j : ℝ) ≤ x j ∧ x j ≤ (U j : ℝ)} =
        regionSet D is ∩ Set.Icc (fun j => (L j : ℝ)) fun j => (U j : ℝ) := by
      ext x
      simp only [Set.mem_ofPred_eq, Set.mem_inter_iff, Set.mem_Icc, Pi.le_def, forall_and]
    rw [e]
    exact (regionSet_meas D is).inter measurableSet_Icc
  refine (volumeOf_real (D := D.withBox L U) hb true _).trans ?_
  change ∫ x : Fin D.reals.length → ℝ, (D.withBox L U).restricted true (regionFn is p) (env0.setReals D.reals x) = _
  rw [← integral_indicator hm]
  refine integral_congr_ae (Filter.Eventually.of_forall fun x => ?_)
  change (D.withBox L U).restricted true (regionFn is p) (env0.setReals D.reals x) = _
  have hi := withBox_inBox hD L U x
  by_cases h : (D.withBox L U).inBox (env0.setReals D.reals x)
  · by_cases h' : x ∈ regionSet D is
    · rw [Set.indicator_of_mem (show x ∈ {x | x ∈ regionSet D is ∧ ∀ j, (L j : ℝ) ≤ x j ∧ x j ≤ (U j : ℝ)} from ⟨h', hi.mp h⟩),
        Domain.restricted, if_pos fun _ => h, regionFn,
        if_pos (c := ∀ d ∈ is, polyEval (env0.setReals D.reals x).r d ≤ 0) h']
    · rw [Set.indicator_of_notMem (fun h2 => h' h2.1), Domain.restricted, if_pos fun _ => h, regionFn,
        if_neg (c := ∀ d ∈ is, polyEval (env0.setReals D.reals x).r d ≤ 0) h']
  · rw [Set.indicator_of_notMem (fun h2 => h (hi.mpr h2.2)), Domain.restricted, if_neg fun h' => h (h' rfl)]

/-! ## C80 -/

section
variable {lp : List ℚ → List (List ℚ) → List ℚ → Option (List ℚ)} {std : List ℚ → ℚ} {R : Rng ℚ} {powQ : ℚ → ℚ → Except PyErr ℚ}
  {R' : Rng ℝ} (hR : RngOk R') {Ω : Type} [MeasurableSpace Ω] {P : Measure Ω} {s' : Ω → R'.State} (hs : IidUniform R' P s')
  {powK : ℝ → ℝ → Except PyErr ℝ} (hpow : PowOk powK) {box : ℤ} {D : Domain} {is : List Dict} {p : Dict} {s : R.State}

/-- SPEC: an integrator that returns a number, whose expected value is `v`. -/
def MeanIs (P : Measure Ω) {S : Type} (out : Ω → Except PyErr (ℝ × S)) (v : ℝ) : Prop :=
  (∀ ω, ∃ r t, out ω = .ok (r, t)) ∧ Integrable (fun ω => returned (out ω)) P ∧ ∫ ω, returned (out ω) ∂P = v

theorem integratorDomain_one (hD : D.WF) {f : Formula} {n : ℕ} : integratorDomain lp std R powQ 1 n D f is s =
    match lpBounds lp D.reals is with
    | .error e => .error e
    | .ok b => .ok ⟨D.vars, D.varTypes, b⟩ := by
  have hr : D.realVars = .ok D.reals := hD.realVars
  rw [integratorDomain, if_pos (by norm_num), if_pos rfl]
  simp only [hr]
  rfl

theorem integratorDomain_two {f : Formula} {n : ℕ} : integratorDomain lp std R powQ 2 n D f is s =
    match drawPositive R powQ D f n s with
    | .error e => .error e
    | .ok (rows, _) =>
      match drawnBounds std D.vars rows with
      | .error e => .error e
      | .ok b => .ok ⟨D.vars, D.varTypes, b⟩ := by
  rw [integratorDomain, if_pos (by norm_num), if_neg (by norm_num), if_pos rfl]
  rfl

/-- What the engine does on the domain chosen. -/
theorem integrate_on {D' : Domain} (hd : ∀ fs, mapE linToSmt is = .ok fs → ∀ n, 0 < n →
      integratorDomain lp std R powQ box n D (mkAnd fs) is s = .ok D') (hD : BoxOk D') (hb : D'.bools = []) (hl : LinearOver D' is)
    (hv : ∀ m ∈ p, ∀ n ∈ m.1, n ∈ D'.reals) (hp : p ≠ []) :
    ∃ fs w, Problem D' (mkAnd fs) w ∧ D'.volumeOf true (density (mkAnd fs) w) = D'.volumeOf true (regionFn is p) ∧
      ∀ n, 0 < n → ∀ t, rejectionIntegrate lp std R powQ R' powK box n D is p s t = rejectionVolume R' powK D' (mkAnd fs) (some w) n none t := by
  obtain ⟨fs, e, h⟩ := engine_problem hD hb hl hv
  obtain ⟨w, hw, hP, -, -, hvol⟩ := h hp
  exact ⟨fs, w, hP, hvol, fun n hn t => by simp only [rejectionIntegrate, e, hd fs e n hn, hw]⟩

include hR hs hpow

/-- **C80**: without bounding box the expected value is the integral of the polynomial over the part of the region in the
box of the domain, and with probability one the values converge to it as the number of samples grows. -/
theorem integrator_plain (hbox : box ≤ 0) (hD : BoxOk D) (hb : D.bools = []) (hl : LinearOver D is)
    (hv : ∀ m ∈ p, ∀ n ∈ m.1, n ∈ D.reals) (hp : p ≠ []) :
    (∀ n, 0 < n → MeanIs P (fun ω => rejectionIntegrate lp std R powQ R' powK box n D is p s (s' ω)) (D.volumeOf true (regionFn is p))) ∧
    ∀ᵐ ω ∂P, Tendsto (fun n => returned (rejectionIntegrate lp std R powQ R' powK box n D is p s (s' ω))) atTop
      (𝓝 (D.volumeOf true (regionFn is p))) := by
  obtain ⟨fs, w, hP, hvol, h⟩ := integrate_on (lp := lp) (std := std) (R := R) (powQ := powQ) (R' := R') (powK := powK) (box := box) (D := D)
    (s := s) (fun fs _ n _ => by rw [integratorDomain, if_neg (by omega)]) hD hb hl hv hp
  refine ⟨fun n hn => ?_, ?_⟩
  · simp only [h n hn, ← hvol]
    exact rejection_unbiased hR hs hpow (weight := some w) hP hn
  · filter_upwards [rejection_converges hR hs hpow (weight := some w) hP] with ω hω
    rw [← hvol]
    refine hω.congr' ?_
    filter_upwards [eventually_gt_atTop 0] with n hn
    rw [h n hn]

/-- **C80**: with the box of linear programs the expected value is the integral over the part of the region without negative
coordinate, whatever the box of the domain. -/
theorem integrator_lp_partial (hlp : LinprogOk lp) (hD : D.WF) (hb : D.bools = []) (hl : LinearOver D is)
    (hx : Extremes D is) (hv : ∀ m ∈ p, ∀ n ∈ m.1, n ∈ D.reals) (hp : p ≠ []) :
    (∀ n, 0 < n → MeanIs P (fun ω => rejectionIntegrate lp std R powQ R' powK 1 n D is p s (s' ω))
      (∫ x in posRegion D is, polyEval (env0.setReals D.reals x).r p)) ∧
    ∀ᵐ ω ∂P, Tendsto (fun n => returned (rejectionIntegrate lp std R powQ R' powK 1 n D is p s (s' ω))) atTop
      (𝓝 (∫ x in posRegion D is, polyEval (env0.setReals D.reals x).r p)) := by
  obtain ⟨L, U, e, hLU⟩ := lpBounds_ok hlp hD hl hx
  obtain ⟨fs, w, hP, hvol, h⟩ := integrate_on (lp := lp) (std := std) (R := R) (powQ := powQ) (R' := R') (powK := powK) (box := 1) (D := D)
    (s := s) (D' := D.withBox L U) (p := p)
    (fun fs _ n _ => by rw [integratorDomain_one hD, e]; rfl)
    (withBox_ok hD fun j => (hLU j).2.1) hb hl hv hp
  have hset : {x | x ∈ regionSet D is ∧ ∀ j, (L j : ℝ) ≤ x j ∧ x j ≤ (U j : ℝ)} = posRegion D is := by
    ext x
    constructor
    · rintro ⟨h1, h2⟩
      exact ⟨h1, fun i => le_trans (by exact_mod_cast (hLU i).1) (h2 i).1⟩
    · intro h
      exact ⟨h.1, fun j => (hLU j).2.2 x h⟩
  rw [withBox_volume hD hb, hset] at hvol
  refine ⟨fun n hn => ?_, ?_⟩
  · simp only [h n hn, ← hvol]
    exact rejection_unbiased hR hs hpow (weight := some w) hP hn
  · filter_upwards [rejection_converges hR hs hpow (weight := some w) hP] with ω hω
    rw [← hvol]
    refine hω.congr' ?_
    filter_upwards [eventually_gt_atTop 0] with n hn
    rw [h n hn]

/-- **C80**: for a region without negative coordinates this is the integral over the region. -/
theorem integrator_lp_nonneg (hlp : LinprogOk lp) (hD : D.WF) (hb : D.bools = []) (hl : LinearOver D is)
    (hx : Extremes D is) (hpos : ∀ x ∈ regionSet D is, ∀ i, 0 ≤ x i) (hv : ∀ m ∈ p, ∀ n ∈ m.1, n ∈ D.reals) (hp : p ≠ []) {n : ℕ}
    (hn : 0 < n) : MeanIs P (fun ω => rejectionIntegrate lp std R powQ R' powK 1 n D is p s (s' ω))
      (∫ x in regionSet D is, polyEval (env0.setReals D.reals x).r p) := by
  have : posRegion D is = regionSet D is := Set.ext fun x => ⟨fun h => h.1, fun h => ⟨h, hpos x h⟩⟩
  rw [← this]
  exact (integrator_lp_partial hR hs hpow hlp hD hb hl hx hv hp).1 n hn

end

/-! ### The box of samples -/

theorem foldl_min_le (l : List ℚ) (a : ℚ) : l.foldl min a ≤ a ∧ ∀ x ∈ l, l.foldl min a ≤ x := by
  induction l generalizing a with
  | nil => simp
  | cons y l ih =>
    obtain ⟨h1, h2⟩ := ih (min a y)
    refine ⟨h1.trans (min_le_left _ _), fun x hx => ?_⟩
    rcases List.mem_cons.mp hx with rfl | hx
    · exact h1.trans (min_le_right _ _)
    · exact h2 x hx

theorem le_foldl_max (l : List ℚ) (a : ℚ) : a ≤ l.foldl max a ∧ ∀ x ∈ l, x ≤ l.foldl max a := by
  induction l generalizing a with
  | nil => simp
  | cons y l ih =>
    obtain ⟨h1, h2⟩ := ih (max a y)
    refine ⟨(le_max_left _ _).trans h1, fun x hx => ?_⟩
    rcases List.mem_cons.mp hx with rfl | hx
    · exact (le_max_right _ _).trans h1
    · exact h2 x hx

theorem foldl_min_mem (l : List ℚ) (a : ℚ) : l.foldl min a = a ∨ l.foldl min a ∈ l := by
  induction l generalizing a with
  | nil => simp
  | cons y l ih =>
    rcases ih (min a y) with h | h
    · rcases min_choice a y with e | e
      · exact .inl (h.trans e)
      · exact .inr (by rw [List.foldl_cons, h, e]; simp)
    · exact .inr (List.mem_cons_of_mem _ h)

theorem foldl_max_mem (l : List ℚ) (a : ℚ) : l.foldl max a = a ∨ l.foldl max a ∈ l := by
  induction l generalizing a with
  | nil => simp
  | cons y l ih =>
    rcases ih (max a y) with h | h
    · rcases max_choice a y with e | e
      · exact .inl (h.trans e)
      · exact .inr (by rw [List.foldl_cons, h, e]; simp)
    · exact .inr (List.mem_cons_of_mem _ h)

/-- SPEC: the smallest and the largest number of a list. -/
def IsEnds (l : List ℚ) (a b : ℚ) : Prop := a ∈ l ∧ b ∈ l ∧ ∀ x ∈ l, a ≤ x ∧ x ≤ b

theorem columnEnds_ok {col : List ℚ} (h : col ≠ []) : IsEnds col (columnEnds col).1 (columnEnds col).2 := by
  obtain ⟨c, col, rfl⟩ := List.exists_cons_of_ne_nil h
  refine ⟨?_, ?_, fun x hx => ⟨(foldl_min_le _ _).2 x hx, (le_foldl_max _ _).2 x hx⟩⟩
  · rcases foldl_min_mem (c :: col) c with h | h
    · exact List.mem_cons.mpr (.inl h)
    · exact h
  · rcases foldl_max_mem (c :: col) c with h | h
    · exact List.mem_cons.mpr (.inl h)
    · exact h

theorem vars_reals {D : Domain} (hD : D.WF) (hb : D.bools = []) : D.reals = D.vars := by
  refine List.filter_eq_self.mpr fun v hv => ?_
  obtain ⟨⟨k, t⟩, hm, rfl⟩ := List.mem_map.mp ((hD.types v).mpr hv)
  have hl : D.varTypes.lookup k = some t := lookup_mem_nodup hD.typesNodup hm
  cases t with
  | real => simp [hl]
  | bool =>
    have : k ∈ D.bools := mem_bools.mpr ⟨hv, hl⟩
    rw [hb] at this; cases this

section
variable {lp : List ℚ → List (List ℚ) → List ℚ → Option (List ℚ)} {std : List ℚ → ℚ} {R : Rng ℚ} {powQ : ℚ → ℚ → Except PyErr ℚ}
  {R' : Rng ℝ} (hR : RngOk R') {Ω : Type} [MeasurableSpace Ω] {P : Measure Ω} {s' : Ω → R'.State} (hs : IidUniform R' P s')
  {powK : ℝ → ℝ → Except PyErr ℝ} (hpow : PowOk powK) {box : ℤ} {D : Domain} {is : List Dict} {p : Dict} {s : R.State}

include hR hs hpow in
/-- **C80**: with the box of samples, when at least two are in the region: each interval goes from the smallest coordinate of
these samples minus the deviation to the largest plus the deviation, and the expected value is the integral over the part of
the region in these intervals. -/
theorem integrator_drawn_partial (hstd : ∀ col, 2 ≤ col.length → 0 ≤ std col) (hD : D.WF) (hb : D.bools = [])
    (hl : LinearOver D is) (hv : ∀ m ∈ p, ∀ n ∈ m.1, n ∈ D.reals) (hp : p ≠ []) {n : ℕ} (hn : 0 < n) {fs : List Formula}
    (hfs : mapE linToSmt is = .ok fs) {rows : List (List ℚ)} {t : R.State}
    (hrows : drawPositive R powQ D (mkAnd fs) n s = .ok (rows, t)) (h2 : 2 ≤ rows.length) :
    ∃ L U : Fin D.reals.length → ℚ,
      (∀ j : Fin D.reals.length, ∃ a b, IsEnds (rows.map fun row => row.getD j 0) a b ∧
        L j = a - std (rows.map fun row => row.getD j 0) ∧ U j = b + std (rows.map fun row => row.getD j 0)) ∧
      MeanIs P (fun ω => rejectionIntegrate lp std R powQ R' powK 2 n D is p s (s' ω))
        (∫ x in {x | x ∈ regionSet D is ∧ ∀ j, (L j : ℝ) ≤ x j ∧ x j ≤ (U j : ℝ)}, polyEval (env0.setReals D.reals x).r p) := by
  have hne : rows ≠ [] := by rintro rfl; simp at h2
  have hr := vars_reals hD hb
  let L : Fin D.reals.length → ℚ := fun j => (columnEnds (rows.map fun row => row.getD j 0)).1 - std (rows.map fun row => row.getD j 0)
  let U : Fin D.reals.length → ℚ := fun j => (columnEnds (rows.map fun row => row.getD j 0)).2 + std (rows.map fun row => row.getD j 0)
  have hends : ∀ j : ℕ, IsEnds (rows.map fun row => row.getD j 0) (columnEnds (rows.map fun row => row.getD j 0)).1
      (columnEnds (rows.map fun row => row.getD j 0)).2 := fun j => columnEnds_ok (by simpa using hne)
  have hdom : drawnBounds std D.vars rows = .ok (D.withBox L U).varDomains := by
    rw [drawnBounds, if_neg hne, ← hr]
    congr 1
    refine List.ext_getElem (by simp [Domain.withBox]) fun i h1 h2 => ?_
    have hi : i < D.reals.length := by simpa using h1
    simp [Domain.withBox, L, U, hi, List.getD_eq_getElem?_getD]
  have hLU : ∀ j, L j ≤ U j := fun j => by
    have h1 := hstd (rows.map fun row => row.getD j 0) (by simpa using h2)
    obtain ⟨e1, e2, e3⟩ := hends j
    have := (e3 _ e1).2
    simp only [L, U]
    linarith
  refine ⟨L, U, fun j => ⟨_, _, hends j, rfl, rfl⟩, ?_⟩
  obtain ⟨fs', e, h⟩ := engine_problem (D := D.withBox L U) (withBox_ok hD hLU) hb (p := p) hl hv
  obtain ⟨w, hw, hP, -, -, hvol⟩ := h hp
  obtain rfl : fs = fs' := by rw [hfs] at e; cases e; rfl
  rw [withBox_volume hD hb] at hvol
  have : ∀ t, rejectionIntegrate lp std R powQ R' powK 2 n D is p s t = rejectionVolume R' powK (D.withBox L U) (mkAnd fs) (some w) n none t := by
    intro t
    simp only [rejectionIntegrate, hfs, integratorDomain_two, hrows, hdom, hw]
    rfl
  simp only [this, ← hvol]
  exact rejection_unbiased hR hs hpow (weight := some w) hP hn

/-- **C80, negation**: when no sample is in the region, there is an IndexError, not the value 0 meant by the code. -/
theorem integrator_drawn_none {fs : List Formula} (hfs : mapE linToSmt is = .ok fs) {n : ℕ} {t : R.State}
    (hrows : drawPositive R powQ D (mkAnd fs) n s = .ok ([], t)) (t' : R'.State) :
    rejectionIntegrate lp std R powQ R' powK 2 n D is p s t' = .error .indexError := by
  simp [rejectionIntegrate, hfs, integratorDomain_two, hrows, drawnBounds]

/-- **C80**: another box value is a ValueError; the zero polynomial is a TypeError. -/
theorem integrator_errors (hD : BoxOk D) (hb : D.bools = []) (hl : LinearOver D is) (n : ℕ) (t : R'.State) :
    (3 ≤ box → rejectionIntegrate lp std R powQ R' powK box n D is p s t = .error .valueError) ∧
    (box ≤ 0 → rejectionIntegrate lp std R powQ R' powK box n D is [] s t = .error .typeError) := by
  obtain ⟨fs, e, -⟩ := engine_problem hD hb (p := []) hl (by simp)
  refine ⟨fun h => ?_, fun h => ?_⟩
  · simp only [rejectionIntegrate, e, integratorDomain]
    rw [if_pos (by omega), if_neg (by omega), if_neg (by omega)]
  · simp only [rejectionIntegrate, e, integratorDomain]
    rw [if_neg (by omega)]
    rfl

/-- **C80, negation**: when `linprog` finds no point, there is a TypeError. -/
theorem integrator_lp_none (hD : BoxOk D) (hb : D.bools = []) (hl : LinearOver D is) (hr : D.reals ≠ [])
    (hlp : ∀ c A b, (¬ ∃ x : List ℝ, x.length = c.length ∧ LpFeasible A b x) → lp c A b = none) (hx : posRegion D is = ∅) (n : ℕ) (t : R'.State) :
    rejectionIntegrate lp std R powQ R' powK 1 n D is p s t = .error .typeError := by
  obtain ⟨fs, e, -⟩ := engine_problem hD hb (p := []) hl (by simp)
  have hno : lp (unitVec D.reals.length 0 1) (lpMatrix D.reals is) (lpRight is) = none := by
    refine hlp _ _ _ ?_
    rintro ⟨y, hy, hf⟩
    have hlen : y.length = D.reals.length := by simpa [unitVec] using hy
    have : y = List.ofFn fun i : Fin D.reals.length => y[i]'(by rw [hlen]; exact i.2) :=
      List.ext_getElem (by simp [hlen]) fun i h1 h2 => by simp
    rw [this] at hf
    have := (lpFeasible_region hD.wf hl _).mp hf
    rw [hx] at this
    exact this
  obtain ⟨k, hk⟩ := Nat.exists_eq_succ_of_ne_zero (show D.reals.length ≠ 0 by simpa using hr)
  have hb1 : lpBounds lp D.reals is = .error .typeError := by
    have h0 : lpInterval lp D.reals is 0 = .error .typeError := by simp only [lpInterval, lpEntry, hno]
    rw [lpBounds, hk, List.range_succ_eq_map, Prog.mapE, h0]
  simp only [rejectionIntegrate, e, integratorDomain_one hD.wf, hb1]

end

/-! ## Examples -/

/-- A domain with one variable. -/
def lineDomain (a b : ℚ) : Domain := ⟨["x"], [("x", .real)], [("x", some a, some b)]⟩

/-- `x ≤ b` and `a ≤ x`. -/
def lineRegion (a b : ℚ) : List Dict := [[(["x"], 1), ([], -b)], [(["x"], -1), ([], a)]]

theorem lineDomain_ok {a b : ℚ} (h : a ≤ b) : BoxOk (lineDomain a b) := by
  refine ⟨⟨by simp [lineDomain], by simp [lineDomain], by simp [lineDomain], by simp [lineDomain], by simp [lineDomain]⟩, fun v c hv => ?_⟩
  have := mem_of_dictGet hv
  simp only [lineDomain, List.mem_singleton, Prod.mk.injEq] at this
  exact ⟨a, b, this.2, h⟩

theorem lineRegion_linear {a b : ℚ} (ha : a ≠ 0) (hb : b ≠ 0) : LinearOver (lineDomain a b) (lineRegion a b) := by
  have hr : (lineDomain a b).reals = ["x"] := rfl
  intro d hd
  simp only [lineRegion, List.mem_cons, List.not_mem_nil, or_false] at hd
  rcases hd with rfl | rfl <;> refine ⟨⟨by simp [KeysNodup], by simpa⟩, by simp [hr]⟩

theorem lineRegion_set (a b : ℚ) : regionSet (lineDomain a b) (lineRegion a b) = Set.Icc (fun _ => (a : ℝ)) fun _ => (b : ℝ) := by
  ext x
  have hx : (env0.setReals (lineDomain a b).reals x).r "x" = x ⟨0, by simp [lineDomain, Domain.reals]⟩ :=
    setReals_get (reals_nodup (D := lineDomain a b) ⟨by simp [lineDomain], by simp [lineDomain], by simp [lineDomain], by simp [lineDomain], by simp [lineDomain]⟩)
      (⟨0, by simp [lineDomain, Domain.reals]⟩ : Fin (lineDomain a b).reals.length)
  have hall : ∀ j : Fin (lineDomain a b).reals.length, j = ⟨0, by simp [lineDomain, Domain.reals]⟩ := by
    rintro ⟨j, hj⟩
    have : (lineDomain a b).reals.length = 1 := rfl
    ext; simp; omega
  have hmono : ∀ ρ : String → ℝ, monoEval ρ ["x"] = ρ "x" := fun ρ => by simp [monoEval]
  simp only [regionSet, Set.mem_ofPred_eq, lineRegion, List.mem_cons, List.not_mem_nil, or_false, forall_eq_or_imp, forall_eq,
    polyEval_cons, polyEval_nil, hmono, monoEval_nil, hx, Set.mem_Icc, Pi.le_def]
  constructor
  · rintro ⟨h1, h2⟩
    push_cast at h1 h2
    exact ⟨fun j => by rw [hall j]; linarith, fun j => by rw [hall j]; linarith⟩
  · rintro ⟨h1, h2⟩
    have h1 := h1 ⟨0, by simp [lineDomain, Domain.reals]⟩
    have h2 := h2 ⟨0, by simp [lineDomain, Domain.reals]⟩
    push_cast
    exact ⟨by linarith, by linarith⟩

theorem linePos_set (a b : ℚ) : posRegion (lineDomain a b) (lineRegion a b) =
    Set.Icc (fun _ => ((max a 0 : ℚ) : ℝ)) fun _ => (b : ℝ) := by
  ext x
  have : x ∈ posRegion (lineDomain a b) (lineRegion a b) ↔ x ∈ regionSet (lineDomain a b) (lineRegion a b) ∧ ∀ i, 0 ≤ x i := Iff.rfl
  rw [this, lineRegion_set]
  simp only [Set.mem_Icc, Pi.le_def, Rat.cast_max, Rat.cast_zero, max_le_iff, forall_and]
  tauto

theorem line_extremes {a b : ℚ} (h : max a 0 ≤ b) : Extremes (lineDomain a b) (lineRegion a b) := by
  intro j
  have h : ((max a 0 : ℚ) : ℝ) ≤ (b : ℝ) := by exact_mod_cast h
  rw [linePos_set]
  refine ⟨⟨fun _ => max a 0, ⟨le_refl _, fun _ => h⟩, fun x hx => hx.1 j⟩,
    ⟨fun _ => b, ⟨fun _ => h, le_refl _⟩, fun x hx => hx.2 j⟩⟩

theorem line_integral {a b l u : ℚ} (h : l ≤ u) : ∫ x in Set.Icc (fun _ : Fin (lineDomain a b).reals.length => (l : ℝ)) (fun _ => (u : ℝ)),
    polyEval (env0.setReals (lineDomain a b).reals x).r [([], 1)] = (u : ℝ) - l := by
  have : ∀ x : Fin (lineDomain a b).reals.length → ℝ, polyEval (env0.setReals (lineDomain a b).reals x).r [([], 1)] = 1 := fun x => by
    simp [polyEval_cons]
  simp only [this, integral_const, smul_eq_mul, mul_one, Measure.real, Measure.restrict_apply_univ, Real.volume_Icc_pi]
  have hl : (lineDomain a b).reals.length = 1 := rfl
  rw [Finset.prod_const, Finset.card_univ, Fintype.card_fin, hl, pow_one, ENNReal.toReal_ofReal]
  have : (l : ℝ) ≤ u := by exact_mod_cast h
  linarith

/-- The hypotheses are met: on [1, 2] the expected value is the length. -/
example : MeanIs (Measure.infinitePi fun _ : ℕ => unif)
    (fun f => rejectionIntegrate idealLinprog (fun _ => 0) cycleRng ratPow streamRng idealPow 1 5 (lineDomain 1 2) (lineRegion 1 2) [([], 1)] (0 : ℕ) f) 1 := by
  have := (integrator_lp_partial (std := fun _ => 0) (R := cycleRng) (powQ := ratPow) (s := (0 : ℕ)) streamRng_ok streamRng_iid idealPow_ok
    idealLinprog_ok (lineDomain_ok (a := 1) (b := 2) (by norm_num)).wf rfl (lineRegion_linear (by norm_num) (by norm_num))
    (line_extremes (by norm_num)) (p := [([], 1)]) (by simp) (by simp)).1 5 (by norm_num)
  rw [linePos_set, line_integral (by norm_num)] at this
  norm_num at this
  exact this

/-- **C80, negation**: for `-1 ≤ x ≤ 1` the expected value with the box of linear programs is 1; the length is 2. -/
theorem integrator_lp_negative {lp : List ℚ → List (List ℚ) → List ℚ → Option (List ℚ)} (hlp : LinprogOk lp)
    {R' : Rng ℝ} (hR : RngOk R') {Ω : Type} [MeasurableSpace Ω] {P : Measure Ω} {s' : Ω → R'.State} (hs : IidUniform R' P s')
    {powK : ℝ → ℝ → Except PyErr ℝ} (hpow : PowOk powK) {std : List ℚ → ℚ} {R : Rng ℚ} {powQ : ℚ → ℚ → Except PyErr ℚ}
    (s : R.State) {n : ℕ} (hn : 0 < n) :
    MeanIs P (fun ω => rejectionIntegrate lp std R powQ R' powK 1 n (lineDomain (-1) 1) (lineRegion (-1) 1) [([], 1)] s (s' ω)) 1 ∧
    ∫ x in regionSet (lineDomain (-1) 1) (lineRegion (-1) 1), polyEval (env0.setReals (lineDomain (-1) 1).reals x).r [([], 1)] = 2 := by
  have := (integrator_lp_partial (std := std) (R := R) (powQ := powQ) (s := s) hR hs hpow
    hlp (lineDomain_ok (a := -1) (b := 1) (by norm_num)).wf rfl (lineRegion_linear (by norm_num) (by norm_num))
    (line_extremes (by norm_num)) (p := [([], 1)]) (by simp) (by simp)).1 n hn
  rw [linePos_set, line_integral (by norm_num)] at this
  refine ⟨by norm_num at this; exact this, ?_⟩
  rw [lineRegion_set, line_integral (by norm_num)]
  norm_num

/-- **C80, negation**: for `-2 ≤ x ≤ -1`, of length 1, there is a TypeError. -/
theorem integrator_lp_empty {lp : List ℚ → List (List ℚ) → List ℚ → Option (List ℚ)}
    (hlp : ∀ c A b, (¬ ∃ x : List ℝ, x.length = c.length ∧ LpFeasible A b x) → lp c A b = none)
    {R' : Rng ℝ} {powK : ℝ → ℝ → Except PyErr ℝ} {std : List ℚ → ℚ} {R : Rng ℚ} {powQ : ℚ → ℚ → Except PyErr ℚ} (s : R.State)
    (n : ℕ) (t : R'.State) :
    rejectionIntegrate lp std R powQ R' powK 1 n (lineDomain (-2) (-1)) (lineRegion (-2) (-1)) [([], 1)] s t = .error .typeError ∧
    ∫ x in regionSet (lineDomain (-2) (-1)) (lineRegion (-2) (-1)), polyEval (env0.setReals (lineDomain (-2) (-1)).reals x).r [([], 1)] = 1 := by
  refine ⟨integrator_lp_none (lineDomain_ok (by norm_num)) rfl (lineRegion_linear (by norm_num) (by norm_num)) (by decide) hlp ?_ n t, ?_⟩
  · rw [linePos_set, Set.Icc_eq_empty]
    intro h
    have := h ⟨0, by decide⟩
    norm_num at this
  · rw [lineRegion_set, line_integral (by norm_num)]
    norm_num

/-- The assumption on `linprog` is met. -/
example : ∀ c A b, (¬ ∃ x : List ℝ, x.length = c.length ∧ LpFeasible A b x) → idealLinprog c A b = none := fun c A b h => by
  rw [idealLinprog, dif_neg]
  rintro ⟨x, h1, h2, -⟩
  exact h ⟨_, by simpa using h1, h2⟩

/-- A generator of one quarter and three quarters. -/
def quarterRng : Rng ℚ where
  State := Bool
  next b := (if b then 3 / 4 else 1 / 4, !b)
  choose b _ := (0, b)

/-- **C80, negation**: two samples at 5/4 and 7/4 of `1 ≤ x ≤ 2` have one gap, of deviation zero: the expected value is
1/2; the length is 1. -/
theorem integrator_drawn_biased {std : List ℚ → ℚ} (hstd : ∀ col, 2 ≤ col.length → 0 ≤ std col) (h0 : ∀ a b, std [a, b] = 0)
    {lp : List ℚ → List (List ℚ) → List ℚ → Option (List ℚ)}
    {R' : Rng ℝ} (hR : RngOk R') {Ω : Type} [MeasurableSpace Ω] {P : Measure Ω} {s' : Ω → R'.State} (hs : IidUniform R' P s')
    {powK : ℝ → ℝ → Except PyErr ℝ} (hpow : PowOk powK) :
    MeanIs P (fun ω => rejectionIntegrate lp std quarterRng ratPow R' powK 2 2 (lineDomain 1 2) (lineRegion 1 2) [([], 1)] false (s' ω)) (1 / 2) := by
  obtain ⟨fs, hfs⟩ : ∃ fs, mapE linToSmt (lineRegion 1 2) = .ok fs := ⟨_, rfl⟩
  obtain ⟨t, hrows⟩ : ∃ t, drawPositive quarterRng ratPow (lineDomain 1 2) (mkAnd fs) 2 (false : Bool) = .ok ([[5 / 4], [7 / 4]], t) := by
    have : (drawPositive quarterRng ratPow (lineDomain 1 2) (mkAnd fs) 2 (false : Bool)).toOption.map (·.1) = some [[5 / 4], [7 / 4]] := by
      cases hfs
      decide +kernel
    generalize drawPositive quarterRng ratPow (lineDomain 1 2) (mkAnd fs) 2 (false : Bool) = o at this ⊢
    rcases o with e | ⟨rows, t⟩
    · simp [Except.toOption] at this
    · simp [Except.toOption] at this
      exact ⟨t, by rw [this]⟩
  obtain ⟨L, U, h1, h2⟩ := integrator_drawn_partial (lp := lp) (R := quarterRng) (powQ := ratPow) (s := (false : Bool)) (D := lineDomain 1 2)
    (is := lineRegion 1 2) (n := 2) (fs := fs) (rows := [[5 / 4], [7 / 4]]) (t := t) hR hs hpow hstd
    (lineDomain_ok (a := 1) (b := 2) (by norm_num)).wf rfl (lineRegion_linear (by norm_num) (by norm_num)) (p := [([], 1)]) (by simp) (by simp)
    (by norm_num) hfs hrows (by simp)
  have hLU : ∀ j, L j = 5 / 4 ∧ U j = 7 / 4 := by
    intro j
    obtain rfl : j = ⟨0, by decide⟩ := by
      obtain ⟨j, hj⟩ := j
      have : (lineDomain 1 2).reals.length = 1 := rfl
      ext; simp; omega
    obtain ⟨a, b, ⟨ha, hb, he⟩, e1, e2⟩ := h1 ⟨0, by decide⟩
    simp only [List.map_cons, List.map_nil, h0, sub_zero, add_zero] at ha hb he e1 e2
    simp at ha hb he
    rw [e1, e2]
    refine ⟨?_, ?_⟩
    · rcases ha with rfl | rfl
      · rfl
      · exfalso; have := he.1.1; norm_num at this
    · rcases hb with rfl | rfl
      · exfalso; have := he.2.2; norm_num at this
      · rfl
  have hset : {x | x ∈ regionSet (lineDomain 1 2) (lineRegion 1 2) ∧ ∀ j, (L j : ℝ) ≤ x j ∧ x j ≤ (U j : ℝ)} =
      Set.Icc (fun _ => ((5 / 4 : ℚ) : ℝ)) fun _ => ((7 / 4 : ℚ) : ℝ) := by
    ext x
    rw [Set.mem_ofPred_eq, lineRegion_set]
    simp only [hLU, Set.mem_Icc, Pi.le_def, ← forall_and]
    refine ⟨fun h j => (h j).2, fun h j => ⟨⟨?_, ?_⟩, h j⟩⟩
    · have := (h j).1; push_cast at this ⊢; linarith
    · have := (h j).2; push_cast at this ⊢; linarith
  rw [hset, line_integral (by norm_num)] at h2
  norm_num at h2
  simpa using h2

/-- The hypotheses are met. -/
example : MeanIs (Measure.infinitePi fun _ : ℕ => unif) (fun f => rejectionIntegrate idealLinprog (fun _ => 0) quarterRng ratPow streamRng
    idealPow 2 2 (lineDomain 1 2) (lineRegion 1 2) [([], 1)] false f) (1 / 2) :=
  integrator_drawn_biased (by simp) (by simp) streamRng_ok streamRng_iid idealPow_ok

/-- **C80, negation**: no sample is in `9/5 ≤ x ≤ 2`, of length 1/5, and there is an IndexError. -/
theorem integrator_drawn_missed {std : List ℚ → ℚ} {lp : List ℚ → List (List ℚ) → List ℚ → Option (List ℚ)}
    {R' : Rng ℝ} {powK : ℝ → ℝ → Except PyErr ℝ} (t' : R'.State) :
    rejectionIntegrate lp std quarterRng ratPow R' powK 2 2 (lineDomain 1 2) (lineRegion (9 / 5) 2) [([], 1)] false t' = .error .indexError := by
  obtain ⟨fs, hfs⟩ : ∃ fs, mapE linToSmt (lineRegion (9 / 5) 2) = .ok fs := ⟨_, rfl⟩
  have : (drawPositive quarterRng ratPow (lineDomain 1 2) (mkAnd fs) 2 (false : Bool)).toOption.map (·.1) = some [] := by
    cases hfs
    decide +kernel
  obtain ⟨t, hrows⟩ : ∃ t, drawPositive quarterRng ratPow (lineDomain 1 2) (mkAnd fs) 2 (false : Bool) = .ok ([], t) := by
    generalize drawPositive quarterRng ratPow (lineDomain 1 2) (mkAnd fs) 2 (false : Bool) = o at this ⊢
    rcases o with e | ⟨rows, t⟩
    · simp [Except.toOption] at this
    · simp [Except.toOption] at this
      exact ⟨t, by rw [this]⟩
  exact integrator_drawn_none hfs hrows t'

end Pywmi
