import Verif.Props.LatteText
import Verif.Props.Latte
import Verif.Props.XsddEngine
import Verif.Xadd.Inv

set_option linter.unusedSectionVars false
set_option linter.unusedSimpArgs false

/-!
# C78: the convex integration back-ends
-/

namespace Pywmi
open Formula Prog MeasureTheory

/-! ## SPEC -/

/-- SPEC: the left-hand side of a row at a point. -/
noncomputable def rowAt {n : ℕ} (row : List ℤ) (x : Fin n → ℝ) : ℝ :=
  (List.zipWith (fun (a : ℤ) (t : ℝ) => (a : ℝ) * t) row (1 :: List.ofFn x)).sum

/-- SPEC: the polytope of the rows. -/
def polytope (n : ℕ) (rows : List (List ℤ)) : Set (Fin n → ℝ) := {x | ∀ row ∈ rows, 0 ≤ rowAt row x}

/-- SPEC: the value of a list of monomials at a point. -/
noncomputable def monosAt {n : ℕ} (ms : List (ℚ × List ℕ)) (x : Fin n → ℝ) : ℝ :=
  (ms.map fun m => (m.1 : ℝ) * (List.zipWith (fun (t : ℝ) (e : ℕ) => t ^ e) (List.ofFn x) m.2).prod).sum

/-- SPEC: what is assumed of LattE.  If it reads inequalities that describe a polytope of finite volume and a polynomial, and
does not fail, then it prints a fraction that is the integral of the polynomial over the polytope, or no answer when that is
zero. -/
def LatteSound (run : List Char → List Char → Option (List Char)) : Prop :=
  ∀ polyFile hrepFile n rows ms out, LatteReader.poly polyFile = some ms → LatteReader.hrep hrepFile = some (n + 1, rows) →
    (∀ m ∈ ms, m.2.length = n) → volume (polytope n rows) ≠ ⊤ → run polyFile hrepFile = some out →
    (∃ a b z k, Latte.Found out a b ∧ LatteReader.int a = some z ∧ LatteReader.nat b = some k ∧ k ≠ 0 ∧
      ((z : ℝ) / k = ∫ x in polytope n rows, monosAt ms x)) ∨
    (Latte.NoAnswer out ∧ ∫ x in polytope n rows, monosAt ms x = 0)

/-- SPEC: the region of a list of inequalities, as a set of values of the real variables. -/
def regionSet (D : Domain) (is : List Dict) : Set (Fin D.reals.length → ℝ) :=
  {x | ∀ d ∈ is, polyEval (env0.setReals D.reals x).r d ≤ 0}

/-- SPEC: linear inequalities over the real variables of a domain. -/
def LinearOver (D : Domain) (is : List Dict) : Prop :=
  ∀ d ∈ is, WFLin d ∧ ∀ m ∈ d, m.1.length ≤ 1 ∧ ∀ n ∈ m.1, n ∈ D.reals

/-- SPEC: a back-end that does not return a wrong number: for a region that lies in the box, up to a null set, the value
returned is the integral of the polynomial over the region; a ZeroDivisionError is raised only if that is zero. -/
def ConvexSound (integ : Domain → List Dict → Dict → Except PyErr ℝ) : Prop :=
  ∀ (D : Domain) (is : List Dict) (p : Dict), BoxOk D → D.bools = [] → LinearOver D is → WFPoly p →
    (∀ m ∈ p, ∀ n ∈ m.1, n ∈ D.reals) → (∀ᵐ x, x ∈ regionSet D is → D.inBox (env0.setReals D.reals x)) →
    (∀ v, integ D is p = .ok v → v = D.volumeOf true (regionFn is p)) ∧
    (integ D is p = .error .zeroDivision → D.volumeOf true (regionFn is p) = 0)

/-- An exact back-end is sound. -/
theorem ConvexExact.sound {integ : Domain → List Dict → Dict → Except PyErr ℝ} (h : ConvexExact integ) : ConvexSound integ := by
  intro D is p hD hb hl hp hv _
  rcases h D is p hD hb hl hp hv with h | ⟨h, h0⟩
  · refine ⟨fun v e => ?_, fun e => ?_⟩
    · rw [h] at e; cases e; rfl
    · rw [h] at e; cases e
  · refine ⟨fun v e => ?_, fun _ => h0⟩
    rw [h] at e; cases e

/-! ## Regions -/

theorem map_setReals {rs : List String} (hnd : rs.Nodup) (σ : Env ℝ) (x : Fin rs.length → ℝ) :
    rs.map (σ.setReals rs x).r = List.ofFn x := by
  refine List.ext_getElem (by simp) fun i h1 h2 => ?_
  rw [List.getElem_map, List.getElem_ofFn]
  exact setReals_get (σ := σ) hnd (x := x) ⟨i, by simpa using h1⟩

/-- A linear form with a coefficient is not zero everywhere. -/
theorem linear_nonzero {d : Dict} (hd : WFLin d) (hne : d ≠ []) (hk : ∀ p ∈ d, p.1.length ≤ 1) {rs : List String}
    (hnd : rs.Nodup) (hv : ∀ m ∈ d, ∀ n ∈ m.1, n ∈ rs) (σ : Env ℝ) : ∃ x, polyEval (σ.setReals rs x).r d ≠ 0 := by
  by_contra hall
  push Not at hall
  have hvars : ∀ n ∈ linVars d, n ∈ rs := fun n hn => by
    obtain ⟨m, hm, h⟩ := List.mem_flatMap.mp hn
    exact hv m hm n h
  have hzero : ∀ ρ : String → ℝ, polyEval ρ d = 0 := fun ρ => by
    rw [← hall fun i => ρ rs[i]]
    refine polyEval_agree fun m hm v hvm => ?_
    obtain ⟨i, hi, rfl⟩ := List.mem_iff_getElem.mp (hv m hm v hvm)
    exact (setReals_get (σ := σ) hnd (x := fun i => ρ rs[i]) ⟨i, hi⟩).symm
  have h0 : linCoef d [] = 0 := by
    have := hzero fun _ => 0
    rw [polyEval_linear hk hd.1 hnd hvars] at this
    simpa using this
  have h1 : ∀ v ∈ rs, linCoef d [v] = 0 := fun v hv => by
    have := hzero fun n => if n = v then 1 else 0
    rw [polyEval_linear hk hd.1 hnd hvars, h0] at this
    have e := sum_update (K := ℝ) hnd hv (linCoef d [v] : ℝ) (fun _ => 0) rfl
    have e' : (rs.map fun w => ((linCoef d [w] : ℚ) : ℝ) * if w = v then 1 else 0) = rs.map fun w => if w = v then (linCoef d [v] : ℝ) else 0 := by
      refine List.map_congr_left fun w _ => ?_
      by_cases h : w = v
      · subst h; simp
      · simp [h]
    rw [e', e] at this
    simpa using this
  obtain ⟨⟨k, c⟩, hm⟩ := List.exists_mem_of_ne_nil d hne
  have hc : linCoef d k = c := by rw [linCoef, lookup_of_mem hd.1 hm]; rfl
  have hlen := hk _ hm
  have hcz := hd.2 _ hm
  match k, hlen, hm, hc with
  | [], _, _, hc => exact hcz (hc ▸ h0)
  | [v], _, hm, hc => exact hcz (hc ▸ h1 v (hv _ hm v (by simp)))

/-- Almost everywhere no form with a coefficient vanishes. -/
theorem linear_off_ae {D : Domain} (hD : D.WF) {is : List Dict} (hl : LinearOver D is) :
    ∀ᵐ x, ∀ d ∈ is, d ≠ [] → polyEval (env0.setReals D.reals x).r d ≠ 0 := by
  have : ∀ᵐ x, ∀ d ∈ {d | d ∈ is}, d ≠ [] → polyEval (env0.setReals D.reals x).r d ≠ 0 := by
    rw [ae_ball_iff (List.finite_toSet is).countable]
    intro d hd
    obtain ⟨hw, hm⟩ := hl d hd
    by_cases hne : d = []
    · simp [hne]
    · filter_upwards [linear_ne_zero (fun p hp => (hm p hp).1) env0 D.reals
        (linear_nonzero hw hne (fun p hp => (hm p hp).1) (reals_nodup hD) (fun m h n hn => (hm m h).2 n hn) env0)] with x hx _ using hx
  exact this

theorem volumeOf_real {D : Domain} (hb : D.bools = []) (ab : Bool) (φ : Env ℝ → ℝ) :
    D.volumeOf ab φ = ∫ x, D.restricted ab φ (env0.setReals D.reals x) := by
  rw [Domain.volumeOf, wmiOf, hb, sumBools]; rfl

/-- For a region in the box the box need not be added. -/
theorem volumeOf_inside {D : Domain} (hb : D.bools = []) {is : List Dict} {p : Dict}
    (hin : ∀ᵐ x, x ∈ regionSet D is → D.inBox (env0.setReals D.reals x)) :
    D.volumeOf true (regionFn is p) = D.volumeOf false (regionFn is p) := by
  rw [volumeOf_real hb, volumeOf_real hb]
  refine integral_congr_ae ?_
  filter_upwards [hin] with x hx
  unfold Domain.restricted
  by_cases h : D.inBox (env0.setReals D.reals x)
  · rw [if_pos fun _ => h, if_pos (by simp)]
  · rw [if_neg fun h' => h (h' rfl), if_pos (by simp), regionFn, if_neg (c := ∀ d ∈ is, polyEval (env0.setReals D.reals x).r d ≤ 0) fun h' => h (hx h')]

theorem polyEval_measurable (d : Dict) : Measurable fun ρ : String → ℝ => polyEval ρ d := by
  have hmono : ∀ m : Mono, Measurable fun ρ : String → ℝ => monoEval ρ m := fun m => by
    induction m with
    | nil => simp only [monoEval_nil]; exact measurable_const
    | cons v m ih =>
      have : (fun ρ : String → ℝ => monoEval ρ (v :: m)) = fun ρ => ρ v * monoEval ρ m := by funext ρ; simp [monoEval]
      rw [this]
      exact (measurable_pi_apply v).mul ih
  induction d with
  | nil => simp only [polyEval_nil]; exact measurable_const
  | cons p d ih => simp only [polyEval_cons]; exact ((hmono p.1).const_mul _).add ih

theorem regionSet_meas (D : Domain) (is : List Dict) : MeasurableSet (regionSet D is) := by
  have : regionSet D is = ⋂ d ∈ {d | d ∈ is}, {x | polyEval (env0.setReals D.reals x).r d ≤ 0} := by
    ext x; simp [regionSet]
  rw [this]
  refine MeasurableSet.biInter (List.finite_toSet is).countable fun d _ => ?_
  refine measurableSet_le ?_ measurable_const
  exact (polyEval_measurable d).comp (measurable_pi_iff.mpr (setReals_meas env0 D.reals).1)

theorem volumeOf_region {D : Domain} (hb : D.bools = []) (is : List Dict) (p : Dict) :
    D.volumeOf false (regionFn is p) = ∫ x in regionSet D is, polyEval (env0.setReals D.reals x).r p := by
  rw [volumeOf_real hb, ← integral_indicator (regionSet_meas D is)]
  refine integral_congr_ae (Filter.Eventually.of_forall fun x => ?_)
  simp only [Domain.restricted, Bool.false_eq_true, false_implies, if_true, regionFn]
  by_cases h : x ∈ regionSet D is
  · rw [Set.indicator_of_mem h, if_pos (show ∀ d ∈ is, polyEval (env0.setReals D.reals x).r d ≤ 0 from h)]
  · rw [Set.indicator_of_notMem h, if_neg (show ¬∀ d ∈ is, polyEval (env0.setReals D.reals x).r d ≤ 0 from h)]

theorem box_volume_finite {D : Domain} (hD : BoxOk D) : volume {x | D.inBox (env0.setReals D.reals x)} < ⊤ := by
  obtain ⟨M, _, hM⟩ := box_bounded hD
  refine lt_of_le_of_lt (measure_mono (t := Set.Icc (fun _ => -M) fun _ => M) fun x hx => ?_) ?_
  · rw [Set.mem_Icc]
    constructor <;> intro i <;> (have := hM _ hx D.reals[i] (List.getElem_mem i.2); rw [setReals_get (reals_nodup hD.wf), abs_le] at this)
    · exact this.1
    · exact this.2
  · exact isCompact_Icc.measure_lt_top

theorem region_finite {D : Domain} (hD : BoxOk D) {is : List Dict}
    (hin : ∀ᵐ x, x ∈ regionSet D is → D.inBox (env0.setReals D.reals x)) : volume (regionSet D is) ≠ ⊤ :=
  (lt_of_le_of_lt (measure_mono_ae hin) (box_volume_finite hD)).ne

/-! ## LattE -/

theorem rowAt_num {rs : List String} (hnd : rs.Nodup) (σ : Env ℝ) (x : Fin rs.length → ℝ) {row : List ℚ}
    (hr : ∀ a ∈ row, ∃ z : ℤ, a = z) : rowAt (row.map (·.num)) x = rowValue rs (σ.setReals rs x).r row := by
  rw [rowAt, rowValue, map_setReals hnd, List.zipWith_map_left]
  congr 1
  generalize (1 :: List.ofFn x : List ℝ) = l
  clear hnd
  induction row generalizing l with
  | nil => rfl
  | cons a row ih =>
    cases l with
    | nil => rfl
    | cons t l =>
      obtain ⟨z, rfl⟩ := hr a (by simp)
      simp only [List.zipWith_cons_cons]
      rw [ih fun b hb => hr b (by simp [hb])]
      simp

theorem monosAt_value {rs : List String} (hnd : rs.Nodup) (σ : Env ℝ) (x : Fin rs.length → ℝ) (ms : List (ℚ × List ℕ)) :
    monosAt ms x = monomialsValue rs (σ.setReals rs x).r ms := by
  rw [monosAt, monomialsValue, map_setReals hnd]

theorem prepare_spec {vars : List String} (is : List Dict) (hl : ∀ d ∈ is, WFLin d) (f : Formula) (rows : List (List ℚ)) :
    ([] ∈ is ∧ Latte.prepare vars f rows is = .error .typeError) ∨
    ([] ∉ is ∧ ∃ f' rows', Latte.prepare vars f rows is = .ok (f', rows ++ rows') ∧ latteRows vars is = .ok rows' ∧
      ∀ σ : Env ℝ, truth σ f' = true ↔ truth σ f = true ∧ ∀ d ∈ is, polyEval σ.r d < 0) := by
  induction is generalizing f rows with
  | nil => exact .inr ⟨by simp, f, [], by simp [Latte.prepare], rfl, by simp⟩
  | cons d is ih =>
    by_cases hd : d = []
    · subst hd
      exact .inl ⟨by simp, rfl⟩
    · obtain ⟨L, g, hL, hg, h1, -, -⟩ := scale_spec (hl d (by simp)).2 hd
      set i : Dict := d.map fun p => (p.1, p.2 * ((L : ℚ) / (g : ℚ))) with hi
      have hpos : (0 : ℚ) < (L : ℚ) / g := div_pos (by exact_mod_cast hL) (by exact_mod_cast hg)
      have hni : KeysNodup i := (hl d (by simp)).1.mapVal _
      have hzi : ∀ p ∈ i, p.2 ≠ 0 := by
        intro p hp
        obtain ⟨q, hq, rfl⟩ := List.mem_map.mp hp
        exact mul_ne_zero ((hl d (by simp)).2 q hq) hpos.ne'
      obtain ⟨G, hG, -, htr⟩ := linToSmt_spec (K := ℝ) hni hzi (by simpa [hi] using hd)
      have hrow : latteRow vars d = .ok (linB i :: vars.map fun v => -linCoef i [v]) := by simp only [latteRow, h1]
      have step : Latte.prepare vars f rows (d :: is) =
          Latte.prepare vars (.and [f, G]) (rows ++ [linB i :: vars.map fun v => -linCoef i [v]]) is := by
        simp only [Latte.prepare, h1, hG]
      rw [step]
      rcases ih (fun x hx => hl x (by simp [hx])) (.and [f, G]) (rows ++ [linB i :: vars.map fun v => -linCoef i [v]]) with
        ⟨hm, he⟩ | ⟨hm, f', rows', h2, h3, h4⟩
      · exact .inl ⟨by simp [hm], he⟩
      · refine .inr ⟨by simp [hm, Ne.symm hd], f', (linB i :: vars.map fun v => -linCoef i [v]) :: rows', by rw [h2]; simp, ?_, fun σ => ?_⟩
        · unfold latteRows at h3 ⊢
          simp only [mapE, hrow, h3]
        · rw [h4 σ]
          have hfk : (0 : ℝ) < (((L : ℚ) / g : ℚ) : ℝ) := by exact_mod_cast hpos
          have hG' : truth σ G = true ↔ polyEval σ.r d < 0 := by
            rw [htr σ, hi, polyEval_scale]
            constructor
            · intro h; by_contra h'; exact absurd (mul_nonneg (not_lt.mp h') hfk.le) (not_le.mpr h)
            · intro h; exact mul_neg_of_neg_of_pos h hfk
          simp only [truth, truthAll, Bool.and_true, Bool.and_eq_true, hG', List.forall_mem_cons, and_assoc]

/-- **C78**: when the LattE back-end returns a number, it is the integral of the polynomial over the region (which must have
finite volume), provided LattE is right when it does not fail and the SMT solver is right when it finds no solution.  It raises
only if an inequality has no terms, or if LattE fails on files that describe the region and the polynomial and the region has an
inner point (found by the solver). -/
theorem latte_correct {run : List Char → List Char → Option (List Char)} (hrun : LatteSound run) {sat : Formula → Bool}
    (hsat : ∀ f, sat f = false → ∀ σ : Env ℝ, truth σ f = false) {D : Domain} (hD : D.WF) (hb : D.bools = []) {is : List Dict}
    (hl : LinearOver D is) {p : Dict} (hp : ∀ m ∈ p, ∀ n ∈ m.1, n ∈ D.reals) (hfin : volume (regionSet D is) ≠ ⊤) :
    (∀ v, Latte.integrate run sat D is p = .ok v → (v : ℝ) = D.volumeOf false (regionFn is p)) ∧
    ∀ e, Latte.integrate run sat D is p = .error e →
      (e = .typeError ∧ [] ∈ is) ∨
      (e = .other ∧ (∃ polyFile hrepFile rows ms, run polyFile hrepFile = none ∧ LatteReader.poly polyFile = some ms ∧
          LatteReader.hrep hrepFile = some (D.reals.length + 1, rows) ∧
          ∫ x in polytope D.reals.length rows, monosAt ms x = D.volumeOf false (regionFn is p)) ∧
        ((∀ f, sat f = true → ∃ σ : Env ℝ, truth σ f = true) → ∃ σ : Env ℝ, ∀ d ∈ is, polyEval σ.r d < 0)) := by
  have hnd := reals_nodup hD
  have hv : D.realVars = .ok D.reals := hD.realVars
  rcases prepare_spec (vars := D.reals) is (fun d hd => (hl d hd).1) (.boolC true) [] with ⟨hm, he⟩ | ⟨hm, f, rows, h1, h2, h3⟩
  · have : Latte.integrate run sat D is p = .error .typeError := by simp only [Latte.integrate, hv, he]
    rw [this]
    exact ⟨fun v h => (by cases h), fun e h => (by cases h; exact .inl ⟨rfl, hm⟩)⟩
  · rw [List.nil_append] at h1
    have hok : ∀ d ∈ is, LatteOk D.reals d := fun d hd => ⟨(hl d hd).1, fun h => hm (h ▸ hd), fun q hq => ((hl d hd).2 q hq).1,
      fun n hn => by
        obtain ⟨m, hmm, h⟩ := List.mem_flatMap.mp hn
        exact ((hl d hd).2 m hmm).2 n h⟩
    obtain ⟨rows', h2', -, hint, hreg⟩ := latteRows_correct (K := ℝ) hnd hok
    rw [h2] at h2'; cases h2'
    have hrows : polytope D.reals.length (rows.map fun row => row.map (·.num)) = regionSet D is := by
      ext x
      have e := Set.ext_iff.mp hreg (env0.setReals D.reals x).r
      simp only [hrepRegion, Set.mem_ofPred_eq] at e
      simp only [polytope, regionSet, Set.mem_ofPred_eq, List.forall_mem_map]
      rw [← e]
      refine forall₂_congr fun row hrow => ?_
      rw [rowAt_num hnd env0 x (hint row hrow).2]
    have hpoly : ∀ x : Fin D.reals.length → ℝ, monosAt (latteMonomials D.reals p) x = polyEval (env0.setReals D.reals x).r p := fun x => by
      rw [monosAt_value hnd env0, (latteMonomials_correct hnd hp _).1]
    have hint' : ∫ x in polytope D.reals.length (rows.map fun row => row.map (·.num)), monosAt (latteMonomials D.reals p) x =
        D.volumeOf false (regionFn is p) := by
      rw [hrows, volumeOf_region hb]
      simp only [hpoly]
    have hopen : ∀ σ : Env ℝ, truth σ f = true ↔ ∀ d ∈ is, polyEval σ.r d < 0 := fun σ => by rw [h3 σ]; simp [truth]
    have heq : Latte.integrate run sat D is p =
        match run (Latte.polyText (latteMonomials D.reals p)) (Latte.hrepText D.reals.length rows) with
        | none => if sat f then .error .other else .ok 0
        | some out => Latte.readAnswer out := by
      simp only [Latte.integrate, hv, h1]
      cases run (Latte.polyText (latteMonomials D.reals p)) (Latte.hrepText D.reals.length rows) <;> rfl
    rw [heq]
    cases hr : run (Latte.polyText (latteMonomials D.reals p)) (Latte.hrepText D.reals.length rows) with
    | none =>
      simp only
      cases hs : sat f with
      | true =>
        simp only [if_true]
        refine ⟨fun v h => (by cases h), fun e h => ?_⟩
        cases h
        refine .inr ⟨rfl, ⟨_, _, _, _, hr, Latte.polyText_correct _, Latte.hrepText_correct hint, hint'⟩, fun hsat' => ?_⟩
        obtain ⟨σ, hσ⟩ := hsat' f hs
        exact ⟨σ, (hopen σ).mp hσ⟩
      | false =>
        simp only [Bool.false_eq_true, if_false]
        refine ⟨fun v h => ?_, fun e h => (by cases h)⟩
        cases h
        have hnull : ∀ᵐ x, x ∉ regionSet D is := by
          filter_upwards [linear_off_ae hD hl] with x hx hmem
          have := hsat f hs (env0.setReals D.reals x)
          rw [Bool.eq_false_iff, ne_eq, hopen] at this
          exact this fun d hd => lt_of_le_of_ne (hmem d hd) (hx d hd fun h => hm (h ▸ hd))
        rw [volumeOf_region hb, setIntegral_measure_zero _ (by rw [measure_eq_zero_iff_ae_notMem]; exact hnull)]
        simp
    | some out =>
      simp only
      obtain ⟨r1, r2⟩ := Latte.readAnswer_correct out
      have hlaw := hrun _ _ D.reals.length _ _ out (Latte.polyText_correct _) (Latte.hrepText_correct hint)
        (latteMonomials_correct (K := ℝ) hnd hp (fun _ => 0)).2 (by rw [hrows]; exact hfin) hr
      rw [hint'] at hlaw
      rcases hlaw with ⟨a, b, z, k, hf, hz, hk, hk0, hval⟩ | ⟨hno, h0⟩
      · obtain ⟨z', k', hz', hk', hok, -⟩ := r1 a b hf
        rw [hz] at hz'; cases hz'
        rw [hk] at hk'; cases hk'
        rw [hok hk0]
        refine ⟨fun v h => ?_, fun e h => (by cases h)⟩
        cases h
        rw [← hval]; push_cast; rfl
      · rw [r2 hno, h0]
        refine ⟨fun v h => ?_, fun e h => (by cases h)⟩
        cases h; simp

/-- LattE as a back-end with real numbers. -/
noncomputable def latteBackend (run : List Char → List Char → Option (List Char)) (sat : Formula → Bool) (D : Domain) (is : List Dict)
    (p : Dict) : Except PyErr ℝ := (Latte.integrate run sat D is p).map fun v : ℚ => (v : ℝ)

/-- **C78**: the LattE back-end never returns a wrong number for a region inside the box. -/
theorem latte_sound {run : List Char → List Char → Option (List Char)} (hrun : LatteSound run) {sat : Formula → Bool}
    (hsat : ∀ f, sat f = false → ∀ σ : Env ℝ, truth σ f = false) : ConvexSound (latteBackend run sat) := by
  intro D is p hD hb hl _ hv hin
  obtain ⟨h1, h2⟩ := latte_correct hrun hsat hD.wf hb hl hv (region_finite hD hin)
  rw [volumeOf_inside hb hin]
  unfold latteBackend
  cases h : Latte.integrate run sat D is p with
  | ok v =>
    refine ⟨fun r hr => ?_, fun hr => (by cases hr)⟩
    cases hr
    exact h1 v h
  | error e =>
    refine ⟨fun r hr => (by cases hr), fun hr => ?_⟩
    cases hr
    rcases h2 _ h with ⟨h, -⟩ | ⟨h, -⟩ <;> cases h

/-! ## Engines -/

/-- SPEC: a conjunction of linear comparisons, the strict ones between terms that differ. -/
def LinearConj (S : Formula) : Prop := ∃ fs, S = mkAnd fs ∧ ∀ f ∈ fs, ∃ l r, (f = .le l r ∨ f = .lt l r) ∧ linTerm l = true ∧ linTerm r = true ∧
  (f = .lt l r → ∃ τ : Env ℝ, value τ l ≠ value τ r)

/-- SPEC: an engine that does not return a wrong volume for a conjunction of linear inequalities and a polynomial over real variables,
and raises no ZeroDivisionError. -/
def EngineSound (vol : EngineObj → Bool → Except PyErr ℝ) : Prop :=
  ∀ (D : Domain) (S w : Formula), D.bools = [] → Problem D S w → LinearConj S → polyTerm w = true →
    (∀ v, vol ⟨D, S, some w⟩ true = .ok v → v = D.volumeOf true (density S w)) ∧ vol ⟨D, S, some w⟩ true ≠ .error .zeroDivision

/-- SPEC: an engine that returns the volume of such problems. -/
def EngineExact (vol : EngineObj → Bool → Except PyErr ℝ) : Prop :=
  ∀ (D : Domain) (S w : Formula), D.bools = [] → Problem D S w → LinearConj S → polyTerm w = true →
    vol ⟨D, S, some w⟩ true = .ok (D.volumeOf true (density S w))

theorem EngineExact.sound {vol : EngineObj → Bool → Except PyErr ℝ} (h : EngineExact vol) : EngineSound vol := fun D S w hb hp ha hw => by
  have := h D S w hb hp ha hw
  refine ⟨fun v hv => ?_, fun hv => ?_⟩
  · rw [this] at hv; cases hv; rfl
  · rw [this] at hv; cases hv

theorem polyToSmt_syms {d : Dict} {w : Formula} (h : polyToSmt d = .ok w) : ∀ v ∈ syms w, v.2 = .real ∧ ∃ p ∈ d, v.1 ∈ p.1 := by
  intro v hv
  unfold polyToSmt at h
  cases hts : mapE polyTermSmt d with
  | error e => rw [hts] at h; cases h
  | ok ts =>
    rw [hts] at h
    obtain ⟨t, ht, hvt⟩ := mem_syms_mkPlus h hv
    obtain ⟨p, hp, hpt⟩ := mapE_mem hts t ht
    suffices v.2 = .real ∧ v.1 ∈ p.1 from ⟨this.1, p, hp, this.2⟩
    have key : ∀ {u : Formula}, (if p.1 = [] then .ok (.realC 1) else mkTimes (p.1.map fun n => .sym n .real)) = Except.ok (ε := PyErr) u →
        v ∈ syms u → v.2 = .real ∧ v.1 ∈ p.1 := by
      intro u hu hvu
      split at hu
      · cases hu; simp [syms] at hvu
      · obtain ⟨a, ha, hva⟩ := mem_syms_mkTimes hu hvu
        obtain ⟨n, hn, rfl⟩ := List.mem_map.mp ha
        simp only [syms, List.mem_singleton] at hva
        subst hva
        exact ⟨rfl, hn⟩
    unfold polyTermSmt at hpt
    split at hpt
    · rename_i u hu
      cases hpt
      refine key hu ?_
      split at hvt
      · simpa [syms, symsList] using hvt
      · exact hvt
    · cases hpt

theorem linToSmt_linear {d : Dict} (hk : ∀ p ∈ d, p.1.length ≤ 1) {f : Formula} (h : linToSmt d = .ok f) :
    ∃ l r, (f = .le l r ∨ f = .lt l r) ∧ linTerm l = true ∧ linTerm r = true := by
  unfold linToSmt at h
  split at h
  · cases h; exact ⟨_, _, .inl rfl, rfl, rfl⟩
  · split at h
    · cases h; exact ⟨_, _, .inl rfl, rfl, rfl⟩
    · cases hts : mapE linTermSmt (d.filter fun p => p.1 ≠ []) with
      | error e => rw [hts] at h; cases h
      | ok ts =>
        rw [hts] at h
        simp only at h
        cases hs : mkPlus ts with
        | error e => rw [hs] at h; cases h
        | ok s =>
          rw [hs] at h
          cases h
          refine ⟨s, _, .inr rfl, ?_, rfl⟩
          have ht : ∀ t ∈ ts, linTerm t = true := by
            intro t ht
            obtain ⟨⟨k, c⟩, hp, hpt⟩ := mapE_mem hts t ht
            have hne : k ≠ [] := by simpa using (List.mem_filter.mp hp).2
            have hlen := hk _ (List.mem_filter.mp hp).1
            match k, hne, hlen, hpt with
            | [n], _, _, hpt =>
              simp only [linTermSmt, List.map_cons, List.map_nil, mkTimes, Except.ok.injEq] at hpt
              subst hpt
              split
              · simp [linTerm, linTermAll, syms]
              · rfl
          unfold mkPlus at hs
          split at hs <;> simp at hs <;> subst hs
          · exact ht _ (by simp)
          · rename_i h1 h2
            simp only [linTerm, Bool.and_eq_true, linTermAll_iff]
            exact ⟨by cases ts <;> simp_all, ht⟩

/-- The problem an engine is asked. -/
theorem polyEval_scaled {d : Dict} (hk : ∀ p ∈ d, p.1.length = 1) (s : ℝ) (ρ : String → ℝ) : polyEval (fun v => s * ρ v) d = s * polyEval ρ d := by
  induction d with
  | nil => simp
  | cons p d ih =>
    obtain ⟨k, c⟩ := p
    have h1 := hk (k, c) (by simp)
    obtain ⟨v, rfl⟩ := List.length_eq_one_iff.mp h1
    rw [polyEval_cons, polyEval_cons, ih fun p hp => hk p (by simp [hp])]
    simp only [monoEval, List.map_cons, List.map_nil, List.prod_cons, List.prod_nil, mul_one]
    ring

/-- The exported strict comparisons are between terms that differ. -/
theorem linToSmt_differ {d : Dict} (hd : WFLin d) (hk : ∀ p ∈ d, p.1.length ≤ 1) {l r : Formula} (h : linToSmt d = .ok (.lt l r)) :
    ∃ τ : Env ℝ, value τ l ≠ value τ r := by
  have hne : d ≠ [] := by rintro rfl; cases h
  obtain ⟨f, hf, -, ht⟩ := linToSmt_spec (K := ℝ) hd.1 hd.2 hne
  rw [h] at hf
  cases hf
  set d' := d.filter fun p => p.1 ≠ [] with hd'
  have hne' : d' ≠ [] := by
    intro h0
    unfold linToSmt at h
    rw [if_neg (by simpa using hne)] at h
    split at h
    · cases h
    · rw [← hd', h0] at h
      simp only [mapE, mkPlus] at h
      cases h
  have hsub : ∀ p ∈ d', p ∈ d ∧ p.1 ≠ [] := fun p hp => by
    have := List.mem_filter.mp hp
    exact ⟨this.1, by simpa using this.2⟩
  have hw' : WFLin d' := ⟨(List.filter_sublist.map _).nodup hd.1, fun p hp => hd.2 p (hsub p hp).1⟩
  have hk' : ∀ p ∈ d', p.1.length = 1 := fun p hp => by
    have h1 := hk p (hsub p hp).1
    have h2 := List.length_pos_iff.mpr (hsub p hp).2
    omega
  obtain ⟨x, hx⟩ := linear_nonzero hw' hne' (fun p hp => (hk' p hp).le) (rs := (linVars d').dedup) (List.nodup_dedup _)
    (fun m hm n hn => List.mem_dedup.mpr (List.mem_flatMap.mpr ⟨m, hm, hn⟩)) env0
  set ρ := (env0.setReals (linVars d').dedup x).r
  set m := polyEval ρ d'
  let c : ℝ := linCoef d []
  have hv : polyEval (fun v => (-(c + 1) / m) * ρ v) d < 0 := by
    rw [polyEval_split _ hd.1, ← hd', polyEval_scaled hk']
    have : -(c + 1) / m * m = -(c + 1) := div_mul_cancel₀ _ hx
    show -(c + 1) / m * m + c < 0
    rw [this]
    linarith
  have := (ht ⟨fun _ => false, fun v => (-(c + 1) / m) * ρ v⟩).mpr hv
  simp only [truth, decide_eq_true_eq] at this
  exact ⟨_, this.ne⟩

theorem engine_problem {D : Domain} (hD : BoxOk D) (hb : D.bools = []) {is : List Dict} (hl : LinearOver D is) {p : Dict}
    (hv : ∀ m ∈ p, ∀ n ∈ m.1, n ∈ D.reals) :
    ∃ fs, mapE linToSmt is = .ok fs ∧
      (p ≠ [] → ∃ w, polyToSmt p = .ok w ∧ Problem D (mkAnd fs) w ∧ LinearConj (mkAnd fs) ∧
        polyTerm w = true ∧ D.volumeOf true (density (mkAnd fs) w) = D.volumeOf true (regionFn is p)) := by
  have one : ∀ d ∈ is, ∃ f, linToSmt d = .ok f ∧ (wt .bool f = true ∧ D.covers f ∧ (∃ l r, (f = .le l r ∨ f = .lt l r) ∧ linTerm l = true ∧ linTerm r = true ∧
        (f = .lt l r → ∃ τ : Env ℝ, value τ l ≠ value τ r)) ∧
      ∀ σ : Env ℝ, (d ≠ [] → polyEval σ.r d ≠ 0) → (truth σ f = true ↔ polyEval σ.r d ≤ 0)) := by
    intro d hd
    obtain ⟨hw, hm⟩ := hl d hd
    by_cases hne : d = []
    · subst hne
      exact ⟨_, rfl, rfl, by intro p hp; simp [syms] at hp, ⟨_, _, .inl rfl, rfl, rfl, fun h => by cases h⟩, fun σ _ => by simp [truth, value]⟩
    · obtain ⟨f, hf, hwt, htr⟩ := linToSmt_spec (K := ℝ) hw.1 hw.2 hne
      refine ⟨f, hf, hwt, ?_, ?_, fun σ hσ => ?_⟩
      · intro v hvf
        obtain ⟨q, hq, h1, h2⟩ := linToSmt_syms hf v hvf
        have := mem_reals.mp ((hm q hq).2 _ h2)
        rw [h1]; exact this
      · obtain ⟨l, r, h1, h2, h3⟩ := linToSmt_linear (fun p hp => (hm p hp).1) hf
        exact ⟨l, r, h1, h2, h3, fun h => linToSmt_differ hw (fun p hp => (hm p hp).1) (hf.trans (by rw [h]))⟩
      · rw [htr σ]
        exact ⟨le_of_lt, fun h => lt_of_le_of_ne h (hσ hne)⟩
  obtain ⟨fs, hfs, hall⟩ := Pywmi.mapE_ok one
  refine ⟨fs, hfs, fun hp => ?_⟩
  obtain ⟨w, hw, hpt, -, hval⟩ := polyToSmt_correct (K := ℝ) hp
  have hfs' : ∀ f ∈ fs, wt .bool f = true ∧ D.covers f ∧ ∃ l r, (f = .le l r ∨ f = .lt l r) ∧ linTerm l = true ∧ linTerm r = true ∧
      (f = .lt l r → ∃ τ : Env ℝ, value τ l ≠ value τ r) := fun f hf => by
    obtain ⟨d, hd, h⟩ := mapE_mem hfs f hf
    obtain ⟨g, hg, h1, h2, h3, -⟩ := one d hd
    rw [h] at hg; cases hg
    exact ⟨h1, h2, h3⟩
  refine ⟨w, hw, ⟨hD, wt_mkAnd fun f hf => (hfs' f hf).1, polyTerm_wt w hpt, ?_, ?_⟩, ?_, hpt, ?_⟩
  · intro v hvf
    rw [syms_mkAnd] at hvf
    obtain ⟨f, hf, h⟩ := mem_symsList.mp hvf
    exact (hfs' f hf).2.1 v h
  · intro v hvf
    obtain ⟨h1, q, hq, h2⟩ := polyToSmt_syms hw v hvf
    have := mem_reals.mp (hv q hq _ h2)
    rw [h1]; exact this
  · exact ⟨fs, rfl, fun f hf => (hfs' f hf).2.2⟩
  · rw [volumeOf_real hb, volumeOf_real hb]
    refine integral_congr_ae ?_
    filter_upwards [linear_off_ae hD.wf hl] with x hx
    unfold Domain.restricted
    suffices h : density (mkAnd fs) w (env0.setReals D.reals x) = regionFn is p (env0.setReals D.reals x) by rw [h]
    set σ := env0.setReals D.reals x
    have hiff : truth σ (mkAnd fs) = true ↔ ∀ d ∈ is, polyEval σ.r d ≤ 0 := by
      rw [truth_mkAnd, List.all_eq_true]
      have hσ : ∀ d ∈ is, d ≠ [] → polyEval σ.r d ≠ 0 := hx
      clear hfs hx one hfs' hl
      induction hall with
      | nil => simp
      | cons h _ ih =>
        simp only [List.forall_mem_cons] at hσ ⊢
        exact and_congr (h.2.2.2 σ hσ.1) (ih hσ.2)
    rw [density, regionFn, hval]
    by_cases h : truth σ (mkAnd fs) = true
    · rw [if_pos h, if_pos (hiff.mp h)]
    · rw [if_neg h, if_neg fun h' => h (hiff.mpr h')]

/-- **C78**: with an engine as back-end the value returned is the engine's for the closed region and the polynomial, whose
integral is the one asked for; the zero polynomial raises a TypeError instead. -/
theorem engine_correct {D : Domain} (hD : BoxOk D) (hb : D.bools = []) {is : List Dict} (hl : LinearOver D is) {p : Dict}
    (hv : ∀ m ∈ p, ∀ n ∈ m.1, n ∈ D.reals) :
    (p ≠ [] → ∃ S w, Problem D S w ∧ LinearConj S ∧ polyTerm w = true ∧
      D.volumeOf true (density S w) = D.volumeOf true (regionFn is p) ∧
      ∀ {K : Type} (vol : EngineObj → Bool → Except PyErr K), engineIntegrate vol D is p = vol ⟨D, S, some w⟩ true) ∧
    (p = [] → ∀ {K : Type} (vol : EngineObj → Bool → Except PyErr K), engineIntegrate vol D is p = .error .typeError) := by
  obtain ⟨fs, hfs, h⟩ := engine_problem hD hb hl hv
  refine ⟨fun hp => ?_, fun hp K vol => ?_⟩
  · obtain ⟨w, hw, h1, h2, h3, h4⟩ := h hp
    exact ⟨mkAnd fs, w, h1, h2, h3, h4, fun vol => by simp only [engineIntegrate, hfs, hw]⟩
  · subst hp
    simp only [engineIntegrate, hfs]
    rfl

/-- **C78**: an engine that is never wrong gives a back-end that is never wrong. -/
theorem engine_sound {vol : EngineObj → Bool → Except PyErr ℝ} (h : EngineSound vol) : ConvexSound (engineIntegrate vol) := by
  intro D is p hD hb hl _ hv _
  obtain ⟨h1, h2⟩ := engine_correct hD hb hl hv
  by_cases hp : p = []
  · rw [h2 hp vol]
    exact ⟨fun v e => (by cases e), fun e => (by cases e)⟩
  · obtain ⟨S, w, hS, ha, hw, hvol, heq⟩ := h1 hp
    rw [heq vol, ← hvol]
    obtain ⟨k1, k2⟩ := h D S w hb hS ha hw
    exact ⟨k1, fun e => absurd e k2⟩

/-! ## XSDD with these back-ends -/

section
variable {E : Type} {o : XsddOpts E} {eval : E → (String → ℝ) → ℝ}

/-- The regions of a formula that holds only inside the box lie in the box. -/
theorem Counted.inside {D : Domain} {f : Formula} {As : List Formula} {rs : List (Formula × Finset String)} (hc : Counted D f As rs)
    (hbox : ∀ σ : Env ℝ, truth σ f = true → D.inBox σ) {q : Formula × Finset String} (hq : q ∈ rs) {σ : Env ℝ}
    (hσ : OffBoundary σ f) (h : truth σ q.1 = true) : D.inBox σ := by
  have hpos : 0 < (rs.map fun q => if truth σ q.1 = true then 2 ^ (D.bools.toFinset.card - q.2.card) else 0).sum := by
    refine Nat.lt_of_lt_of_le (Nat.two_pow_pos (D.bools.toFinset.card - q.2.card)) (List.single_le_sum (by simp) _ ?_)
    exact List.mem_map.mpr ⟨q, hq, if_pos h⟩
  rw [← hc.count σ hσ, Finset.card_pos] at hpos
  obtain ⟨T, hT⟩ := hpos
  exact hbox (σ.withBools T) (Finset.mem_filter.mp hT).2

theorem integrateConvex_sound (ho : o.Sound eval) {integ : Domain → List Dict → Dict → Except PyErr ℝ} (hi : ConvexSound integ)
    {D : Domain} (hD : BoxOk D) {f : Formula} (hf : XOk D f) (hbox : ∀ σ : Env ℝ, truth σ f = true → D.inBox σ)
    {As : List Formula} {rs : List (Formula × Finset String)}
    (hc : Counted D f As rs) {q : Formula × Finset String} (hq : q ∈ rs) {d : Dict} (hd : d ≠ []) (hwf : WFPoly d)
    (hvd : ∀ p ∈ d, ∀ n ∈ p.1, n ∈ D.reals) {w : Formula} (hw : polyToSmt d = .ok w) {v : ℝ}
    (hv : o.integrateConvex integ D q.1 w = .ok v) : v = intReals D.reals (D.restricted true (density q.1 w)) env0 := by
  obtain ⟨hb, hbools, hreals⟩ := realDomain_facts hD
  obtain ⟨ds, h1, h2, h3⟩ := getInequalities_region (K := ℝ) hc.linear ho.setOrd (hc.regions q hq).1
  obtain ⟨w', p, hw', hp, hpw, hpn, hps⟩ := polyFromSmt_toSmt hd hwf
  rw [hw] at hw'; cases hw'
  obtain ⟨w', hw', hpt, hz, hval⟩ := polyToSmt_correct (K := ℝ) hd
  rw [hw] at hw'; cases hw'
  obtain ⟨p', hp', hpv⟩ := polyFromSmt_correct_partial (K := ℝ) hpt hz
  rw [hp] at hp'; cases hp'
  have hpvars : ∀ m ∈ p, ∀ n ∈ m.1, n ∈ D.reals := fun m hm n hn => by
    have h := hps m.1
    rw [lookup_of_mem (k := m.1) (v := m.2) hpw.1 hm, Option.getD_some] at h
    cases hl : d.lookup m.1 with
    | none => rw [hl] at h; exact absurd h (hpn m hm)
    | some c => exact hvd _ (mem_of_lookup hl) n hn
  have hvol : (XsddOpts.realDomain D D.reals).volumeOf true (regionFn ds p) =
      intReals D.reals (D.restricted true (density q.1 w)) env0 := by
    have hr : (XsddOpts.realDomain D D.reals).restricted true (regionFn ds p) = D.restricted true (regionFn ds p) := rfl
    rw [Domain.volumeOf, wmiOf, hbools, hreals, sumBools, hr]
    refine integral_congr_ae ?_
    filter_upwards [hf.off_ae hD.wf env0] with x hx
    set σ := env0.setReals D.reals x
    have hiff := h3 σ (hc.strict σ hx)
    have : regionFn ds p σ = density q.1 w σ := by
      simp only [regionFn, density, hpv]
      by_cases h : truth σ q.1 = true
      · rw [if_pos (hiff.mp h), if_pos h]
      · rw [if_neg fun h' => h (hiff.mpr h'), if_neg h]
    simp only [Domain.restricted, this]
  have hrv : D.realVars = .ok D.reals := hD.wf.realVars
  have ht : o.tryConvex integ D q.1 w = integ (XsddOpts.realDomain D D.reals) ds p := by
    simp only [XsddOpts.tryConvex, hrv, h1, hp]
  have hin : ∀ᵐ x, x ∈ regionSet (XsddOpts.realDomain D D.reals) ds →
      (XsddOpts.realDomain D D.reals).inBox (env0.setReals (XsddOpts.realDomain D D.reals).reals x) := by
    rw [regionSet, hreals]
    filter_upwards [hf.off_ae hD.wf env0] with x hx hmem
    exact hc.inside hbox hq hx ((h3 _ (hc.strict _ hx)).mpr hmem)
  obtain ⟨k1, k2⟩ := hi _ ds p hb hbools (fun d hd => ⟨(h2 d hd).1, fun m hm => ⟨((h2 d hd).2 m hm).1, fun n hn => by
    obtain ⟨a, ha, hs⟩ := ((h2 d hd).2 m hm).2 n hn
    rw [hreals]; exact hc.vars a ha _ hs⟩⟩) hpw (by rw [hreals]; exact hpvars) hin
  rw [hvol] at k1 k2
  simp only [XsddOpts.integrateConvex, ht] at hv
  split at hv
  · cases hv; exact (k2 (by assumption)).symm
  · exact k1 v hv

theorem foldE_sum_ok {α : Type} (v : α → ℝ) {f : E → α → Except PyErr E} {as : List α}
    (h : ∀ a ∈ as, ∀ b b', f b a = .ok b' → ∀ ρ, eval b' ρ = eval b ρ + v a) :
    ∀ b b', foldE f b as = .ok b' → ∀ ρ, eval b' ρ = eval b ρ + (as.map v).sum := by
  induction as with
  | nil => intro b b' hb ρ; cases hb; simp
  | cons a as ih =>
    intro b b' hb ρ
    simp only [foldE] at hb
    cases h1 : f b a with
    | error e => rw [h1] at hb; cases hb
    | ok b1 =>
      rw [h1] at hb
      rw [ih (fun x hx => h x (by simp [hx])) b1 b' hb, h a (by simp) b b1 h1, List.map_cons, List.sum_cons]; ring

theorem convexPiece_sound (ho : o.Sound eval) {integ : Domain → List Dict → Dict → Except PyErr ℝ} (hi : ConvexSound integ)
    {D : Domain} (hD : BoxOk D) {base : Formula} (hbox : ∀ σ : Env ℝ, truth σ base = true → D.inBox σ)
    {p : PExpr × Formula} (hf : XOk D (mkAnd [p.2, base]))
    (hprop : atoms (mkAnd [p.2, base]) = [] ∨ ∃ a ∈ atoms (mkAnd [p.2, base]), Proper a) (hg : p.1.Good)
    (hv : p.1.Over (· ∈ D.reals)) {vol r : E} (hr : o.convexPiece integ D base vol p = .ok r) (ρ : String → ℝ) :
    eval r ρ = eval vol ρ + D.volumeOf true (density (mkAnd [p.2, base]) (pieceTerm p.1)) := by
  obtain ⟨g, L, s, rs, h1, h2, h3, hc⟩ := compiled_count ho.mgr ho.ord ho.tie hf hprop
  obtain ⟨d, hk, hd, hwf, hvd, hkey, hsmt, hval⟩ := pieceTerm_spec hg hv
  simp only [XsddOpts.convexPiece, h1, h2, h3] at hr
  rw [volume_regions hD hf hc fun σ τ h => by rw [hval, hval, h]]
  refine foldE_sum_ok _ (fun q hq vol r hr ρ => ?_) vol r hr ρ
  have hbv : D.boolVars = .ok D.bools := hD.wf.boolVars
  have hcard : D.bools.toFinset.card = D.bools.length := List.toFinset_card_of_nodup (bools_nodup hD.wf)
  simp only [XsddOpts.convexRegion, hbv, hkey] at hr
  cases hint : o.integrateConvex integ D q.1 (pieceTerm p.1) with
  | error e => rw [hint] at hr; cases hr
  | ok x =>
    rw [hint] at hr
    cases hr
    have hx := integrateConvex_sound ho hi hD hf (fun σ h => hbox σ (by
      rw [truth_mkAnd_pair, Bool.and_eq_true] at h; exact h.2)) hc hq hd hwf hvd hsmt hint
    rw [ho.alg.plus, ho.realF, hx]
    congr 1
    have hle : q.2.card ≤ D.bools.length := hcard ▸ Finset.card_le_card (hc.regions q hq).2
    rw [hcard, ← Nat.cast_sub hle, zpow_natCast, mul_comm]

theorem volumeCore_sound (ho : o.Sound eval) {integ : Domain → List Dict → Dict → Except PyErr ℝ} (hi : ConvexSound integ)
    (hback : o.backend = some integ) {e : EngineObj} {w base : Formula} (hw : e.weight = some w) (hD : BoxOk e.domain)
    (hxw : XWeight o e.domain w) (hbase : o.baseSupport e.support w = .ok base) (hb : XOk e.domain base)
    (hbox : ∀ σ : Env ℝ, truth σ base = true → e.domain.inBox σ)
    (hprop : e.domain.reals = [] ∨ ∃ a ∈ atoms base, Proper a) {v : ℝ} (hv : o.volumeCore e = .ok v) :
    v = e.domain.volumeOf true (density base w) := by
  obtain ⟨P, hP⟩ := hxw.clash
  have hconv := Pieces.splitUp_correct_partial ho.simp w hxw.wt P hP
  have hmade := splitUp_made (XOk.supportInv (ho.simpOk e.domain)) (V := (· ∈ e.domain.reals)) w
    (fun p hp hr => by
      have := hxw.vars p hp
      rw [hr] at this
      exact mem_reals.mpr this) hxw.conds P hconv.run
  have hpiece : ∀ p ∈ P, ∀ b b', o.convexPiece integ e.domain base b p = .ok b' →
      ∀ ρ, eval b' ρ = eval b ρ + e.domain.volumeOf true (density (mkAnd [p.2, base]) (pieceTerm p.1)) := by
    intro p hp b b' hb' ρ
    obtain ⟨hov, hx⟩ := hmade p hp
    have hf := (XOk.two hx hb).1
    refine convexPiece_sound ho hi hD hbox hf ?_ (hconv.good.1 p hp) hov hb' ρ
    rcases hprop with h | ⟨a, ha, hpa⟩
    · exact .inl (hf.noReals h)
    · exact .inr ⟨a, by rw [atoms_mkAnd]; exact mem_atomsList.mpr ⟨base, by simp, ha⟩, hpa⟩
  simp only [XsddOpts.volumeCore, hw, hbase, hconv.run, XsddOpts.fromPieces, hback] at hv
  cases hr : foldE (o.convexPiece integ e.domain base) o.alg.zero P with
  | error err => rw [hr] at hv; cases hv
  | ok r =>
    rw [hr] at hv
    have hev := foldE_sum_ok _ hpiece o.alg.zero r hr
    have hsum : ∀ ρ, eval r ρ = e.domain.volumeOf true (density base w) := by
      intro ρ
      rw [hev]
      have hz : eval o.alg.zero ρ = 0 := by simp [Algebra.zero, ho.alg.real]
      rw [hz, zero_add, ← volumeOf_sum P (fun p => density (mkAnd [p.2, base]) (pieceTerm p.1)) (fun p _ => density_meas _ _)
        (fun p _ β => tame_of_bound hD (.inl rfl) (density_le _ _) β)]
      congr 1
      funext σ
      rw [density, ← hconv.val σ, piecesVal]
      by_cases h : truth σ base = true
      · rw [if_pos h]
        congr 1
        refine List.map_congr_left fun p hp => ?_
        obtain ⟨_, _, _, _, _, _, _, hval⟩ := pieceTerm_spec (hconv.good.1 p hp) (hmade p hp).1
        rw [density, hval, pieceVal, truth_mkAnd_pair, h, Bool.and_true]
      · rw [if_neg h]
        refine List.sum_eq_zero fun x hx => ?_
        obtain ⟨p, hp, rfl⟩ := List.mem_map.mp hx
        rw [density, truth_mkAnd_pair, if_neg (by simp [h])]
    have := ho.toFloat _ _ hsum
    simp only [this] at hv
    cases hv
    rfl

/-- **C78**: with a convex back-end that is never wrong on regions inside the box, XSDD is never wrong: what `compute_volume`
returns is the weighted model integral, with the bounds of the domain added, or without them for a support that implies them.
The hypotheses on the problem are those of C57. -/
theorem computeVolume_sound_partial (ho : o.Sound eval) {integ : Domain → List Dict → Dict → Except PyErr ℝ}
    (hi : ConvexSound integ) (hback : o.backend = some integ)
    (himp : ∀ a b, o.implies a b = .ok true → ∀ σ : Env ℝ, truth σ a = true → truth σ b = true)
    {e : EngineObj} {w : Formula} (hw : e.weight = some w) (hD : BoxOk e.domain) (hxw : XWeight o e.domain w)
    (hS : XOk e.domain e.support) {v : ℝ} :
    (o.computeVolume e true = .ok v → v = e.domain.volumeOf true (density e.support w)) ∧
    ((∀ σ : Env ℝ, truth σ e.support = true → e.domain.inBox σ) → (e.domain.reals = [] ∨ ∃ a ∈ atoms e.support, Proper a) →
      o.computeVolume e false = .ok v → v = e.domain.volumeOf false (density e.support w)) := by
  have hbaseOk : ∀ {e' : EngineObj} {v : ℝ}, e'.weight = some w → o.volumeCore e' = .ok v → ∃ base, o.baseSupport e'.support w = .ok base := by
    intro e' v hw' h
    simp only [XsddOpts.volumeCore, hw'] at h
    cases hb : o.baseSupport e'.support w with
    | error err => rw [hb] at h; cases h
    | ok base => exact ⟨base, rfl⟩
  constructor
  · intro hv
    obtain ⟨b, hb, hxb, htb, hpb⟩ := bounds_ok hD
    simp only [XsddOpts.computeVolume, if_true, hb] at hv
    obtain ⟨base, hbase⟩ := hbaseOk (e' := e.withConstraint b) hw hv
    obtain ⟨k1, k2, k3⟩ := baseSupport_correct ho.setOrd himp (XOk.two hS hxb).1 hxw.wt hbase
    have hbox : ∀ σ : Env ℝ, truth σ base = true → e.domain.inBox σ := fun σ h => by
      rw [k2 σ, truth_mkAnd_pair, Bool.and_eq_true] at h
      exact (htb σ).mp h.2
    rw [volumeCore_sound ho hi hback (e := e.withConstraint b) (base := base) hw hD hxw hbase k1 hbox
      (hpb.imp id fun ⟨a, ha, hp⟩ => ⟨a, k3 a (by rw [atoms_mkAnd]; exact mem_atomsList.mpr ⟨b, by simp, ha⟩), hp⟩) hv]
    show e.domain.volumeOf true (density base w) = _
    rw [Domain.volumeOf, Domain.volumeOf]
    congr 1
    refine restricted_congr fun σ hσ => ?_
    have := k2 σ
    rw [truth_mkAnd_pair, (htb σ).mpr (hσ rfl), Bool.and_true] at this
    simp only [density, this]
  · intro hin hprop hv
    simp only [XsddOpts.computeVolume, Bool.false_eq_true, if_false] at hv
    obtain ⟨base, hbase⟩ := hbaseOk hw hv
    obtain ⟨k1, k2, k3⟩ := baseSupport_correct ho.setOrd himp hS hxw.wt hbase
    have hbox : ∀ σ : Env ℝ, truth σ base = true → e.domain.inBox σ := fun σ h => by rw [k2 σ] at h; exact hin σ h
    rw [volumeCore_sound ho hi hback hw hD hxw hbase k1 hbox (hprop.imp id fun ⟨a, ha, hp⟩ => ⟨a, k3 a ha, hp⟩) hv]
    rw [Domain.volumeOf, Domain.volumeOf]
    congr 1
    funext σ
    have hden : density base w = density e.support w := by funext σ; simp only [density, k2]
    rw [hden]
    unfold Domain.restricted
    by_cases hbx : e.domain.inBox σ
    · rw [if_pos fun _ => hbx, if_pos (by simp)]
    · rw [if_neg fun h => hbx (h rfl), if_pos (by simp), density, if_neg fun h => hbx (hin σ h)]

end

end Pywmi
