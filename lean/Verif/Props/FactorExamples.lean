import Verif.Props.FactorEngine

set_option linter.unusedSectionVars false
set_option linter.unusedSimpArgs false

/-!
# C49: an instance of the factorised engine, concrete cases, and results that are wrong
-/

namespace Pywmi
open Formula Prog MeasureTheory Sdd FactCtx

variable {E : Type}

/-! ### The default `parse_condition` -/

theorem linFromSmt_not_keys {l r g : Formula} (hg : g = .le l r ∨ g = .lt l r) {q d : Dict} (h : linFromSmt g = .ok q)
    (h' : linFromSmt (mkNot g) = .ok d) : d = q.map fun p => (p.1, -p.2) := by
  have hn : mkNot g = .not g := by rcases hg with rfl | rfl <;> rfl
  rw [hn] at h'
  unfold linFromSmt at h h'
  rw [mathDict_not] at h'
  cases hm : mathDict true g with
  | error e => rw [hm] at h; cases h
  | ok x =>
    rw [hm] at h h'
    cases h
    cases h'
    exact linMk_dictNeg x

theorem nice_linToExpr {A : Algebra E} {eval : E → (String → ℝ) → ℝ} (hA : A.Sound eval) {d : Dict} (hd : WFLin d) :
    Nice (eval (linToExpr A d)) := by
  refine ⟨?_, ∅, fun _ => ⟨1, fun ρ _ => ?_⟩⟩
  · have : eval (linToExpr A d) = fun ρ => if polyEval ρ d ≤ 0 then 1 else 0 := funext fun ρ => linToExpr_correct hA hd ρ
    rw [this]
    exact Measurable.ite (measurableSet_le (polyEval_nice d).1 measurable_const) measurable_const measurable_const
  · rw [linToExpr_correct hA hd]
    split <;> simp

/-- The default `parse_condition` meets the assumption, for every sound algebra. -/
theorem defaultParse_exact {A : Algebra E} {eval : E → (String → ℝ) → ℝ} (hA : A.Sound eval) : ParseExact (defaultParse A) eval := by
  intro f l r q hf hl hr hq g hg
  have hwl := polyTerm_wt l (linTerm_polyTerm l hl)
  have hwr := polyTerm_wt r (linTerm_polyTerm r hr)
  obtain ⟨⟨d, d1, d2⟩, ⟨d', e1, e2⟩⟩ := atom_expression (K := ℝ) hA hf hl hr
  rw [hq] at d1
  cases d1
  have agree : ∀ d : Dict, WFLin d → (∀ p ∈ d, ∀ v ∈ p.1, v ∈ linVars q) → ∀ ρ ρ' : String → ℝ, (∀ v ∈ linVars q, ρ v = ρ' v) →
      eval (linToExpr A d) ρ = eval (linToExpr A d) ρ' := fun d hd hv ρ ρ' h => by
    rw [linToExpr_correct hA hd, linToExpr_correct hA hd, polyEval_agreeing fun p hp v hx => h v (hv p hp v hx)]
  rcases hg with rfl | rfl
  · have hd := linFromSmt_wf hwl hwr hf hq
    exact ⟨linToExpr A q, by simp [defaultParse, hq], nice_linToExpr hA hd,
      agree q hd fun p hp v hv => List.mem_flatMap.mpr ⟨p, hp, hv⟩, d2⟩
  · have hn : mkNot f = .not f := by rcases hf with rfl | rfl <;> rfl
    have hd : WFLin d' := linFromSmt_not_wf hwl hwr hf (hn ▸ e1)
    refine ⟨linToExpr A d', by simp [defaultParse, e1], nice_linToExpr hA hd, agree d' hd fun p hp v hv => ?_, fun σ hσ => ?_⟩
    · rw [linFromSmt_not_keys hf hq e1] at hp
      obtain ⟨p', hp', rfl⟩ := List.mem_map.mp hp
      exact List.mem_flatMap.mpr ⟨p', hp', hv⟩
    · rw [e2 σ hσ, truth_mkNot]
      cases truth σ f <;> simp [ind]

/-! ### An engine -/

/-- Reference implementations of the external parts. -/
noncomputable def sampleFact (ordered : Bool) : FactOpts ((String → ℝ) → ℝ) where
  toXsddOpts := { sampleOpts false with
    mgr := fun ex => (Sdd.refManager ((Vtree.load ex).getD .empty)).trim
    integrate := fun _ e vs => .ok (margin vs.toFinset e) }
  parse := defaultParse funAlgebra
  tagOrd T := T.sort (· ≤ ·)
  ordered := ordered
  labelVtree L labels := Bami.bami id id L labels

theorem sampleFact_sound (ordered : Bool) : (sampleFact ordered).Sound fun e ρ => e ρ where
  base := { sampleOpts_sound false with
    mgr := fun ex u h h1 h2 => by
      simpa [sampleFact, h] using SddManager.trim_ok (Sdd.refManager_ok h1 h2) }
  trims _ := SddManager.trim_trims _
  tagOrd T := ⟨Finset.sort_nodup _ _, Finset.sort_toFinset _ _⟩
  vtree := bami_vtreeOk (fun _ => List.Perm.refl _) (fun _ => List.Perm.refl _) []
  parse := defaultParse_exact (sampleOpts_sound false).alg
  integrate _ e vs M _ _ _ _ _ _ := ⟨_, rfl, fun _ => rfl⟩

/-! ### Concrete cases -/

/-- A Boolean variable and two real ones. -/
def factDomain : Domain := ⟨["a", "x", "y"], [("a", .bool), ("x", .real), ("y", .real)], [("x", (some 0, some 2)), ("y", (some (-1), some 3))]⟩

theorem factDomain_box : BoxOk factDomain where
  wf := by
    refine ⟨by decide, by decide, fun v => ?_, by decide, fun v => ?_⟩ <;> simp [factDomain]
  box v b h := by
    simp only [factDomain, List.lookup] at h
    split at h
    · simp only [Option.some.injEq] at h
      exact ⟨_, _, h.symm, by norm_num⟩
    · split at h
      · simp only [Option.some.injEq] at h
        exact ⟨_, _, h.symm, by norm_num⟩
      · cases h


/-- `(a ∨ x < y) ∧ 0 ≤ x ∧ x ≤ 2 ∧ -1 ≤ y ∧ y < 3`. -/
def factSupport : Formula :=
  .and [.or [.sym "a" .bool, .lt (.sym "x" .real) (.sym "y" .real)], .le (.realC 0) (.sym "x" .real),
    .le (.sym "x" .real) (.realC 2), .le (.realC (-1)) (.sym "y" .real), .lt (.sym "y" .real) (.realC 3)]

theorem factSupport_ok : XOk factDomain factSupport where
  wt := by decide
  lit := by decide +kernel
  vars p hp := by
    simp only [factSupport, syms, symsList, List.append_nil, List.nil_append, List.cons_append, List.mem_cons, List.not_mem_nil,
      or_false] at hp
    rcases hp with rfl | rfl | rfl | rfl | rfl | rfl | rfl <;> exact ⟨by decide, rfl⟩
  generic a ha := by
    simp only [factSupport, atoms, atomsList, List.append_nil, List.nil_append, List.cons_append, List.mem_cons, List.not_mem_nil,
      or_false] at ha
    rcases ha with rfl | rfl | rfl | rfl | rfl <;>
      exact ⟨⟨fun _ => false, fun n => if n = "x" then 5 else 7⟩, by simp [strictAt, value] <;> norm_num⟩
  noReals h := absurd h (by decide)

theorem factSupport_bounded : Bounded factDomain factSupport := by
  intro v hv
  have h : ∀ x, x ∈ [Formula.le (.realC 0) (.sym "x" .real), .le (.sym "x" .real) (.realC 2), .le (.realC (-1)) (.sym "y" .real),
      .lt (.sym "y" .real) (.realC 3)] → Conjunct x factSupport := fun x hx => .inside _ x (List.mem_cons_of_mem _ hx) .here
  have hr : factDomain.reals = ["x", "y"] := by decide
  have hv' : v = "x" ∨ v = "y" := by simpa [hr] using hv
  rcases hv' with rfl | rfl
  · exact ⟨0, 2, .inl (h _ (by simp)), .inl (h _ (by simp))⟩
  · exact ⟨-1, 3, .inl (h _ (by simp)), .inr (h _ (by simp))⟩

theorem factWeight_ok (ordered : Bool) : XWeight (sampleFact ordered).toXsddOpts factDomain xsddWeight where
  wt := (xsddWeight_ok false).wt
  vars p hp := by
    simp only [xsddWeight, syms, symsList, List.append_nil, List.nil_append, List.cons_append, List.mem_cons, List.not_mem_nil,
      or_false] at hp
    rcases hp with rfl | rfl | rfl | rfl <;> exact ⟨by decide, rfl⟩
  conds c hc := by
    have h := (xsddWeight_ok false).conds c hc
    refine ⟨h.wt, h.lit, ?_, h.generic, fun h => absurd h (by decide)⟩
    simp only [xsddWeight, condsOf, condsOfList, List.append_nil, List.mem_cons, List.not_mem_nil, or_false] at hc
    subst hc
    intro p hp
    simp only [syms, List.cons_append, List.nil_append, List.mem_cons, List.not_mem_nil, or_false] at hp
    rcases hp with rfl | rfl <;> exact ⟨by decide, rfl⟩
  clash := (xsddWeight_ok false).clash

/-- The hypotheses of `FactOpts.computeVolume_oneBool_partial` and of `FactOpts.computeVolume_correct_partial` are met, with and
without the bounds of the domain, for both orders of integration. -/
example (ordered : Bool) :
    (sampleFact ordered).computeVolume ⟨factDomain, factSupport, some xsddWeight⟩ true =
      .ok (factDomain.volumeOf true (density factSupport xsddWeight)) ∧
    (sampleFact ordered).computeVolume ⟨factDomain, factSupport, some xsddWeight⟩ false =
      .ok (factDomain.volumeOf false (density factSupport xsddWeight)) := by
  obtain ⟨b, hb, _⟩ := bounds_ok factDomain_box
  obtain ⟨h1, h2⟩ := FactOpts.computeVolume_oneBool_partial (sampleFact_sound ordered)
    (fun a b h => by simpa [sampleFact, sampleOpts] using h) (e := ⟨factDomain, factSupport, some xsddWeight⟩) rfl factDomain_box
    (factWeight_ok ordered) rfl factSupport_ok (by decide)
  exact ⟨h1 ⟨b, _, hb, rfl⟩, h2 ⟨_, rfl⟩ factSupport_bounded⟩

/-! ### Labels -/

/-- Two Boolean variables. -/
def labelDomain : Domain := ⟨["A", "B"], [("A", .bool), ("B", .bool)], []⟩
/-- `(A ∧ B) ∨ ¬A`. -/
def labelSupport : Formula := .or [.and [.sym "A" .bool, .sym "B" .bool], .not (.sym "A" .bool)]
/-- `ite(B, 3, 5) * 1`. -/
def labelWeight : Formula := .times [.ite (.sym "B" .bool) (.realC 3) (.realC 5), .realC 1]

deriving instance DecidableEq for LiteralInfo

/-- The literals of the support. -/
def labelInfo : LiteralInfo := ⟨[("b0", .bool "A"), ("b1", .bool "B")], [], [("A", "b0"), ("B", "b1")]⟩

/-- C49 fails for labels: where the labelled variable is missing in an element, the engine counts it twice instead of adding up
both labels.  On `(A ∧ B) ∨ ¬A` with the label 3 or 5 for `B` it returns 5; the volume is 11. -/
theorem factorised_label_wrong :
    (sampleFact false).computeVolume ⟨labelDomain, labelSupport, some labelWeight⟩ false = .ok 5 ∧
      labelDomain.volumeOf false (density labelSupport labelWeight) = 11 := by
  constructor
  · have h1 : extractLiterals (mkAnd [.boolC true, labelSupport]) =
        .ok (.and [.boolC true, .or [.and [.sym "b0" .bool, .sym "b1" .bool], .not (.sym "b0" .bool)]], labelInfo) := by
      decide +kernel
    have h2 : compileToSdd (sampleFact false).mgr
        (.and [.boolC true, .or [.and [.sym "b0" .bool, .sym "b1" .bool], .not (.sym "b0" .bool)]]) labelInfo
        (Bami.bami id id labelInfo [("B", .realC 3, .realC 5)]) = .ok (.dec [(.lit (-1), .tt), (.lit 1, .lit 2)]) := by
      show compileToSdd (fun ex => (Sdd.refManager ((Vtree.load ex).getD .empty)).trim) _ _ _ = _
      decide +kernel
    have h3 : extractLabels labelWeight = .ok ([("B", .realC 3, .realC 5)], .realC 1) := by decide +kernel
    have h4 : splitUp id (.realC 1) = .ok [(.poly [([], 1)], .boolC true)] := by decide +kernel
    have hg : varGroups [([], 1)] [] = [([], [([], 1)])] := by decide +kernel
    have hl : literalGroups labelInfo [("B", .realC 3, .realC 5)] [([], [([], 1)])] = .ok [(2, []), (-2, [])] := by decide +kernel
    obtain ⟨e, he, hv⟩ : ∃ e, (sampleFact false).termVolume labelDomain [("B", .realC 3, .realC 5)] [([], 1)] labelInfo
        (.dec [(.lit (-1), .tt), (.lit 1, .lit 2)]) = .ok e ∧ e (fun _ => 0) = 5 := by
      have hrv : labelDomain.realVars = .ok [] := by decide
      have hbv : labelDomain.boolVars = .ok ["A", "B"] := by decide
      set C := (sampleFact false).ctx labelDomain labelInfo [("B", .realC 3, .realC 5)] [([], [([], 1)])] [(2, []), (-2, [])] none with hC
      have t0 : C.tagsOf (.lit (-1)) = ∅ := by
        show nodeGroups (fun l => ((([(2, []), (-2, [])] : List (ℤ × List ℕ)).lookup l).getD []).toFinset) (.lit (-1)) = _
        decide +kernel
      have t1 : C.tagsOf (.lit 1) = ∅ := by
        show nodeGroups (fun l => ((([(2, []), (-2, [])] : List (ℤ × List ℕ)).lookup l).getD []).toFinset) (.lit 1) = _
        decide +kernel
      have t2 : C.tagsOf (.lit 2) = ∅ := by
        show nodeGroups (fun l => ((([(2, []), (-2, [])] : List (ℤ × List ℕ)).lookup l).getD []).toFinset) (.lit 2) = _
        decide +kernel
      have t3 : C.tagsOf .tt = ∅ := by
        show nodeGroups (fun l => ((([(2, []), (-2, [])] : List (ℤ × List ℕ)).lookup l).getD []).toFinset) .tt = _
        decide +kernel
      have t4 : C.tagsOf (.dec [(.lit (-1), .tt), (.lit 1, .lit 2)]) = ∅ := by
        show nodeGroups (fun l => ((([(2, []), (-2, [])] : List (ℤ × List ℕ)).lookup l).getD []).toFinset) (.dec [(.lit (-1), .tt), (.lit 1, .lit 2)]) = _
        decide +kernel
      have hord : C.order = none := rfl
      have hA : C.alg.Sound (fun (e : (String → ℝ) → ℝ) ρ => e ρ) := (sampleOpts_sound false).alg
      have htl : C.tagOrd ∅ = [] := by show Finset.sort ∅ _ = []; simp
      have r1 : C.recursive (.lit (-1)) ∅ = .ok (C.alg.one, {"A"}) := by
        rw [recursive_eq]; simp only [body, htl]; rfl
      have r2 : C.recursive (.lit 1) ∅ = .ok (C.alg.one, {"A"}) := by
        rw [recursive_eq]; simp only [body, htl]; rfl
      have r3 : C.recursive (.lit 2) ∅ = .ok (polyToExpr C.alg [([], 3)], {"B"}) := by
        rw [recursive_eq]; simp only [body, htl]
        have hp : polyFromSmt (.realC 3) = .ok [([], 3)] := by decide +kernel
        have : C.walkLiteral 2 = .ok (polyToExpr C.alg [([], 3)], {"B"}) := by
          unfold walkLiteral
          have h1 : litValue C.lits (2 : ℤ).natAbs = .ok (.bool "B") := by
            show litValue labelInfo 2 = _
            decide +kernel
          have h2 : C.labels.lookup "B" = some (.realC 3, .realC 5) := by
            show [("B", Formula.realC 3, Formula.realC 5)].lookup "B" = _
            decide
          rw [h1]
          simp only [h2]
          rw [if_pos (by decide), hp]
          rfl
        rw [this]
        rfl
      have r4 : C.recursive .tt ∅ = .ok (C.alg.one, ∅) := by
        rw [recursive_eq]; rfl
      have r5 : ∃ e, C.recursive (.dec [(.lit (-1), .tt), (.lit 1, .lit 2)]) ∅ = .ok (e, {"A", "B"}) ∧ e (fun _ => 0) = 5 := by
        rw [recursive_eq]
        simp only [body, elements, reduceCtorEq, or_self, if_false, sharedTags, hord, t0, t1, t2, t3, Finset.inter_empty,
          Finset.empty_sdiff, Prog.interp, r1, r2, r3, r4, listTags, htl, integrateTags, foldE]
        obtain ⟨x, x1, x2, x3⟩ := smoothPlus_spec (A := C.alg) (eval := fun e ρ => e ρ) hA (C.alg.zero, ∅)
          (C.alg.times C.alg.one C.alg.one, {"A"} ∪ ∅)
        obtain ⟨y, y1, y2, y3⟩ := smoothPlus_spec (A := C.alg) (eval := fun e ρ => e ρ) hA x
          (C.alg.times C.alg.one (polyToExpr C.alg [([], 3)]), {"A"} ∪ {"B"})
        have x2' : x.2 = {"A"} := by rw [x2]; decide
        have y2' : y.2 = {"A", "B"} := by rw [y2, x2']; decide
        simp only [x1, Prog.interp, r2, r3, y1]
        refine ⟨y.1, by rw [← y2'], ?_⟩
        have hx := x3 (.inl (by decide)) (fun _ => 0) 0 (1 / 2) (by simp [Algebra.zero, hA.real]) (by
          simp only [hA.times, Algebra.one, hA.real]
          have : ({"A"} ∪ ∅ : Finset String).card = 1 := by decide
          rw [this]
          norm_num)
        rw [x2'] at hx
        have hy := y3 (.inl (by rw [x2']; decide)) (fun _ => 0) (1 / 2) (3 / 4) (by rw [hx, x2']; simp) (by
          simp only [hA.times, Algebra.one, hA.real, polyToExpr_eval hA]
          have : ({"A"} ∪ {"B"} : Finset String).card = 2 := by decide
          rw [this]
          simp [polyEval, monoEval]
          norm_num)
        rw [hy, y2']
        have : ({"A", "B"} : Finset String).card = 2 := by decide
        rw [this]
        norm_num
      obtain ⟨e, he, hv⟩ := r5
      obtain ⟨z, z1, z2⟩ := (algebra_power hA (C.alg.real 2)).1 0
      refine ⟨C.alg.times (polyToExpr C.alg [([], 1)]) (C.alg.times e z), ?_, ?_⟩
      · have hc : constantGroup C.alg [([], [([], 1)])] = .ok (polyToExpr C.alg [([], 1)]) := rfl
        have hof : (sampleFact false).ordered = false := rfl
        have hz : (sampleFact false).alg.power ((sampleFact false).alg.real 2)
            (((["A", "B"] : List String).length : ℚ) - (({"A", "B"} : Finset String).card : ℕ)) = .ok z := by
          have : (((["A", "B"] : List String).length : ℚ) - (({"A", "B"} : Finset String).card : ℕ)) = ((0 : ℕ) : ℚ) := by
            have : ({"A", "B"} : Finset String).card = 2 := by decide
            rw [this]
            norm_num
          rw [this]
          exact z1
        simp only [FactOpts.termVolume, hrv, hg, hof, Bool.false_eq_true, if_false, hl, ← hC, t4, he, hbv, hz]
        rw [show (sampleFact false).alg = C.alg from rfl, hc]
      · have ht1 := hA.times (polyToExpr C.alg [([], 1)]) (C.alg.times e z) fun _ => 0
        have ht2 := hA.times e z fun _ => 0
        have hp := polyToExpr_eval hA [([], 1)] fun _ => 0
        have hz := z2 fun _ => 0
        rw [ht1, ht2, hp, hz, hv]
        simp [polyEval, monoEval]
    have hlab : (sampleFact false).labelVtree labelInfo [("B", .realC 3, .realC 5)] =
      Bami.bami id id labelInfo [("B", .realC 3, .realC 5)] := rfl
    have hbase : (sampleFact false).baseSupport labelSupport labelWeight = .ok labelSupport := rfl
    have hsimp : (sampleFact false).simp = id := rfl
    have hterm : FactOpts.termSupports [(.poly [([], 1)], .boolC true)] [] = .ok [([([], 1)], [.boolC true])] := by decide +kernel
    have hset : (sampleFact false).setOrd [.boolC true] = [.boolC true] := rfl
    have hfl : ∀ e, (sampleFact false).toFloat e = .ok (e fun _ => 0) := fun _ => rfl
    have hpl : ∀ a b : (String → ℝ) → ℝ, (sampleFact false).alg.plus a b = fun ρ => a ρ + b ρ := fun _ _ => rfl
    have hze : (sampleFact false).alg.zero = fun _ => ((0 : ℚ) : ℝ) := rfl
    simp only [FactOpts.computeVolume, Bool.false_eq_true, if_false, FactOpts.volumeCore, hbase, h3, hsimp, h4, FactOpts.fromTerms, hterm,
      foldE, FactOpts.addTerm, hset, mkOr, h1, hlab, h2, he, hpl, hze, hfl, hv]
    norm_num
  · have hb : labelDomain.bools = ["A", "B"] := by decide
    have hr : labelDomain.reals = [] := by decide
    rw [Domain.volumeOf, hb, hr]
    simp [wmiOf, sumBools, intReals_nil, Domain.restricted, density, labelSupport, labelWeight, truth, value, truthAll, truthAny, Env.setB, Env.setReals, env0, valueProd]
    norm_num

/-! ### Different Boolean variables in the elements of a node -/

/-- C49 fails for diagrams that are not smooth: on the diagram of `(A ∧ B) ∨ (¬A ∧ C)` the two elements have two Boolean variables
each, so nothing is multiplied by two; the volume of the constant weight 1 comes out as 2, but it is 4. -/
theorem factorised_smooth_wrong {D : Domain} (hb : D.boolVars = .ok ["A", "B", "C"]) (hr : D.realVars = .ok []) :
    ∃ e, (sampleFact false).termVolume D [] [([], 1)] threeBools sampleSdd = .ok e ∧ e (fun _ => 0) = 2 ∧
      (∀ σ : Env ℝ, threeBools.boolCount sampleSdd {"A", "B", "C"} σ = 4) := by
  have hg : varGroups [([], 1)] [] = [([], [([], 1)])] := by decide +kernel
  have hl : literalGroups threeBools [] [([], [([], 1)])] = .ok [] := by decide +kernel
  set C := (sampleFact false).ctx D threeBools [] [([], [([], 1)])] [] none with hC
  have t0 : C.tagsOf (.lit (-1)) = ∅ := by
    show nodeGroups (fun l => ((([] : List (ℤ × List ℕ)).lookup l).getD []).toFinset) (.lit (-1)) = _
    decide +kernel
  have t1 : C.tagsOf (.lit 1) = ∅ := by
    show nodeGroups (fun l => ((([] : List (ℤ × List ℕ)).lookup l).getD []).toFinset) (.lit 1) = _
    decide +kernel
  have t2 : C.tagsOf (.lit 2) = ∅ := by
    show nodeGroups (fun l => ((([] : List (ℤ × List ℕ)).lookup l).getD []).toFinset) (.lit 2) = _
    decide +kernel
  have t3 : C.tagsOf (.lit 3) = ∅ := by
    show nodeGroups (fun l => ((([] : List (ℤ × List ℕ)).lookup l).getD []).toFinset) (.lit 3) = _
    decide +kernel
  have t4 : C.tagsOf sampleSdd = ∅ := by
    show nodeGroups (fun l => ((([] : List (ℤ × List ℕ)).lookup l).getD []).toFinset) sampleSdd = _
    decide +kernel
  have hord : C.order = none := rfl
  have hA : C.alg.Sound (fun (e : (String → ℝ) → ℝ) ρ => e ρ) := (sampleOpts_sound false).alg
  have htl : C.tagOrd ∅ = [] := by show Finset.sort ∅ _ = []; simp
  have r1 : C.recursive (.lit (-1)) ∅ = .ok (C.alg.one, {"A"}) := by
    rw [recursive_eq]; simp only [body, htl]; rfl
  have r2 : C.recursive (.lit 1) ∅ = .ok (C.alg.one, {"A"}) := by
    rw [recursive_eq]; simp only [body, htl]; rfl
  have r3 : C.recursive (.lit 2) ∅ = .ok (C.alg.one, {"B"}) := by
    rw [recursive_eq]; simp only [body, htl]; rfl
  have r4 : C.recursive (.lit 3) ∅ = .ok (C.alg.one, {"C"}) := by
    rw [recursive_eq]; simp only [body, htl]; rfl
  obtain ⟨e, he, hv⟩ : ∃ e, C.recursive sampleSdd ∅ = .ok (e, {"A", "B", "C"}) ∧ e (fun _ => 0) = 2 := by
    rw [recursive_eq, sampleSdd]
    simp only [body, elements, reduceCtorEq, or_self, if_false, sharedTags, hord, t0, t1, t2, t3, Finset.inter_empty,
      Finset.empty_sdiff, Prog.interp, r1, r2, r3, r4, listTags, htl, integrateTags, foldE]
    obtain ⟨x, x1, x2, x3⟩ := smoothPlus_spec (A := C.alg) (eval := fun e ρ => e ρ) hA (C.alg.zero, ∅)
      (C.alg.times C.alg.one C.alg.one, {"A"} ∪ {"B"})
    have x2' : x.2 = {"A", "B"} := by rw [x2]; dsimp only; decide
    have hs : smoothPlus C.alg x (C.alg.times C.alg.one C.alg.one, {"A"} ∪ {"C"}) =
        .ok (C.alg.plus x.1 (C.alg.times C.alg.one C.alg.one), {"A", "B", "C"}) := by
      rw [smoothPlus, if_pos (by rw [x2']; dsimp only; decide), x2']
      exact congrArg (fun z => Except.ok (_, z)) (by dsimp only; decide)
    simp only [x1, Prog.interp, r1, r4, hs]
    refine ⟨_, rfl, ?_⟩
    have hx := x3 (.inl (by dsimp only; decide)) (fun _ => 0) 0 (1 / 4) (by simp [Algebra.zero, hA.real]) (by
      simp only [hA.times, Algebra.one, hA.real]
      have : ({"A"} ∪ {"B"} : Finset String).card = 2 := by decide
      rw [this]
      norm_num)
    rw [x2'] at hx
    have hc : ({"A", "B"} : Finset String).card = 2 := by decide
    rw [hc] at hx
    have hp := hA.plus x.1 (C.alg.times C.alg.one C.alg.one) fun _ => 0
    have ht := hA.times C.alg.one C.alg.one fun _ => 0
    have ho := hA.real 1 fun _ => 0
    rw [hp, ht, hx, show C.alg.one = C.alg.real 1 from rfl, ho]
    norm_num
  obtain ⟨z, z1, z2⟩ := (algebra_power hA (C.alg.real 2)).1 0
  refine ⟨C.alg.times (polyToExpr C.alg [([], 1)]) (C.alg.times e z), ?_, ?_, fun σ => ?_⟩
  · have hc : constantGroup C.alg [([], [([], 1)])] = .ok (polyToExpr C.alg [([], 1)]) := rfl
    have hof : (sampleFact false).ordered = false := rfl
    have hz : (sampleFact false).alg.power ((sampleFact false).alg.real 2)
        (((["A", "B", "C"] : List String).length : ℚ) - (({"A", "B", "C"} : Finset String).card : ℕ)) = .ok z := by
      have : (((["A", "B", "C"] : List String).length : ℚ) - (({"A", "B", "C"} : Finset String).card : ℕ)) = ((0 : ℕ) : ℚ) := by
        have : ({"A", "B", "C"} : Finset String).card = 3 := by decide
        rw [this]
        norm_num
      rw [this]
      exact z1
    simp only [FactOpts.termVolume, hr, hg, hof, Bool.false_eq_true, if_false, hl, ← hC, t4, he, hb, hz]
    rw [show (sampleFact false).alg = C.alg from rfl, hc]
  · have ht1 := hA.times (polyToExpr C.alg [([], 1)]) (C.alg.times e z) fun _ => 0
    have ht2 := hA.times e z fun _ => 0
    have hp := polyToExpr_eval hA [([], 1)] fun _ => 0
    have hz := z2 fun _ => 0
    rw [ht1, ht2, hp, hz, hv]
    simp [polyEval, monoEval]
  · obtain ⟨_, _, _, _, h⟩ := nonConvex_count_wrong (K := ℝ) hA σ
    exact h

end Pywmi
