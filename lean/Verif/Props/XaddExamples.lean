import Verif.Props.XaddWalk

set_option linter.unusedSectionVars false
set_option linter.unusedSimpArgs false

/-!
# C13–C22, C53: concrete cases and findings
-/

namespace Pywmi
open Formula MeasureTheory

/-- EXAMPLE: types of names. -/
def exTypes (v : String) : Ty := if v = "a" ∨ v = "b" then .bool else .real
/-- EXAMPLE: an integrator with full reduction. -/
def exFull : RCtx Dict := ⟨exCtx, id, true, true, true, true⟩
/-- EXAMPLE: an integrator without reduction. -/
def exPlain : RCtx Dict := ⟨exCtx, id, false, false, false, true⟩
/-- EXAMPLE: values of dictionaries. -/
noncomputable def exEv (e : Dict) (ρ : String → ℝ) : ℝ := polyEval ρ e

theorem exLaw : XLaw exCtx exEv := ⟨exSimp_law, exSolve_law, exBack_law⟩
theorem id_ordLaw : OrdLaw id := fun _ _ => List.Perm.refl _

/-- EXAMPLE: perform calls one after the other. -/
def runOps (ops : List (PoolOp Dict)) (p : Pool Dict) : Pool Dict := ops.foldl (fun p o => o.exec exCtx p) p

/-- EXAMPLE: `a` -/
def exA : Formula := .sym "a" .bool
/-- EXAMPLE: `b` -/
def exB : Formula := .sym "b" .bool
/-- EXAMPLE: `a or x <= 3` -/
def exOr : Formula := .or [exA, .le (.sym "x" .real) (.realC 3)]
/-- EXAMPLE: `if b then 2 else x` -/
def exIte : Formula := .ite exB (.realC 2) (.sym "x" .real)

/-- EXAMPLE: a pool after two conversions; node 5 is `a or x <= 3`, node 12 is `if b then 2 else x`. -/
def exPool : Pool Dict := runOps [.convert true exOr, .convert false exIte] (newPool exCtx)

theorem exPool_reachable : Reachable exCtx exTypes exPool :=
  .step (.convert false exIte) (.step (.convert true exOr) .refl (Or.inl ⟨rfl, Or.inl rfl⟩)) (Or.inr ⟨rfl, rfl⟩)

/-- The hypotheses of the theorems on single operations are met by nodes that are not trivial. -/
theorem exPool_nodes : ((convert exCtx true exOr (newPool exCtx)).1 = .ok (.id 5)) ∧
    ((convert exCtx false exIte (runOps [.convert true exOr] (newPool exCtx))).1 = .ok (.id 12)) ∧
    (exPool.node 5 = some (.inner ⟨exA, none, true⟩ 2 4)) ∧ (exPool.node 12).isSome := by
  decide +kernel

theorem exPool_shape : Ordered exPool 5 ∧ Binary exCtx exPool 5 ∧ Ordered exPool 12 := by
  have hr1 : Reachable exCtx exTypes (runOps [.convert true exOr] (newPool exCtx)) :=
    .step (.convert true exOr) .refl (Or.inl ⟨rfl, Or.inl rfl⟩)
  have hstep : Hist exCtx exTypes (runOps [.convert true exOr] (newPool exCtx)) exPool :=
    .step (.convert false exIte) .refl (Or.inr ⟨rfl, rfl⟩)
  obtain ⟨n, q, h1, h2, h3, -⟩ := convert_formula_partial (Γ := exTypes) exLaw (p := newPool exCtx) .refl (f := exOr) rfl
  obtain ⟨m, q', h1', h2', -⟩ := convert_weight_partial (Γ := exTypes) exLaw hr1 (f := exIte) rfl
  have e1 : q = runOps [.convert true exOr] (newPool exCtx) := by
    have : runOps [.convert true exOr] (newPool exCtx) = (convert exCtx true exOr (newPool exCtx)).2 := rfl
    rw [this, h1]
  have e2 : q' = exPool := by
    have : exPool = (convert exCtx false exIte (runOps [.convert true exOr] (newPool exCtx))).2 := rfl
    rw [this, h1']
  have n5 : n = 5 := by
    have := exPool_nodes.1
    rw [h1] at this
    simpa using this
  have n12 : m = 12 := by
    have := exPool_nodes.2.1
    rw [h1'] at this
    simpa using this
  subst n5 n12 e1 e2
  have hi := hr1.inv exLaw
  obtain ⟨-, he⟩ := hstep.keeps exLaw hi
  have hs : ((runOps [.convert true exOr] (newPool exCtx)).node 5).isSome := by decide +kernel
  obtain ⟨T, hT⟩ := hi.core.den hs
  have hT' := he.den hT
  exact ⟨hT'.ordered_iff.mpr ((XTree.Ord.mono he.tests (hT.tests hi.core)).mpr (hT.ordered_iff.mp h2)),
    hT'.binary_iff.mpr (hT.binary_iff.mp h3), h2'⟩

/-- The negation of `a or x <= 3`. -/
example : ∃ r q, invert exCtx 5 exPool = (.ok r, q) ∧ (∀ σ v, ValAt exEv exPool σ 5 v → ValAt exEv q σ r (1 - v)) ∧
    Ordered q r ∧ Binary exCtx q r := by
  exact invert_partial exLaw exPool_reachable (n := 5) (by rw [exPool_nodes.2.2.1]; rfl) exPool_shape.2.1

/-- The product of the two diagrams. -/
example : ∃ r q, apply exCtx .mul 5 12 exPool = (.ok r, q) ∧ Ordered q r ∧
    ∀ σ va vb, ValAt exEv exPool σ 5 va → ValAt exEv exPool σ 12 vb → ValAt exEv q σ r (va * vb) := by
  have h5 : (exPool.node 5).isSome := by rw [exPool_nodes.2.2.1]; rfl
  obtain ⟨r, q, h1, h2⟩ := apply_pointwise exLaw exPool_reachable (op := .mul) h5 exPool_nodes.2.2.2 (by rintro (h | h) <;> cases h)
  exact ⟨r, q, h1, (apply_shape exLaw exPool_reachable h5 exPool_nodes.2.2.2 h1).2 exPool_shape.1 exPool_shape.2.2, h2⟩

/-- The sum over `b` of `if b then 2 else x`. -/
example : ∃ r q, integrate exFull 12 "b" .bool exPool = (.ok r, q) ∧ TestFree q r ("b", .bool) := by
  obtain ⟨φ, hφ⟩ := reachable_fun exLaw exPool_reachable exPool_nodes.2.2.2
  obtain ⟨r, q, h1, -, -, h2⟩ := integrate_bool_partial exLaw (C := exFull) rfl id_ordLaw exPool_reachable hφ exPool_shape.2.2 (b := "b") rfl
  exact ⟨r, q, h1, h2⟩

/-- Integration over a variable. -/
example : ∃ r q, integrate exFull 12 "x" .real exPool = (.ok r, q) ∧ TestFree q r ("x", .real) := by
  obtain ⟨φ, hφ⟩ := reachable_fun exLaw exPool_reachable exPool_nodes.2.2.2
  obtain ⟨r, q, ψ, h1, -, h2, -⟩ := integrate_real_exact exLaw (C := exFull) rfl id_ordLaw exPool_reachable hφ (x := "x") rfl
  exact ⟨r, q, h1, h2⟩

/-- Both modes of reduction. -/
example : ∃ r q, reduceBy exCtx .smt 12 exPool = (.ok r, q) ∧ ∀ σ v, ValAt exEv exPool σ 12 v → ValAt exEv q σ r v := by
  obtain ⟨r, q, h1, h2, -⟩ := reduce_same exLaw exPool_reachable exPool_nodes.2.2.2 (m := .smt) (Or.inl rfl)
  exact ⟨r, q, h1, h2⟩

/-- Walks: the number of nodes below a node, counted with repetition. -/
example : ∃ a q, bottomUp (pureLeaf fun _ _ => (1 : ℕ)) (pureInner fun _ _ a b => a + b + 1) 5 exPool = (.ok a, q) ∧
    Msg exPool (fun _ _ => 1) (fun _ _ a b => a + b + 1) 5 a := by
  obtain ⟨a, q, h1, h2, -⟩ := walk_message_partial exLaw exPool_reachable (root := 5) (by rw [exPool_nodes.2.2.1]; rfl)
    (by
      have : exPool.profiles.lookup 5 = none := by decide +kernel
      intro pr h
      rw [this] at h; cases h) (fun _ _ => (1 : ℕ)) (fun _ _ a b => a + b + 1)
  exact ⟨a, q, h1, h2⟩

/-! ### The engine -/

theorem sampleEngine_types : ∀ v ∈ sampleEngine.domain.vars, sampleEngine.domain.varTypes.lookup v = some (exTypes v) := by decide +kernel
theorem sampleEngine_order : sampleEngine.domain.vars = sampleEngine.domain.bools ++ sampleEngine.domain.reals := by decide +kernel

/-- The volume of the sample problem, in the pool used before and in a new pool. -/
theorem sampleEngine_xadd (C : RCtx Dict) (hC : C.X = exCtx) (ho : OrdLaw C.ord) {p : Pool Dict} (hp : Reachable exCtx exTypes p) :
    ∃ v q, xaddVolume C sampleEngine true p = (.ok v, q) ∧
      (v : ℝ) = sampleEngine.domain.volumeOf true (density sampleEngine.support exIte) :=
  xadd_volume_partial exLaw hC ho hp rfl sampleEngine_problem sampleEngine_types sampleEngine_order (Or.inl rfl) rfl rfl
    (by intro l r h; simp [sampleEngine, atoms, atomsList] at h) (by intro l r h; simp [atoms] at h)

/-- The value of the sample problem. -/
theorem sampleEngine_value : sampleEngine.domain.volumeOf true (density sampleEngine.support exIte) = 1771 / 4 := by
  obtain ⟨v, q, h1, h2⟩ := sampleEngine_xadd exFull rfl id_ordLaw .refl
  have : (xaddVolume exFull sampleEngine true (newPool exCtx)).1 = .ok (1771 / 4) := by decide +kernel
  rw [h1] at this
  cases this
  rw [← h2]
  norm_num

/-- With another pool and another strategy the engine gives the same. -/
example : (xaddVolume exPlain sampleEngine true exPool).1 = .ok (1771 / 4) := by
  obtain ⟨v, q, h1, h2⟩ := sampleEngine_xadd exPlain rfl id_ordLaw exPool_reachable
  rw [sampleEngine_value] at h2
  have h3 : (v : ℝ) = ((1771 / 4 : ℚ) : ℝ) := by rw [h2]; norm_num
  have h4 : v = 1771 / 4 := by exact_mod_cast h3
  rw [h1, h4]

/-! ### Findings -/

/-- C22, finding: a strict comparison of equal terms is read as true: the engine returns the volume of the domain, the integral is 0. -/
theorem xadd_strict_wrong : ∃ e : EngineObj, e.weight = some (.realC 1) ∧ Problem e.domain e.support (.realC 1) ∧ supB e.support = true ∧
    (xaddVolume exFull e true (newPool exCtx)).1 = .ok 220 ∧ e.domain.volumeOf true (density e.support (.realC 1)) = 0 := by
  refine ⟨⟨sampleDomain, .lt (.sym "x" .real) (.sym "x" .real), some (.realC 1)⟩, rfl,
    ⟨sampleDomain_box, rfl, rfl, ?_, by intro p hp; simp [syms] at hp⟩, rfl, by decide +kernel, ?_⟩
  · intro p hp
    simp only [syms, List.mem_append, List.mem_singleton, or_self] at hp
    subst hp
    exact ⟨by decide, rfl⟩
  · have : ∀ σ, sampleDomain.restricted true (density (.lt (.sym "x" .real) (.sym "x" .real)) (.realC 1)) σ = 0 := by
      intro σ
      simp [Domain.restricted, density, truth]
    unfold Domain.volumeOf
    rw [wmiOf_congr this]
    have hb : ∀ (bs : List String) (σ : Env ℝ), sumBools bs (fun _ => (0 : ℝ)) σ = 0 := by
      intro bs
      induction bs with
      | nil => intro σ; rfl
      | cons b bs ih => intro σ; simp [sumBools, ih]
    have hi : (intReals sampleDomain.reals fun _ => (0 : ℝ)) = fun _ => 0 := by
      funext σ
      simp [intReals]
    rw [wmiOf, hi]
    exact hb _ _

/-- EXAMPLE: a domain with a Boolean variable between real variables. -/
def mixedDomain (vs : List String) : Domain := ⟨vs, [("a", .bool), ("x", .real), ("y", .real)], [("x", (some 0, some 1)), ("y", (some 0, some 1))]⟩
/-- EXAMPLE: `(x <= y and x <= 1 - y and a) or (not x <= y and a)` -/
def mixedSupport : Formula :=
  .or [.and [.le (.sym "x" .real) (.sym "y" .real), .le (.sym "x" .real) (.minus (.realC 1) (.sym "y" .real)), exA],
    .and [.not (.le (.sym "x" .real) (.sym "y" .real)), exA]]

/-- C22, finding: when a Boolean variable comes after a real one (as `Domain.make` never does) the engine raises, with and without
reduction: integrating the real variable leaves diagrams that test the Boolean variable twice on a path. -/
theorem xadd_mixed_raises :
    (xaddVolume exPlain ⟨mixedDomain ["x", "a", "y"], mixedSupport, some (.realC 1)⟩ true (newPool exCtx)).1 = .error .assertionError ∧
    (xaddVolume exFull ⟨mixedDomain ["x", "a", "y"], mixedSupport, some (.realC 1)⟩ true (newPool exCtx)).1 = .error .assertionError ∧
    (xaddVolume exFull ⟨mixedDomain ["a", "x", "y"], mixedSupport, some (.realC 1)⟩ true (newPool exCtx)).1 = .ok (3 / 4) := by
  decide +kernel

/-- C19, finding: a power with exponent 0 inside a comparison is replaced by the id of the node of 1, read as a number:
`x^0 <= 3/2` is converted to false. -/
theorem convert_pow_zero_wrong : (convert exCtx true (.le (.pow (.sym "x" .real) (.realC 0)) (.realC (3/2))) (newPool exCtx)).1 =
      .ok (.id (newPool exCtx).zeroId) ∧
    ∀ σ : Env ℝ, truth σ (.le (.pow (.sym "x" .real) (.realC 0)) (.realC (3/2))) = true := by
  refine ⟨by decide +kernel, fun σ => ?_⟩
  simp [truth, value]
  norm_num

/-- C19, finding: a power with a negative exponent is converted to its base. -/
theorem convert_pow_negative_wrong : (convert exCtx false (.pow (.sym "x" .real) (.realC (-1))) (newPool exCtx)).1 =
    (convert exCtx false (.sym "x" .real) (newPool exCtx)).1 := by
  decide +kernel

/-- C19, finding: comparisons of polynomials that are not linear and equations raise. -/
theorem convert_nonlinear_raises :
    (convert exCtx true (.le (.times [.sym "x" .real, .sym "y" .real]) (.realC 3)) (newPool exCtx)).1 = .error .valueError ∧
    (convert exCtx true (.equals (.sym "x" .real) (.sym "y" .real)) (newPool exCtx)).1 = .error .notImplemented := by
  decide +kernel

/-- C22, finding: without a weight the engine raises. -/
theorem xadd_no_weight {E : Type} [DecidableEq E] {X : XCtx E} {ev : E → (String → ℝ) → ℝ} {Γ : String → Ty} (hX : XLaw X ev) {C : RCtx E}
    (hC : C.X = X) {p : Pool E} (hp : Reachable X Γ p) {e : EngineObj} (hw : e.weight = none) (hs : supB e.support = true) :
    (xaddVolume C e false p).1 = .error .attributeError := by
  subst hC
  obtain ⟨n, q, h1, -⟩ := convert_formula_partial hX hp hs
  unfold xaddVolume
  rw [XM.bind_apply]
  have : (XM.lift (xaddSupport e false) : XM E Formula) p = (.ok e.support, p) := rfl
  rw [this]
  simp only
  rw [XM.bind_apply, h1]
  simp only [hw]
  rfl

/-- EXAMPLE: the algebra of sympy: `is_one` raises AttributeError (/repo/pywmi/engines/algebraic_backend.py:149-150 calls
`expression.equal`, which does not exist). -/
def sympyCtx : XCtx Dict := ⟨{ exBack with isOne := fun _ => .error .attributeError }, exSimp, exSolve⟩

/-- C15, finding: with sympy's algebra the negation of a conjunction of two literals raises; that of a literal does not. -/
theorem invert_sympy_raises :
    (convert sympyCtx true (.not (.and [exA, exB])) (newPool sympyCtx)).1 = .error .attributeError ∧
    (convert sympyCtx true (.not exA) (newPool sympyCtx)).1 = .ok (.id 4) := by
  decide +kernel

/-- EXAMPLE: `a and b`, tested in the order b, a, b; node 6. -/
def exTwice : Pool Dict := runOps [.boolTest exA, .boolTest exB, .internal exA 4 1, .internal exB 5 1] (newPool exCtx)

/-- C21, finding: for a diagram that tests a Boolean variable twice on a path (built with `Pool.internal`), summing over the variable
without reduction leaves it in the result: at `a`, `not b` the result is 0, the sum is 1. -/
theorem integrate_bool_unordered_wrong : Reachable exCtx exTypes exTwice ∧ (integrate exPlain 6 "b" .bool exTwice).1 = .ok 5 ∧
    (∀ ρ, ValAt exEv exTwice ⟨fun v => v = "a", ρ⟩ 5 0) ∧
    (∀ ρ, ValAt exEv exTwice (Env.setB ⟨fun v => v = "a", ρ⟩ "b" true) 6 1) ∧
    (∀ ρ, ValAt exEv exTwice (Env.setB ⟨fun v => v = "a", ρ⟩ "b" false) 6 0) := by
  have n6 : exTwice.node 6 = some (.inner ⟨exB, none, true⟩ 5 1) := by decide +kernel
  have n5 : exTwice.node 5 = some (.inner ⟨exA, none, true⟩ 4 1) := by decide +kernel
  have n4 : exTwice.node 4 = some (.inner ⟨exB, none, true⟩ 2 1) := by decide +kernel
  have n2 : exTwice.node 2 = some (.leaf [([], 1)]) := by decide +kernel
  have n1 : exTwice.node 1 = some (.leaf []) := by decide +kernel
  have v0 : ∀ σ, ValAt exEv exTwice σ 1 0 := fun σ => by
    have := ValAt.leaf (ev := exEv) (σ := σ) n1
    simpa [exEv] using this
  have v1 : ∀ σ, ValAt exEv exTwice σ 2 1 := fun σ => by
    have := ValAt.leaf (ev := exEv) (σ := σ) n2
    simpa [exEv, polyEval, monoEval] using this
  refine ⟨?_, by decide +kernel, fun ρ => ?_, fun ρ => ?_, fun ρ => ?_⟩
  · refine .step (.internal exB 5 1) (.step (.internal exA 4 1) (.step (.boolTest exB) (.step (.boolTest exA) .refl ?_) ?_) ?_) ?_
    · exact .sym _
    · exact .sym _
    · exact ⟨.sym _, by decide +kernel, by decide +kernel⟩
    · exact ⟨.sym _, by decide +kernel, by decide +kernel⟩
  · exact .pos n5 (by simp [exA, truth]) (.neg n4 (by simp [exB, truth]) (v0 _))
  · exact .pos n6 (by simp [exB, truth, Env.setB]) (.pos n5 (by simp [exA, truth, Env.setB]) (.pos n4 (by simp [exB, truth, Env.setB]) (v1 _)))
  · exact .neg n6 (by simp [exB, truth, Env.setB]) (v0 _)

/-- EXAMPLE: node 5 tests b and has the leaf x, node 4 tests a. -/
def exDirty : Pool Dict := runOps [.terminal [(["x"], 1)], .boolTest exA, .internal exB 4 3, .invert 5] (newPool exCtx)

theorem exDirty_reachable : Reachable exCtx exTypes exDirty := by
  refine .step (.invert 5) (.step (.internal exB 4 3) (.step (.boolTest exA) (.step (.terminal [(["x"], 1)]) .refl trivial) ?_) ?_) ?_
  · exact .sym _
  · exact ⟨.sym _, by decide +kernel, by decide +kernel⟩
  · show (Pool.node _ 5).isSome = true
    decide +kernel

/-- C53, finding: after an inversion that raised (a leaf is not 0 or 1) walks of the same diagram raise. -/
theorem walk_dirty_example : ¬Fresh exDirty 5 ∧ ∃ e q, bottomUp (pureLeaf fun _ _ => (1 : ℕ)) (pureInner fun _ _ a b => a + b + 1) 5 exDirty = (.error e, q) := by
  have hp := exDirty_reachable
  have hf : ¬Fresh exDirty 5 := by
    intro h
    have : exDirty.profiles.lookup 5 = some ⟨[1, 2, 3, 4, 5], [(1, 1, 0), (2, 1, 0), (3, 1, 0), (4, 1, 0), (5, 0, 0)], 3⟩ := by decide +kernel
    have := (h _ this).1
    cases this
  exact ⟨hf, walk_after_raise exLaw hp (by decide +kernel) hf _ _⟩

end Pywmi
