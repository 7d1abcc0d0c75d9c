import Verif.Xadd.Paths
import Verif.Props.XaddExamples

set_option linter.unusedSectionVars false
set_option linter.unusedSimpArgs false

/-!
# C94: what a reduction removes
-/

namespace Pywmi
open Formula

section
variable {E : Type} [DecidableEq E] {X : XCtx E} {ev : E → (String → ℝ) → ℝ} {Γ : String → Ty}

/-- SPEC: evaluating the diagram at the assignment ends at a leaf with the expression. -/
inductive LeafOf (p : Pool E) (σ : Env ℝ) : ℕ → E → Prop
  | leaf {n : ℕ} {e : E} : p.node n = some (.leaf e) → LeafOf p σ n e
  | pos {n : ℕ} {d : Decision} {t f : ℕ} {e : E} : p.node n = some (.inner d t f) → truth σ d.test = true → LeafOf p σ t e → LeafOf p σ n e
  | neg {n : ℕ} {d : Decision} {t f : ℕ} {e : E} : p.node n = some (.inner d t f) → truth σ d.test = false → LeafOf p σ f e → LeafOf p σ n e

theorem Den.leafOf {p : Pool E} {n : ℕ} {T : XTree E} (h : Den p n T) (σ : Env ℝ) : LeafOf p σ n (T.leafAt (truth σ ·)) := by
  induction h with
  | leaf h => exact .leaf h
  | node h _ _ ih1 ih2 =>
    rename_i n d t f A B hA hB
    cases ht : truth σ d.test with
    | true => exact .pos h ht (by simpa [XTree.leafAt_node, ht] using ih1)
    | false => exact .neg h ht (by simpa [XTree.leafAt_node, ht] using ih2)

/-- A diagram whose leaves are all the same is a leaf. -/
theorem Den.all_same {p : Pool E} (hp : Core X p) {n : ℕ} {T : XTree E} (h : Den p n T) {e : E} (he : ∀ e' ∈ T.leaves, e' = e) : T = .leaf e := by
  induction h with
  | @leaf _ e' h => rw [he e' (by simp [XTree.leaves])]
  | node h hA hB ih1 ih2 =>
    have h1 := ih1 fun e' h' => he e' (by simp [XTree.leaves, h'])
    have h2 := ih2 fun e' h' => he e' (by simp [XTree.leaves, h'])
    subst h1 h2
    cases hA with
    | leaf ha =>
      cases hB with
      | leaf hb => exact absurd (hp.leaf_inj ha hb) (hp.inner h).2.2.1

theorem reduceBy_full (hX : XLaw X ev) (hx : SolveExact X.solve) {p : Pool E} (hp : Reachable X Γ p) {n : ℕ} {T : XTree E} (hT : Den p n T)
    (ho : Ordered p n) {m : RMethod} (hm : m = .smt ∨ m = .fastSmt) :
    ∃ r q T', reduceBy X m n p = (.ok r, q) ∧ Core X q ∧ Ext p q ∧ Den q r T' ∧ RedSpec q.tests [] T T' ∧
      ∀ e ∈ T'.leaves, ∃ σ : Env ℝ, T.leafAt (truth σ ·) = e := by
  have hi := hp.inv hX
  have key : ∀ fast, ∃ r q T', smtReduce X fast n p = (.ok r, q) ∧ Core X q ∧ Ext p q ∧ Den q r T' ∧ RedSpec q.tests [] T T' ∧
      ∀ e ∈ T'.leaves, ∃ σ : Env ℝ, T.leafAt (truth σ ·) = e := by
    intro fast
    obtain ⟨r, q, h1, hq, he, ⟨T', hT', hs⟩, ha⟩ := (smtReduce_full hX.simp hX.solve fast hi.toInv1 hT).returns trivial
    obtain ⟨U, hU, ha⟩ := ha hx (hT.ordered_iff.mp ho)
    rw [hU.unique hT'] at ha
    exact ⟨r, q, T', h1, hq.core, he.toExt, hT', hs, ha⟩
  rcases hm with rfl | rfl
  · exact key false
  · exact key true

/-- C94: with a solver that is right about satisfiable conjunctions too, both modes of reduction, in any pool, leave only
leaves that the diagram had at some assignment. -/
theorem reduce_leaves (hX : XLaw X ev) (hx : SolveExact X.solve) {p : Pool E} (hp : Reachable X Γ p) {n : ℕ} (hn : (p.node n).isSome)
    (ho : Ordered p n) {m : RMethod} (hm : m = .smt ∨ m = .fastSmt) :
    ∃ r q, reduceBy X m n p = (.ok r, q) ∧ ∀ k e, Reach q r k → q.node k = some (.leaf e) → ∃ σ, LeafOf p σ n e := by
  obtain ⟨T, hT⟩ := (hp.inv hX).core.den hn
  obtain ⟨r, q, T', h1, -, -, hT', -, ha⟩ := reduceBy_full hX hx hp hT ho hm
  refine ⟨r, q, h1, fun k e hk he => ?_⟩
  obtain ⟨σ, rfl⟩ := ha e (hT'.reach_leaf hk he)
  exact ⟨σ, hT.leafOf σ⟩

/-- C94: so both modes decide 0/1 diagrams: the result is the node of 0 exactly if the diagram is 0 everywhere, and the node of 1
exactly if it is 1 everywhere. -/
theorem reduce_decides (hX : XLaw X ev) (hx : SolveExact X.solve) {p : Pool E} (hp : Reachable X Γ p) {n : ℕ} (hn : (p.node n).isSome)
    (ho : Ordered p n) (hb : Binary X p n) {m : RMethod} (hm : m = .smt ∨ m = .fastSmt) :
    ∃ r q, reduceBy X m n p = (.ok r, q) ∧ (r = q.zeroId ↔ ∀ σ, ValAt ev p σ n 0) ∧ (r = q.oneId ↔ ∀ σ, ValAt ev p σ n 1) := by
  obtain ⟨T, hT⟩ := (hp.inv hX).core.den hn
  obtain ⟨r, q, T', h1, hq, -, hT', hs, ha⟩ := reduceBy_full hX hx hp hT ho hm
  have hbin := hT.binary_iff.mp hb
  have hz := hX.back.isZero _ hX.back.zeroZero
  have ho' := hX.back.isOne _ hX.back.oneOne
  have tree : ∀ (e : E) (v : ℝ), (∀ ρ, ev e ρ = v) → (∀ e', (e' = X.back.alg.zero ∨ e' = X.back.alg.one) → (∀ ρ, ev e' ρ = v) → e' = e) →
      (T' = .leaf e ↔ ∀ σ, ValAt ev p σ n v) := by
    intro e v hv huniq
    constructor
    · intro h σ
      rw [hT.val_iff, ← hs.eval σ, h]
      exact (hv _).symm
    · intro h
      refine hT'.all_same hq fun e' he' => ?_
      obtain ⟨σ, hσ⟩ := ha e' he'
      have hval := (hT.val_iff (σ := σ)).mp (h σ)
      have hev : ev e' σ.r = v := by rw [hval, XTree.eval, hσ]
      have hmem := hbin e' (hσ ▸ XTree.leafAt_mem _ T)
      refine huniq e' hmem fun ρ => ?_
      rcases hmem with rfl | rfl
      · rw [hz] at hev ⊢; exact hev
      · rw [ho'] at hev ⊢; exact hev
  refine ⟨r, q, h1, ?_, ?_⟩
  · rw [hq.leafZero hT']
    refine tree _ 0 hz fun e' he' h => ?_
    rcases he' with rfl | rfl
    · rfl
    · exact absurd ((h fun _ => 0).symm.trans (ho' _)) zero_ne_one
  · rw [hq.leafOne hT']
    refine tree _ 1 ho' fun e' he' h => ?_
    rcases he' with rfl | rfl
    · exact absurd ((hz _).symm.trans (h fun _ => 0)) zero_ne_one
    · rfl

/-- C94: full reduction of a diagram that was not reduced before in this pool leaves only paths that some assignment follows.
Missing: diagrams that were reduced before, and fast reduction (`reduce_fast_path`, `reduce_full_after_fast`). -/
theorem reduce_paths_partial (hX : XLaw X ev) (hx : SolveExact X.solve) {p : Pool E} (hp : Reachable X Γ p) {n : ℕ} (hn : (p.node n).isSome)
    (ho : Ordered p n) (hc : p.reduceCache.lookup n = none) :
    ∃ r q, reduceBy X .smt n p = (.ok r, q) ∧ Feasible q r := by
  have hi := hp.inv hX
  obtain ⟨T, hT⟩ := hi.core.den hn
  obtain ⟨r, q, h1, -, -, T', hT', -, hf⟩ := (reduceF_follows hX.simp hX.solve hx (n + 1) hi.toInv0 hT (by omega) (hT.ordered_iff.mp ho) [] []
    (fun _ h => by cases h) ⟨⟨fun _ => false, fun _ => 0⟩, by simp⟩).returns trivial
  refine ⟨r.1, { q with reduceCache := (n, r.1) :: q.reduceCache }, ?_, fun π hπ => ?_⟩
  · show smtReduce X false n p = _
    unfold smtReduce
    rw [XM.bind_apply]
    simp only [XM.get, hc]
    rw [XM.bind_apply, h1]
    rfl
  · have hext : Ext q { q with reduceCache := (n, r.1) :: q.reduceCache } := ⟨List.prefix_refl _, List.prefix_refl _, rfl, rfl⟩
    obtain ⟨σ, -, h⟩ := hf π ((hext.den hT').paths hπ)
    exact ⟨σ, h⟩

/-- C94: summing a Boolean variable out of an ordered diagram, with all reductions on, gives a diagram whose leaves are all
taken at some assignment. -/
theorem integrate_bool_leaves (hX : XLaw X ev) (hx : SolveExact X.solve) {C : RCtx E} (hC : C.X = X) (ho : OrdLaw C.ord)
    (hs : C.s0 = true ∧ C.s1 = true ∧ C.s2 = true) {p : Pool E} (hp : Reachable X Γ p) {n : ℕ} (hn : (p.node n).isSome) (hord : Ordered p n)
    {b : String} (hb : Γ b = .bool) :
    ∃ r q, integrate C n b .bool p = (.ok r, q) ∧ ∀ k e, Reach q r k → q.node k = some (.leaf e) → ∃ σ, LeafOf q σ r e := by
  subst hC
  have hi := hp.inv hX
  obtain ⟨T, hT⟩ := hi.core.den hn
  have hR := hX.rlaw rfl ho
  have hm : C.method = .fastSmt := by simp [RCtx.method, hs]
  have run : Run (Inv2 C.X Γ ev) Fr2 (integrate C n b .bool) p True
      (fun r q => ∃ R, Den q r R ∧ ∀ e ∈ R.leaves, ∃ σ : Env ℝ, R.leafAt (truth σ ·) = e) := by
    unfold integrate
    rw [if_pos hs.1]
    refine Run.seq2 (reduce2 hR.simp hR.solve C.method_ne hi hT) id ?_
    rintro n' q1 hq1 h01 ⟨T', hT', r1⟩
    refine Run.seq2 (resolveF_bool hR hb (n' + 1) hq1 hT' (by omega)) id ?_
    rintro r q2 hq2 h12 ⟨R, hRd, hsum⟩
    have ho1 : T.Ord q1.tests := (XTree.Ord.mono h01.tests (hT.tests hi.core)).mpr (hT.ordered_iff.mp hord)
    have ho2 : T'.Ord q2.tests := (XTree.Ord.mono h12.tests (hT'.tests hq1.core)).mpr (r1.ord ho1)
    rw [if_pos hs, hm]
    refine (((smtReduce_full hR.simp hR.solve true hq2.toInv1 hRd).inv1 hq2.toInvP).invI hq2).imp id ?_
    rintro r' q3 - - ⟨⟨R', hR', r2⟩, ha⟩
    obtain ⟨U, hU, ha⟩ := ha hx (hsum ho2).ord
    rw [hU.unique hR'] at ha
    refine ⟨R', hR', fun e he => ?_⟩
    obtain ⟨σ, hσ⟩ := ha e he
    exact ⟨σ, (r2.leaf σ (by simp)).trans hσ⟩
  obtain ⟨r, q, h1, -, -, R, hRd, ha⟩ := run.returns trivial
  refine ⟨r, q, h1, fun k e hk he => ?_⟩
  obtain ⟨σ, hσ⟩ := ha e (hRd.reach_leaf hk he)
  exact ⟨σ, hσ ▸ hRd.leafOf σ⟩

/-- C94: reducing the result again gives the same node, if it was not reduced before either. -/
theorem reduce_again_partial (hX : XLaw X ev) (hx : SolveExact X.solve) {p : Pool E} (hp : Reachable X Γ p) {n : ℕ} (hn : (p.node n).isSome)
    (ho : Ordered p n) (hc : p.reduceCache.lookup n = none) :
    ∃ r q, reduceBy X .smt n p = (.ok r, q) ∧ (p.reduceCache.lookup r = none → (reduceBy X .smt r q).1 = .ok r) := by
  have hi := hp.inv hX
  obtain ⟨T, hT⟩ := hi.core.den hn
  obtain ⟨r, q, h1, hq, hfr, T', hT', -, hf⟩ := (reduceF_follows hX.simp hX.solve hx (n + 1) hi.toInv0 hT (by omega) (hT.ordered_iff.mp ho) [] []
    (fun _ h => by cases h) ⟨⟨fun _ => false, fun _ => 0⟩, by simp⟩).returns trivial
  have hext : Ext q { q with reduceCache := (n, r.1) :: q.reduceCache } := ⟨List.prefix_refl _, List.prefix_refl _, rfl, rfl⟩
  have hcore : Core X { q with reduceCache := (n, r.1) :: q.reduceCache } := hq.core.congr rfl rfl rfl rfl rfl rfl
  refine ⟨r.1, { q with reduceCache := (n, r.1) :: q.reduceCache }, ?_, fun hr => ?_⟩
  · show smtReduce X false n p = _
    unfold smtReduce
    rw [XM.bind_apply]
    simp only [XM.get, hc]
    rw [XM.bind_apply, h1]
    rfl
  · show (smtReduce X false r.1 _).1 = _
    have same := reduceF_same hX.simp hX.solve hcore (r.1 + 1) r.1 (hext.den hT').isSome (by omega) [] []
      (fun π hπ => hf π ((hext.den hT').paths hπ))
    unfold smtReduce
    rw [XM.bind_apply]
    by_cases e : r.1 = n
    · simp [XM.get, List.lookup_cons, e, XM.pure_apply]
    · have hl : ({ q with reduceCache := (n, r.1) :: q.reduceCache } : Pool E).reduceCache.lookup r.1 = none := by
        show ((n, r.1) :: q.reduceCache).lookup r.1 = none
        rw [List.lookup_cons, hfr.reduceC, beq_eq_false_iff_ne.mpr e]
        exact hr
      simp only [XM.get, hl]
      rw [XM.bind_apply, same]
      rfl

end

/-! ### Concrete cases -/

/-- EXAMPLE: the canonical test of `x <= 0`. -/
def exNeg : Formula := .lt (.sym "x" .real) (.realC 0)
/-- EXAMPLE: the canonical test of `x > 2`. -/
def exTwo : Formula := .lt (.times [.sym "x" .real, .realC (-1/2)]) (.realC (-1))
/-- EXAMPLE: some answers of a solver. -/
def exAnswers : List (List Formula × Bool) :=
  [([exTwo], true), ([mkNot exTwo], true), ([exNeg], true), ([mkNot exNeg], true), ([exTwo, exNeg], false)]

open Classical in
/-- EXAMPLE: a solver that is always right. -/
noncomputable def rightSolve (fs : List Formula) : Bool :=
  match exAnswers.lookup fs with
  | some b => b
  | none => decide (∃ σ : Env ℝ, ∀ f ∈ fs, truth σ f = true)

theorem truth_exNeg (σ : Env ℝ) : truth σ exNeg = decide (σ.r "x" < 0) := by
  simp [exNeg, truth, value]
theorem truth_exTwo (σ : Env ℝ) : truth σ exTwo = decide (2 < σ.r "x") := by
  have h : value σ (.times [.sym "x" .real, .realC (-1/2)]) < value σ (.realC (-1)) ↔ 2 < σ.r "x" := by
    simp only [value, valueProd]
    push_cast
    constructor <;> intro h <;> linarith
  rw [Bool.eq_iff_iff, decide_eq_true_eq, ← h, exTwo, truth, decide_eq_true_eq]

theorem rightSolve_iff (fs : List Formula) : rightSolve fs = true ↔ ∃ σ : Env ℝ, ∀ f ∈ fs, truth σ f = true := by
  unfold rightSolve
  split
  · rename_i b h
    have hm : (fs, b) ∈ exAnswers := by
      simp only [exAnswers, List.lookup_cons, List.lookup_nil] at h
      simp only [exAnswers, List.mem_cons, Prod.mk.injEq, List.not_mem_nil, or_false]
      repeat' split at h
      all_goals simp_all
    simp only [exAnswers, List.mem_cons, Prod.mk.injEq, List.not_mem_nil, or_false] at hm
    rcases hm with ⟨rfl, rfl⟩ | ⟨rfl, rfl⟩ | ⟨rfl, rfl⟩ | ⟨rfl, rfl⟩ | ⟨rfl, rfl⟩
    · exact iff_of_true rfl ⟨⟨fun _ => true, fun _ => 3⟩, by simp [truth_exTwo]; norm_num⟩
    · exact iff_of_true rfl ⟨⟨fun _ => true, fun _ => 0⟩, by simp [truth_mkNot, truth_exTwo]⟩
    · exact iff_of_true rfl ⟨⟨fun _ => true, fun _ => -1⟩, by simp [truth_exNeg]⟩
    · exact iff_of_true rfl ⟨⟨fun _ => true, fun _ => 0⟩, by simp [truth_mkNot, truth_exNeg]⟩
    · refine iff_of_false (by simp) ?_
      rintro ⟨σ, h⟩
      have h1 := h exTwo (by simp)
      have h2 := h exNeg (by simp)
      simp only [truth_exTwo, truth_exNeg, decide_eq_true_eq] at h1 h2
      linarith
  · simp

/-- EXAMPLE: surroundings of a pool with a solver that is always right. -/
noncomputable def rightCtx : XCtx Dict := ⟨exBack, exSimp, rightSolve⟩

theorem rightLaw : XLaw rightCtx exEv := by
  refine ⟨exSimp_law, fun fs h σ hσ => ?_, exBack_law⟩
  have h1 := (rightSolve_iff fs).mpr ⟨σ, hσ⟩
  have h2 : rightSolve fs = false := h
  rw [h1] at h2
  cases h2
theorem rightExact : SolveExact rightCtx.solve := fun fs h => (rightSolve_iff fs).mp h

/-- EXAMPLE: a pool in which node 5 is `x <= 2`, node 6 is `x <= 0 and x <= 2` and node 7 is `if b then` node 5 `else` node 6. -/
noncomputable def redPool : Pool Dict :=
  [PoolOp.boolTest exB, .boolTest (.le (.sym "x" .real) (.realC 0)), .boolTest (.le (.sym "x" .real) (.realC 2)),
    .internal (.le (.sym "x" .real) (.realC 0)) 5 1, .internal exB 5 6].foldl (fun p o => o.exec rightCtx p) (newPool rightCtx)

theorem redPool_nodes : redPool.node 1 = some (.leaf []) ∧ redPool.node 2 = some (.leaf [([], 1)]) ∧
    (∃ q c, redPool.node 5 = some (.inner ⟨exTwo, q, c⟩ 1 2)) ∧ (∃ q c, redPool.node 6 = some (.inner ⟨exNeg, q, c⟩ 5 1)) ∧
    redPool.node 7 = some (.inner ⟨exB, none, true⟩ 5 6) ∧ redPool.tests = [exB, exNeg, exTwo] ∧ redPool.reduceCache = [] := by
  refine ⟨by decide +kernel, by decide +kernel, ⟨some [(["x"], -1/2), ([], 1)], true, by decide +kernel⟩,
    ⟨some [(["x"], 1)], true, by decide +kernel⟩, by decide +kernel, by decide +kernel, by decide +kernel⟩

theorem redPool_reachable : Reachable rightCtx exTypes redPool := by
  refine .step (.internal exB 5 6) (.step (.internal (.le (.sym "x" .real) (.realC 0)) 5 1) (.step (.boolTest (.le (.sym "x" .real) (.realC 2)))
    (.step (.boolTest (.le (.sym "x" .real) (.realC 0))) (.step (.boolTest exB) .refl ?_) ?_) ?_) ?_) ?_
  · exact .sym "b"
  · exact .le rfl rfl
  · exact .le rfl rfl
  · exact ⟨.le rfl rfl, by decide +kernel, by decide +kernel⟩
  · exact ⟨.sym "b", by decide +kernel, by decide +kernel⟩

theorem redPool_shape : Ordered redPool 7 ∧ Binary rightCtx redPool 7 := by
  obtain ⟨h1, h2, ⟨q5, c5, h5⟩, ⟨q6, c6, h6⟩, h7, ht, -⟩ := redPool_nodes
  have d5 := Den.node h5 (.leaf h1) (.leaf h2)
  have d7 := Den.node h7 d5 (.node h6 d5 (.leaf h1))
  refine ⟨d7.ordered_iff.mpr ?_, d7.binary_iff.mpr ?_⟩
  · rw [ht]
    have e1 : [exB, exNeg, exTwo].idxOf exB = 0 := by decide +kernel
    have e2 : [exB, exNeg, exTwo].idxOf exNeg = 1 := by decide +kernel
    have e3 : [exB, exNeg, exTwo].idxOf exTwo = 2 := by decide +kernel
    refine ⟨fun g hg => ?_, ⟨fun g hg => ?_, trivial, trivial⟩, fun g hg => ?_, ⟨fun g hg => ?_, trivial, trivial⟩, trivial⟩
    all_goals
      simp only [XTree.tests, List.mem_cons, List.mem_append, List.not_mem_nil, or_false, or_self, false_or] at hg
      try rcases hg with rfl | rfl | rfl
      all_goals simp [e1, e2, e3]
  · intro e he
    simp only [XTree.leaves, List.mem_append, List.mem_singleton] at he
    rcases he with (rfl | rfl) | (rfl | rfl) | rfl <;> first | exact Or.inl rfl | exact Or.inr rfl

/-- A case of the theorems: node 7 is neither 0 everywhere nor 1 everywhere, full reduction keeps only paths that are followed. -/
example : ∃ r q, reduceBy rightCtx .smt 7 redPool = (.ok r, q) ∧ Feasible q r :=
  reduce_paths_partial rightLaw rightExact redPool_reachable (by rw [redPool_nodes.2.2.2.2.1]; rfl) redPool_shape.1
    (by rw [redPool_nodes.2.2.2.2.2.2]; rfl)
example : ∃ r q, reduceBy rightCtx .fastSmt 7 redPool = (.ok r, q) ∧ (r = q.zeroId ↔ ∀ σ, ValAt exEv redPool σ 7 0) ∧
    (r = q.oneId ↔ ∀ σ, ValAt exEv redPool σ 7 1) :=
  reduce_decides rightLaw rightExact redPool_reachable (by rw [redPool_nodes.2.2.2.2.1]; rfl) redPool_shape.1 redPool_shape.2 (Or.inr rfl)
example : ∃ r q, reduceBy rightCtx .fastSmt 7 redPool = (.ok r, q) ∧ ∀ k e, Reach q r k → q.node k = some (.leaf e) → ∃ σ, LeafOf redPool σ 7 e :=
  reduce_leaves rightLaw rightExact redPool_reachable (by rw [redPool_nodes.2.2.2.2.1]; rfl) redPool_shape.1 (Or.inr rfl)

example : ∃ r q, integrate ⟨rightCtx, id, true, true, true, true⟩ 7 "b" .bool redPool = (.ok r, q) ∧
    ∀ k e, Reach q r k → q.node k = some (.leaf e) → ∃ σ, LeafOf q σ r e :=
  integrate_bool_leaves rightLaw rightExact rfl id_ordLaw ⟨rfl, rfl, rfl⟩ redPool_reachable (by rw [redPool_nodes.2.2.2.2.1]; rfl)
    redPool_shape.1 rfl

example : ∃ r q, reduceBy rightCtx .smt 7 redPool = (.ok r, q) ∧ (redPool.reduceCache.lookup r = none → (reduceBy rightCtx .smt r q).1 = .ok r) :=
  reduce_again_partial rightLaw rightExact redPool_reachable (by rw [redPool_nodes.2.2.2.2.1]; rfl) redPool_shape.1
    (by rw [redPool_nodes.2.2.2.2.2.2]; rfl)

theorem redPool_path {q : Pool Dict} (h5 : ∃ i c, q.node 5 = some (.inner ⟨exTwo, i, c⟩ 1 2)) (h6 : ∃ i c, q.node 6 = some (.inner ⟨exNeg, i, c⟩ 5 1))
    (h7 : q.node 7 = some (.inner ⟨exB, none, true⟩ 5 6)) : ¬Feasible q 7 := by
  obtain ⟨i5, c5, h5⟩ := h5
  obtain ⟨i6, c6, h6⟩ := h6
  intro h
  obtain ⟨σ, hσ⟩ := h _ (.no h7 (.yes h6 (.yes h5 .stop)))
  have k1 := hσ (exNeg, true) (by simp)
  have k2 := hσ (exTwo, true) (by simp)
  simp only [truth_exNeg, truth_exTwo, decide_eq_true_eq] at k1 k2
  linarith

/-- C94: the default, fast reduction, leaves paths that no assignment follows, although the solver is always right: nodes that were
reduced on one path are kept on other paths. -/
theorem reduce_fast_path : XLaw rightCtx exEv ∧ SolveExact rightCtx.solve ∧ Reachable rightCtx exTypes redPool ∧ Ordered redPool 7 ∧
    redPool.reduceCache.lookup 7 = none ∧
    (reduceBy rightCtx .fastSmt 7 redPool).1 = .ok 7 ∧ ¬Feasible (reduceBy rightCtx .fastSmt 7 redPool).2 7 := by
  refine ⟨rightLaw, rightExact, redPool_reachable, redPool_shape.1, by decide +kernel, by decide +kernel, redPool_path ?_ ?_ ?_⟩
  · exact ⟨some [(["x"], -1/2), ([], 1)], true, by decide +kernel⟩
  · exact ⟨some [(["x"], 1)], true, by decide +kernel⟩
  · decide +kernel

/-- C94: full reduction after a fast reduction of the same diagram in the same pool returns the result of the fast one; without
the fast one it returns another node. -/
theorem reduce_full_after_fast :
    let p := (reduceBy rightCtx .fastSmt 7 redPool).2
    Reachable rightCtx exTypes p ∧ (reduceBy rightCtx .smt 7 p).1 = .ok 7 ∧ ¬Feasible (reduceBy rightCtx .smt 7 p).2 7 ∧
    (reduceBy rightCtx .smt 7 redPool).1 ≠ .ok 7 := by
  refine ⟨.step (.reduce .fastSmt 7) redPool_reachable (by rw [PoolOp.Legal, redPool_nodes.2.2.2.2.1]; rfl), by decide +kernel,
    redPool_path ?_ ?_ ?_, by decide +kernel⟩
  · exact ⟨some [(["x"], -1/2), ([], 1)], true, by decide +kernel⟩
  · exact ⟨some [(["x"], 1)], true, by decide +kernel⟩
  · decide +kernel

end Pywmi
