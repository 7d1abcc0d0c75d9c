import Verif.Xadd.Value

set_option linter.unusedSectionVars false
set_option linter.unusedSimpArgs false

/-!
# C13–C22: pools of decision diagrams and the pyxadd engine

`Reachable X Γ p` says that the pool `p` comes from a new pool by any finite history of calls, including calls that raise.
`ValAt ev p σ n v` says that `v` is the value of node `n` at the assignment `σ`.
-/

namespace Pywmi
open Formula MeasureTheory Set

section
variable {E : Type} [DecidableEq E] {X : XCtx E} {ev : E → (String → ℝ) → ℝ} {Γ : String → Ty}

/-! ### C13 -/

/-- SPEC: ids are unique, children have smaller ids and are different. -/
structure PoolOk (p : Pool E) : Prop where
  acyclic : ∀ n d t f, p.node n = some (.inner d t f) → t < n ∧ f < n ∧ (p.node t).isSome ∧ (p.node f).isSome
  reduced : ∀ n d t f, p.node n = some (.inner d t f) → t ≠ f
  leaves : ∀ n m e, p.node n = some (.leaf e) → p.node m = some (.leaf e) → n = m
  inners : ∀ n m d d' t f, p.node n = some (.inner d t f) → p.node m = some (.inner d' t f) → d.test = d'.test → n = m

theorem Core.poolOk {p : Pool E} (h : Core X p) : PoolOk p :=
  ⟨fun _ _ _ _ hn => ⟨(h.inner hn).1, (h.inner hn).2.1, (h.inner hn).2.2.2.1, (h.inner hn).2.2.2.2.1⟩, fun _ _ _ _ hn => (h.inner hn).2.2.1,
    fun _ _ _ hn hm => h.leaf_inj hn hm, fun _ _ _ _ _ _ hn hm hd => h.inner_inj hn hm hd⟩

/-- C13: over every history, ids keep their nodes and the pool stays well-formed. -/
theorem pool_history (hX : XLaw X ev) {p q : Pool E} (hp : Reachable X Γ p) (hq : Hist X Γ p q) :
    PoolOk p ∧ PoolOk q ∧ ∀ n x, p.node n = some x → q.node n = some x := by
  have hi := hp.inv hX
  obtain ⟨hj, he⟩ := hq.keeps hX hi
  exact ⟨hi.core.poolOk, hj.core.poolOk, fun n x hn => he.node hn⟩

/-- C13: asking for the same expression again, after any history, gives the same id. -/
theorem terminal_again (hX : XLaw X ev) {p q : Pool E} (hp : Reachable X Γ p) (e : E) (hq : Hist X Γ ((terminal e p).2) q) :
    ∃ n, (terminal e p).1 = .ok n ∧ terminal e q = (.ok n, q) := by
  have hi := hp.inv hX
  obtain ⟨n, p', h1, h2, -, h3⟩ := ((terminal_run hi.core e).core2 hi).returns trivial
  rw [h1] at hq
  obtain ⟨hj, he⟩ := hq.keeps hX h2
  refine ⟨n, by rw [h1], ?_⟩
  have := (hj.core.exprs e n).mpr (he.node h3)
  simp only [terminal, this]

/-! ### C14, C16: apply -/

theorem opR_bits {op : XOp} {a b : ℝ} : opR op a b = match op with | .mul => a * b | .add => a + b | .or => max a b | .and => min a b := by
  cases op <;> rfl

/-- C14: `apply` returns and computes the operation at every assignment; disjunction and conjunction on 0/1 diagrams. -/
theorem apply_pointwise (hX : XLaw X ev) {p : Pool E} (hp : Reachable X Γ p) {op : XOp} {a b : ℕ} (ha : (p.node a).isSome) (hb : (p.node b).isSome)
    (hbin : op = .or ∨ op = .and → Binary X p a ∧ Binary X p b) :
    ∃ r q, apply X op a b p = (.ok r, q) ∧ ∀ σ va vb, ValAt ev p σ a va → ValAt ev p σ b vb → ValAt ev q σ r (opR op va vb) := by
  have hi := hp.inv hX
  obtain ⟨A, hA⟩ := hi.core.den ha
  obtain ⟨B, hB⟩ := hi.core.den hb
  have hbin' : op = .or ∨ op = .and → Bin X A ∧ Bin X B := fun h => ⟨hA.binary_iff.mp (hbin h).1, hB.binary_iff.mp (hbin h).2⟩
  obtain ⟨r, q, h1, -, -, T, hT, hs⟩ := (apply_run hX.simp op hi.toInv0 hA hB).returns hbin'
  refine ⟨r, q, h1, fun σ va vb h2 h3 => ?_⟩
  rw [hA.val_iff] at h2
  rw [hB.val_iff] at h3
  rw [hT.val_iff, h2, h3]
  unfold XTree.eval
  rw [hs.leaf]
  refine (opE_eval hX.back op _ _ (fun h => ?_) σ.r).symm
  exact ⟨(hbin' h).1 _ (XTree.leafAt_mem _ _), (hbin' h).2 _ (XTree.leafAt_mem _ _)⟩

/-- C14, C16: results on 0/1 diagrams are 0/1 diagrams, results on ordered diagrams are ordered. -/
theorem apply_shape (hX : XLaw X ev) {p q : Pool E} (hp : Reachable X Γ p) {op : XOp} {a b r : ℕ} (ha : (p.node a).isSome) (hb : (p.node b).isSome)
    (hr : apply X op a b p = (.ok r, q)) :
    (op ≠ .add → Binary X p a → Binary X p b → Binary X q r) ∧ (Ordered p a → Ordered p b → Ordered q r) := by
  have hi := hp.inv hX
  obtain ⟨A, hA⟩ := hi.core.den ha
  obtain ⟨B, hB⟩ := hi.core.den hb
  obtain ⟨-, h2, h3, -⟩ := apply_run hX.simp op hi.toInv0 hA hB
  rw [hr] at h2 h3
  obtain ⟨T, hT, hs⟩ := h3 r rfl
  refine ⟨fun ho h4 h5 => ?_, fun h4 h5 => ?_⟩
  · rw [hT.binary_iff]
    exact hs.bin ho (hA.binary_iff.mp h4) (hB.binary_iff.mp h5)
  · rw [hT.ordered_iff]
    exact hs.ord ((XTree.Ord.mono h2.tests (hA.tests hi.core)).mpr (hA.ordered_iff.mp h4))
      ((XTree.Ord.mono h2.tests (hB.tests hi.core)).mpr (hB.ordered_iff.mp h5))

/-! ### C15, C16: invert -/

/-- C15: on 0/1 diagrams `invert` returns and computes one minus the value, for every algebra with the laws.  The result is a 0/1
diagram and ordered, whether or not the operand is ordered. -/
theorem invert_partial (hX : XLaw X ev) {p : Pool E} (hp : Reachable X Γ p) {n : ℕ} (hn : (p.node n).isSome) (hbin : Binary X p n) :
    ∃ r q, invert X n p = (.ok r, q) ∧ (∀ σ v, ValAt ev p σ n v → ValAt ev q σ r (1 - v)) ∧
      Ordered q r ∧ Binary X q r := by
  have hi := hp.inv hX
  obtain ⟨T, hT⟩ := hi.core.den hn
  obtain ⟨r, q, h1, hq, he, T', hT', hs⟩ := (invert_run hX.simp hX.back hi.toInvP hT).returns (hT.binary_iff.mp hbin)
  refine ⟨r, q, h1, fun σ v hv => ?_, hT'.ordered_iff.mpr (hs.ord trivial), hT'.binary_iff.mpr (InvSpec.bin hs (hT.binary_iff.mp hbin))⟩
  rw [hT.val_iff] at hv
  rw [hT'.val_iff, hv]
  exact (InvSpec.val hs _ _).symm

/-! ### C18: reduce -/

/-- C18: both modes of reduction return a diagram with the same value everywhere, for every sound solver. -/
theorem reduce_same (hX : XLaw X ev) {p : Pool E} (hp : Reachable X Γ p) {n : ℕ} (hn : (p.node n).isSome) {m : RMethod} (hm : m = .smt ∨ m = .fastSmt) :
    ∃ r q, reduceBy X m n p = (.ok r, q) ∧ (∀ σ v, ValAt ev p σ n v → ValAt ev q σ r v) ∧ (Ordered p n → Ordered q r) ∧
      (Binary X p n → Binary X q r) := by
  have hi := hp.inv hX
  obtain ⟨T, hT⟩ := hi.core.den hn
  obtain ⟨r, q, h1, hq, he, T', hT', hs⟩ := (reduceBy_run hX.simp hX.solve m hi.toInv1 hT).returns (by rcases hm with rfl | rfl <;> simp)
  refine ⟨r, q, h1, fun σ v hv => ?_, fun ho => ?_, fun hb => ?_⟩
  · rw [hT.val_iff] at hv
    rw [hT'.val_iff, hv, hs.eval]
  · exact hT'.ordered_iff.mpr (hs.ord ((XTree.Ord.mono he.tests (hT.tests hi.core)).mpr (hT.ordered_iff.mp ho)))
  · exact hT'.binary_iff.mpr fun e h => (hT.binary_iff.mp hb) e (hs.leaves e h)

/-! ### C19: conversion -/

/-- C19: the diagram of a supported formula is 1 or 0 as the formula is true or false, wherever no comparison has equal sides. -/
theorem convert_formula_partial (hX : XLaw X ev) {p : Pool E} (hp : Reachable X Γ p) {f : Formula} (hf : supB f = true) :
    ∃ n q, convert X true f p = (.ok (.id n), q) ∧ Ordered q n ∧ Binary X q n ∧
      ∀ σ, OffBoundary σ f → ValAt ev q σ n (if truth σ f then 1 else 0) := by
  have hi := hp.inv hX
  obtain ⟨r, q, h1, hq, he, hw, -, -⟩ := (convert_run hX.simp hX.back hi (m := true) (f := f) (Or.inl ⟨rfl, Or.inl hf⟩)).returns trivial
  obtain ⟨n, rfl, T, hT, hb⟩ := hw rfl hf
  refine ⟨n, q, h1, hT.ordered_iff.mpr hb.ord, hT.binary_iff.mpr hb.bin, fun σ hσ => ?_⟩
  rw [hT.val_iff, (hb.wtree hX.back).val, readF_clear f hf]
  intro a ha
  obtain ⟨⟨l, r, hlr, -, -⟩, -⟩ := litOk_atoms f (supB_litOk f hf) a ha
  have := hσ a ha
  rcases hlr with rfl | rfl
  · exact Or.inl this
  · exact this

/-- C19: the diagram of a supported weight has the weight's value wherever no comparison has equal sides. -/
theorem convert_weight_partial (hX : XLaw X ev) {p : Pool E} (hp : Reachable X Γ p) {f : Formula} (hf : supW f = true) :
    ∃ n q, convert X false f p = (.ok (.id n), q) ∧ Ordered q n ∧ ∀ σ, OffBoundary σ f → ValAt ev q σ n (value σ f) := by
  have hi := hp.inv hX
  obtain ⟨r, q, h1, hq, he, -, -, hw⟩ := (convert_run hX.simp hX.back hi (m := false) (f := f) (Or.inr ⟨rfl, hf⟩)).returns trivial
  obtain ⟨n, rfl, T, hT, hb⟩ := hw rfl hf
  refine ⟨n, q, h1, hT.ordered_iff.mpr hb.ord, fun σ hσ => ?_⟩
  rw [hT.val_iff, hb.val, readV_clear f hf]
  intro a ha
  obtain ⟨⟨l, r, hlr, -, -⟩, -⟩ := supW_atoms f hf a ha
  have := hσ a ha
  rcases hlr with rfl | rfl
  · exact Or.inl this
  · exact this

/-! ### C20, C21: elimination of one variable -/

/-- SPEC: the function of a node. -/
def IsFun (ev : E → (String → ℝ) → ℝ) (p : Pool E) (n : ℕ) (φ : Env ℝ → ℝ) : Prop := ∀ σ, ValAt ev p σ n (φ σ)

theorem ValAt.isSome {p : Pool E} {σ : Env ℝ} {n : ℕ} {v : ℝ} (h : ValAt ev p σ n v) : (p.node n).isSome := by
  cases h with
  | leaf h => rw [h]; rfl
  | pos h _ _ => rw [h]; rfl
  | neg h _ _ => rw [h]; rfl

theorem IsFun.isSome {p : Pool E} {n : ℕ} {φ : Env ℝ → ℝ} (h : IsFun ev p n φ) : (p.node n).isSome := (h ⟨fun _ => false, fun _ => 0⟩).isSome

theorem Den.isFun {p : Pool E} {n : ℕ} {T : XTree E} (h : Den p n T) {φ : Env ℝ → ℝ} : IsFun ev p n φ ↔ φ = T.eval ev :=
  ⟨fun hf => funext fun σ => h.val_iff.mp (hf σ), fun hf σ => h.val_iff.mpr (congrFun hf σ)⟩

/-- Every node has a function. -/
theorem reachable_fun (hX : XLaw X ev) {p : Pool E} (hp : Reachable X Γ p) {n : ℕ} (hn : (p.node n).isSome) : ∃ φ, IsFun ev p n φ := by
  obtain ⟨T, hT⟩ := (hp.inv hX).core.den hn
  exact ⟨_, hT.isFun.mpr rfl⟩

/-- SPEC: no test of the diagram mentions the variable. -/
def TestFree (p : Pool E) (n : ℕ) (v : String × Ty) : Prop := ∀ m d t f, Reach p n m → p.node m = some (.inner d t f) → v ∉ syms d.test

theorem setR_setR (σ : Env ℝ) (x : String) (s t : ℝ) : (σ.setR x s).setR x t = σ.setR x t := by
  simp only [Env.setR, Env.mk.injEq, true_and]
  funext y
  by_cases h : y = x <;> simp [h]

/-- C20: `integrate` over a real variable returns a diagram without the variable whose value is the integral, wherever the
diagram vanishes outside a bounded range of the variable. -/
theorem integrate_real_exact (hX : XLaw X ev) {C : RCtx E} (hC : C.X = X) (ho : OrdLaw C.ord) {p : Pool E} (hp : Reachable X Γ p) {n : ℕ}
    {φ : Env ℝ → ℝ} (hφ : IsFun ev p n φ) {x : String} (hx : Γ x = .real) :
    ∃ r q ψ, integrate C n x .real p = (.ok r, q) ∧ IsFun ev q r ψ ∧ TestFree q r (x, .real) ∧
      ∀ σ, (∃ K, ∀ t, K < |t| → φ (σ.setR x t) = 0) → Integrable (fun t => φ (σ.setR x t)) ∧ ψ σ = ∫ t, φ (σ.setR x t) := by
  subst hC
  have hi := hp.inv hX
  have hn := hφ.isSome
  obtain ⟨T, hT⟩ := hi.core.den hn
  rw [hT.isFun] at hφ
  subst hφ
  obtain ⟨r, q, h1, hq, he, R, hRd, hs⟩ := (integrate_real (hX.rlaw rfl ho) hx hi hT).returns trivial
  refine ⟨r, q, R.eval ev, h1, hRd.isFun.mpr rfl, fun m d t f hm hd hv => ?_, fun σ ⟨K, hK⟩ => ?_⟩
  · exact (hs.syms d.test ((hRd.test_reach _).mpr ⟨m, d, t, f, hm, hd, rfl⟩) _ hv).1 rfl
  · have hv : Vanish (T.slice ev σ x) univ := ⟨K, fun t _ h => hK t h⟩
    refine ⟨?_, ?_⟩
    · have := XTree.slice_integrable hX.back (XTree.AllDec.imp (fun _ h => h.1) (hT.decs hi.core)) MeasurableSet.univ hv
      rwa [integrableOn_univ] at this
    · rw [hs.val σ (by simp) (by rw [region_none]; exact hv), region_none, setIntegral_univ]
      rfl

/-- C20: the result does not depend on the variable. -/
theorem integrate_real_free {φ ψ : Env ℝ → ℝ} {x : String}
    (h : ∀ σ : Env ℝ, (∃ K, ∀ t, K < |t| → φ (σ.setR x t) = 0) → Integrable (fun t => φ (σ.setR x t)) ∧ ψ σ = ∫ t, φ (σ.setR x t)) {σ : Env ℝ}
    (hσ : ∃ K, ∀ t, K < |t| → φ (σ.setR x t) = 0) (s : ℝ) : ψ (σ.setR x s) = ψ σ := by
  rw [(h σ hσ).2, (h (σ.setR x s) (by simpa only [setR_setR] using hσ)).2]
  simp only [setR_setR]

/-- C21: `integrate` over a Boolean variable returns the sum of the two cases, for ordered diagrams. -/
theorem integrate_bool_partial (hX : XLaw X ev) {C : RCtx E} (hC : C.X = X) (ho : OrdLaw C.ord) {p : Pool E} (hp : Reachable X Γ p) {n : ℕ}
    {φ : Env ℝ → ℝ} (hφ : IsFun ev p n φ) (hord : Ordered p n) {b : String} (hb : Γ b = .bool) :
    ∃ r q, integrate C n b .bool p = (.ok r, q) ∧ IsFun ev q r (fun σ => φ (σ.setB b true) + φ (σ.setB b false)) ∧ Ordered q r ∧
      TestFree q r (b, .bool) := by
  subst hC
  have hi := hp.inv hX
  have hn := hφ.isSome
  obtain ⟨T, hT⟩ := hi.core.den hn
  rw [hT.isFun] at hφ
  subst hφ
  obtain ⟨r, q, h1, hq, he, R, hRd, hs⟩ := (integrate_bool (hX.rlaw rfl ho) hb hi hT).returns trivial
  have hs := hs ((XTree.Ord.mono he.tests (hT.tests hi.core)).mpr (hT.ordered_iff.mp hord))
  refine ⟨r, q, h1, hRd.isFun.mpr (funext fun σ => (hs.val σ).symm), hRd.ordered_iff.mpr hs.ord, fun m d t f hm hd hv => ?_⟩
  have h2 := hs.tests d.test ((hRd.test_reach _).mpr ⟨m, d, t, f, hm, hd, rfl⟩)
  have h3 := (hq.core.inner hd).2.2.2.2.2.1
  exact h2.2 ((h3.bool_iff b).mp hv)

/-! ### C22: the engine -/

/-- C22: the volume of the engine is the weighted model integral, whatever happened to its pool before. -/
theorem xadd_volume_partial (hX : XLaw X ev) {C : RCtx E} (hC : C.X = X) (ho : OrdLaw C.ord) {p : Pool E} (hp : Reachable X Γ p) {e : EngineObj}
    {w : Formula} (hw : e.weight = some w) (hP : Problem e.domain e.support w)
    (hΓ : ∀ v ∈ e.domain.vars, e.domain.varTypes.lookup v = some (Γ v)) (hord : e.domain.vars = e.domain.bools ++ e.domain.reals)
    {ab : Bool} (hc : e.domain.confined ab (density e.support w)) (hs : supB e.support = true) (hsw : supW w = true)
    (hg : Generic e.support) (hgw : Generic w) :
    ∃ v q, xaddVolume C e ab p = (.ok v, q) ∧ (v : ℝ) = e.domain.volumeOf ab (density e.support w) := by
  subst hC
  obtain ⟨v, q, h1, -, -, h2⟩ := (xaddVolume_run (hX.rlaw rfl ho) (hp.inv hX) hw hP hΓ hord hc hs hsw hg hgw).returns trivial
  exact ⟨v, q, h1, h2⟩

/-! ### C17: the history does not matter -/

/-- C17: `apply` on nodes with the same functions gives the same function in any two pools. -/
theorem apply_history (hX : XLaw X ev) {p p' : Pool E} (hp : Reachable X Γ p) (hp' : Reachable X Γ p') {op : XOp}
    {a b a' b' : ℕ} {φ ψ : Env ℝ → ℝ} (ha : IsFun ev p a φ) (hb : IsFun ev p b ψ) (ha' : IsFun ev p' a' φ) (hb' : IsFun ev p' b' ψ)
    (hbin : op = .or ∨ op = .and → Binary X p a ∧ Binary X p b) (hbin' : op = .or ∨ op = .and → Binary X p' a' ∧ Binary X p' b') :
    ∃ r q r' q' χ, apply X op a b p = (.ok r, q) ∧ apply X op a' b' p' = (.ok r', q') ∧ IsFun ev q r χ ∧ IsFun ev q' r' χ := by
  obtain ⟨r, q, h1, h2⟩ := apply_pointwise hX hp (op := op) ha.isSome hb.isSome hbin
  obtain ⟨r', q', h1', h2'⟩ := apply_pointwise hX hp' (op := op) ha'.isSome hb'.isSome hbin'
  exact ⟨r, q, r', q', fun σ => opR op (φ σ) (ψ σ), h1, h1', fun σ => h2 σ _ _ (ha σ) (hb σ), fun σ => h2' σ _ _ (ha' σ) (hb' σ)⟩

/-- C17: `reduce` keeps the function in any pool. -/
theorem reduce_history (hX : XLaw X ev) {p p' : Pool E} (hp : Reachable X Γ p) (hp' : Reachable X Γ p') {n n' : ℕ} (hn : (p.node n).isSome)
    (hn' : (p'.node n').isSome) {m : RMethod} (hm : m = .smt ∨ m = .fastSmt) {φ : Env ℝ → ℝ} (hf : IsFun ev p n φ) (hf' : IsFun ev p' n' φ) :
    ∃ r q r' q', reduceBy X m n p = (.ok r, q) ∧ reduceBy X m n' p' = (.ok r', q') ∧ IsFun ev q r φ ∧ IsFun ev q' r' φ := by
  obtain ⟨r, q, h1, h2, -⟩ := reduce_same hX hp hn hm
  obtain ⟨r', q', h1', h2', -⟩ := reduce_same hX hp' hn' hm
  exact ⟨r, q, r', q', h1, h1', fun σ => h2 σ _ (hf σ), fun σ => h2' σ _ (hf' σ)⟩

/-- C17: the integral over a real variable is the same in any two pools and with any two reduction strategies. -/
theorem integrate_history (hX : XLaw X ev) {C C' : RCtx E} (hC : C.X = X) (hC' : C'.X = X) (ho : OrdLaw C.ord) (ho' : OrdLaw C'.ord) {p p' : Pool E}
    (hp : Reachable X Γ p) (hp' : Reachable X Γ p') {n n' : ℕ} {φ : Env ℝ → ℝ} (hf : IsFun ev p n φ) (hf' : IsFun ev p' n' φ) {x : String}
    (hx : Γ x = .real) :
    ∃ r q r' q' ψ ψ', integrate C n x .real p = (.ok r, q) ∧ integrate C' n' x .real p' = (.ok r', q') ∧ IsFun ev q r ψ ∧ IsFun ev q' r' ψ' ∧
      ∀ σ, (∃ K, ∀ t, K < |t| → φ (σ.setR x t) = 0) → ψ σ = ψ' σ := by
  obtain ⟨r, q, ψ, h1, h2, -, h3⟩ := integrate_real_exact hX hC ho hp hf hx
  obtain ⟨r', q', ψ', h1', h2', -, h3'⟩ := integrate_real_exact hX hC' ho' hp' hf' hx
  exact ⟨r, q, r', q', ψ, ψ', h1, h1', h2, h2', fun σ hσ => by rw [(h3 σ hσ).2, (h3' σ hσ).2]⟩

/-- C17: the volume is the same number in any two pools and with any two reduction strategies. -/
theorem volume_history (hX : XLaw X ev) {C C' : RCtx E} (hC : C.X = X) (hC' : C'.X = X) (ho : OrdLaw C.ord) (ho' : OrdLaw C'.ord) {p p' : Pool E}
    (hp : Reachable X Γ p) (hp' : Reachable X Γ p') {e : EngineObj}
    {w : Formula} (hw : e.weight = some w) (hP : Problem e.domain e.support w)
    (hΓ : ∀ v ∈ e.domain.vars, e.domain.varTypes.lookup v = some (Γ v)) (hord : e.domain.vars = e.domain.bools ++ e.domain.reals)
    {ab : Bool} (hc : e.domain.confined ab (density e.support w)) (hs : supB e.support = true) (hsw : supW w = true)
    (hg : Generic e.support) (hgw : Generic w) :
    ∃ v q q', xaddVolume C e ab p = (.ok v, q) ∧ xaddVolume C' e ab p' = (.ok v, q') := by
  obtain ⟨v, q, h1, h2⟩ := xadd_volume_partial hX hC ho hp hw hP hΓ hord hc hs hsw hg hgw
  obtain ⟨v', q', h1', h2'⟩ := xadd_volume_partial hX hC' ho' hp' hw hP hΓ hord hc hs hsw hg hgw
  have : v = v' := by exact_mod_cast h2.trans h2'.symm
  exact ⟨v, q, q', h1, this ▸ h1'⟩

end
end Pywmi
