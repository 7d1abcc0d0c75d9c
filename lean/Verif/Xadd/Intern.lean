import Verif.Xadd.Inv

set_option linter.unusedSectionVars false
set_option linter.unusedSimpArgs false

/-!
# Creating nodes keeps the invariant
-/

namespace Pywmi
open Formula Prog Decision

section
variable {E : Type} [DecidableEq E]

/-- The caches are as before. -/
structure Fr (p q : Pool E) : Prop extends Ext p q where
  applyC : q.applyCache = p.applyCache
  reduceC : q.reduceCache = p.reduceCache
  resolveC : q.resolveCache = p.resolveCache
  profC : q.profiles = p.profiles
  walkC : q.walk = p.walk

theorem Fr.refl (p : Pool E) : Fr p p := ⟨Ext.refl p, rfl, rfl, rfl, rfl, rfl⟩
theorem Fr.trans {p q r : Pool E} (h : Fr p q) (h' : Fr q r) : Fr p r :=
  ⟨h.toExt.trans h'.toExt, h'.applyC.trans h.applyC, h'.reduceC.trans h.reduceC, h'.resolveC.trans h.resolveC,
    h'.profC.trans h.profC, h'.walkC.trans h.walkC⟩

theorem node_append {p q : Pool E} {x : Option (XNode E)} (h : q.slots = p.slots ++ [x]) (n : ℕ) :
    q.node n = if n = p.slots.length + 1 then x else p.node n := by
  cases n with
  | zero => simp [Pool.node]
  | succ k =>
    simp only [Pool.node, h]
    by_cases hk : k = p.slots.length
    · subst hk
      simp
    · rw [if_neg (by omega)]
      by_cases hlt : k < p.slots.length
      · rw [List.getElem?_append_left hlt]
      · rw [List.getElem?_eq_none (by simp; omega), List.getElem?_eq_none (by omega)]

theorem node_congr {p q : Pool E} (h : q.slots = p.slots) (n : ℕ) : q.node n = p.node n := by
  cases n with
  | zero => rfl
  | succ k => simp only [Pool.node, h]

theorem node_le {p : Pool E} {n : ℕ} {x : XNode E} (h : p.node n = some x) : n ≤ p.slots.length := by
  cases n with
  | zero => omega
  | succ k =>
    simp only [Pool.node] at h
    by_contra hk
    rw [List.getElem?_eq_none (by omega)] at h
    cases h

/-- A new leaf. -/
theorem Core.addLeaf {X : XCtx E} {p q : Pool E} (hp : Core X p) {e : E} (he : p.expressions.lookup e = none)
    (hs : q.slots = p.slots ++ [some (.leaf e)]) (hx : q.expressions = (e, p.slots.length + 1) :: p.expressions)
    (hi : q.internalMap = p.internalMap) (ht : q.tests = p.tests) (hz : q.zeroId = p.zeroId) (ho : q.oneId = p.oneId) :
    Core X q := by
  have hn := node_append hs
  have hold : ∀ {n x}, p.node n = some x → q.node n = some x := fun {n x} h => by
    rw [hn, if_neg (by have := node_le h; omega), h]
  refine ⟨hz ▸ hold hp.zero, ho ▸ hold hp.one, ?_, ?_, ?_, ht ▸ hp.nodup⟩
  · intro n d t f h
    rw [hn] at h
    split at h
    · cases h
    · obtain ⟨h1, h2, h3, h4, h5, h6, h7⟩ := hp.inner h
      obtain ⟨x, hx⟩ := Option.isSome_iff_exists.mp h4
      obtain ⟨y, hy⟩ := Option.isSome_iff_exists.mp h5
      exact ⟨h1, h2, h3, by rw [hold hx]; rfl, by rw [hold hy]; rfl, h6, ht ▸ h7⟩
  · intro e' n
    rw [hx, hn, List.lookup_cons]
    by_cases hee : e' = e
    · subst hee
      simp only [beq_self_eq_true, Option.some.injEq]
      split
      · rename_i h; simp [h]
      · rename_i h
        rw [← hp.exprs, he]
        simp [Ne.symm h]
    · simp only [beq_eq_false_iff_ne.mpr hee]
      rw [hp.exprs]
      split
      · rename_i h
        constructor
        · intro h'; have := node_le h'; omega
        · intro h'; simp only [Option.some.injEq, XNode.leaf.injEq] at h'; exact absurd h'.symm hee
      · rfl
  · intro i t f n
    rw [hi, ht, hp.inners]
    constructor
    · rintro ⟨d, h1, h2⟩; exact ⟨d, hold h1, h2⟩
    · rintro ⟨d, h1, h2⟩
      rw [hn] at h1
      split at h1
      · cases h1
      · exact ⟨d, h1, h2⟩

/-- A slot without node. -/
theorem Core.addNone {X : XCtx E} {p q : Pool E} (hp : Core X p) (hs : q.slots = p.slots ++ [none])
    (hx : q.expressions = p.expressions) (hi : q.internalMap = p.internalMap) (ht : q.tests = p.tests)
    (hz : q.zeroId = p.zeroId) (ho : q.oneId = p.oneId) : Core X q := by
  have hn : ∀ n, q.node n = p.node n := fun n => by
    rw [node_append hs]
    split
    · rename_i h
      cases hh : p.node n with
      | none => rfl
      | some x => have := node_le hh; omega
    · rfl
  exact ⟨by rw [hn, hz]; exact hp.zero, by rw [hn, ho]; exact hp.one,
    fun h => by
      rw [hn] at h
      rw [hn, hn, ht]
      exact hp.inner h,
    fun e n => by rw [hx, hn]; exact hp.exprs e n,
    fun i t f n => by
      rw [hi, ht, hp.inners]
      simp only [hn],
    ht ▸ hp.nodup⟩

theorem idxOf?_append {L R : List Formula} {g : Formula} (h : g ∈ L) : (L ++ R).idxOf? g = L.idxOf? g := by
  obtain ⟨i, hi⟩ := Option.isSome_iff_exists.mp (List.isSome_idxOf?.mpr h)
  rw [hi]
  rw [List.idxOf?_eq_some_iff] at hi ⊢
  obtain ⟨h1, h2, h3⟩ := hi
  refine ⟨by simp; omega, by rw [List.getElem_append_left h1]; exact h2, fun j hj => ?_⟩
  rw [List.getElem_append_left (by omega)]
  exact h3 j hj

theorem idxOf?_new {L : List Formula} {g : Formula} (h : g ∉ L) : (L ++ [g]).idxOf? g = some L.length := by
  rw [List.idxOf?_eq_some_iff]
  refine ⟨by simp, by simp, fun j hj => ?_⟩
  rw [List.getElem_append_left hj]
  intro h'
  exact h (h' ▸ List.getElem_mem hj)

/-- A new test. -/
theorem Core.addTest {X : XCtx E} {p q : Pool E} (hp : Core X p) {g : Formula} (hg : g ∉ p.tests)
    (hs : q.slots = p.slots) (hx : q.expressions = p.expressions) (hi : q.internalMap = p.internalMap)
    (ht : q.tests = p.tests ++ [g]) (hz : q.zeroId = p.zeroId) (ho : q.oneId = p.oneId) : Core X q := by
  have hn := node_congr hs
  refine ⟨by rw [hn, hz]; exact hp.zero, by rw [hn, ho]; exact hp.one, ?_, fun e n => by rw [hx, hn]; exact hp.exprs e n, ?_, ?_⟩
  · intro n d t f h
    rw [hn] at h
    obtain ⟨h1, h2, h3, h4, h5, h6, h7⟩ := hp.inner h
    exact ⟨h1, h2, h3, by rw [hn]; exact h4, by rw [hn]; exact h5, h6, by rw [ht]; simp [h7]⟩
  · intro i t f n
    rw [hi, hp.inners]
    have : ∀ d, q.node n = some (.inner d t f) → q.tests.idxOf? d.test = p.tests.idxOf? d.test := fun d h => by
      rw [hn] at h
      rw [ht]
      exact idxOf?_append (hp.inner h).2.2.2.2.2.2
    constructor
    · rintro ⟨d, h1, h2⟩
      rw [← hn] at h1
      exact ⟨d, h1, by rw [this d h1]; exact h2⟩
    · rintro ⟨d, h1, h2⟩
      exact ⟨d, by rw [← hn]; exact h1, by rw [← this d h1]; exact h2⟩
  · rw [ht, List.nodup_append]
    refine ⟨hp.nodup, by simp, ?_⟩
    intro a ha b hb
    simp only [List.mem_singleton] at hb
    subst hb
    rintro rfl
    exact hg ha

/-- A new inner node. -/
theorem Core.addInner {X : XCtx E} {p q : Pool E} (hp : Core X p) {d : Decision} {t f i : ℕ} (hd : DecOk d)
    (hidx : p.tests.idxOf? d.test = some i) (hno : p.internalMap.lookup (i, t, f) = none)
    (htf : t ≠ f) (ht1 : (p.node t).isSome) (hf1 : (p.node f).isSome)
    (hs : q.slots = p.slots ++ [some (.inner d t f)]) (hx : q.expressions = p.expressions)
    (hi : q.internalMap = ((i, t, f), p.slots.length + 1) :: p.internalMap)
    (ht : q.tests = p.tests) (hz : q.zeroId = p.zeroId) (ho : q.oneId = p.oneId) : Core X q := by
  have hn := node_append hs
  have hold : ∀ {n x}, p.node n = some x → q.node n = some x := fun {n x} h => by
    rw [hn, if_neg (by have := node_le h; omega), h]
  have hsome : ∀ {n}, (p.node n).isSome → (q.node n).isSome ∧ n < p.slots.length + 1 := fun {n} h => by
    obtain ⟨x, hx⟩ := Option.isSome_iff_exists.mp h
    exact ⟨by rw [hold hx]; rfl, by have := node_le hx; omega⟩
  have hdm : d.test ∈ p.tests := List.isSome_idxOf?.mp (by rw [hidx]; rfl)
  refine ⟨hz ▸ hold hp.zero, ho ▸ hold hp.one, ?_, ?_, ?_, ht ▸ hp.nodup⟩
  · intro n d' t' f' h
    rw [hn] at h
    split at h
    · rename_i hnn
      simp only [Option.some.injEq, XNode.inner.injEq] at h
      obtain ⟨rfl, rfl, rfl⟩ := h
      exact ⟨hnn ▸ (hsome ht1).2, hnn ▸ (hsome hf1).2, htf, (hsome ht1).1, (hsome hf1).1, hd, ht ▸ hdm⟩
    · obtain ⟨h1, h2, h3, h4, h5, h6, h7⟩ := hp.inner h
      exact ⟨h1, h2, h3, (hsome h4).1, (hsome h5).1, h6, ht ▸ h7⟩
  · intro e n
    rw [hx, hp.exprs, hn]
    split
    · rename_i h
      constructor
      · intro h'; have := node_le h'; omega
      · intro h'; simp at h'
    · rfl
  · intro i' t' f' n
    rw [hi, ht, List.lookup_cons]
    by_cases hk : (i', t', f') = (i, t, f)
    · simp only [Prod.mk.injEq] at hk
      obtain ⟨rfl, rfl, rfl⟩ := hk
      simp only [beq_self_eq_true, Option.some.injEq]
      constructor
      · rintro rfl
        exact ⟨d, by rw [hn, if_pos rfl], hidx⟩
      · rintro ⟨d', h1, h2⟩
        rw [hn] at h1
        split at h1
        · rename_i h; exact h.symm
        · have := (hp.inners i' t' f' n).mpr ⟨d', h1, h2⟩
          rw [hno] at this
          cases this
    · simp only [beq_eq_false_iff_ne.mpr hk]
      rw [hp.inners]
      constructor
      · rintro ⟨d', h1, h2⟩; exact ⟨d', hold h1, h2⟩
      · rintro ⟨d', h1, h2⟩
        rw [hn] at h1
        split at h1
        · simp only [Option.some.injEq, XNode.inner.injEq] at h1
          obtain ⟨rfl, rfl, rfl⟩ := h1
          rw [hidx] at h2
          simp only [Option.some.injEq] at h2
          subst h2
          exact absurd rfl hk
        · exact ⟨d', h1, h2⟩

/-! ### Triples -/

theorem getNode_run {I : Pool E → Prop} {p : Pool E} (hp : I p) {n : ℕ} :
    Run I Fr (getNode n) p (p.node n).isSome (fun x q => q = p ∧ p.node n = some x) := by
  unfold Run getNode
  cases h : p.node n with
  | some x => exact ⟨hp, Fr.refl p, fun a ha => by simp only [Except.ok.injEq] at ha; subst ha; simp, fun _ => ⟨x, rfl⟩⟩
  | none => exact ⟨hp, Fr.refl p, fun a ha => (by cases ha), fun h' => by simp at h'⟩

theorem terminal_run {X : XCtx E} {p : Pool E} (hp : Core X p) (e : E) :
    Run (Core X) Fr (terminal e) p True (fun n q => q.node n = some (.leaf e)) := by
  unfold Run terminal
  cases h : p.expressions.lookup e with
  | some n =>
    refine ⟨hp, Fr.refl p, fun a ha => ?_, fun _ => ⟨n, rfl⟩⟩
    simp only [Except.ok.injEq] at ha
    subst ha
    exact (hp.exprs e n).mp h
  | none =>
    refine ⟨hp.addLeaf h rfl rfl rfl rfl rfl rfl,
      ⟨⟨List.prefix_append _ _, List.prefix_refl _, rfl, rfl⟩, rfl, rfl, rfl, rfl, rfl⟩, fun a ha => ?_, fun _ => ⟨_, rfl⟩⟩
    simp only [Except.ok.injEq] at ha
    subst ha
    rw [node_append (p := p) rfl, if_pos rfl]

theorem terminalFNode_run {X : XCtx E} {p : Pool E} (hp : Core X p) :
    Run (Core X) Fr (terminalFNode : XM E ℕ) p False (fun _ _ => False) :=
  ⟨hp.addNone rfl rfl rfl rfl rfl rfl,
    ⟨⟨List.prefix_append _ _, List.prefix_refl _, rfl, rfl⟩, rfl, rfl, rfl, rfl, rfl⟩, fun _ h => (by cases h), fun h => h.elim⟩

theorem addTest_run {X : XCtx E} {p : Pool E} (hp : Core X p) (g : Formula) :
    Run (Core X) Fr (addTest g) p True (fun i q => q.tests.idxOf? g = some i) := by
  unfold Run addTest
  cases h : p.tests.idxOf? g with
  | some n =>
    refine ⟨hp, Fr.refl p, fun a ha => ?_, fun _ => ⟨n, rfl⟩⟩
    simp only [Except.ok.injEq] at ha
    subst ha
    exact h
  | none =>
    rw [List.idxOf?_eq_none_iff] at h
    refine ⟨hp.addTest h rfl rfl rfl rfl rfl rfl,
      ⟨⟨List.prefix_refl _, List.prefix_append _ _, rfl, rfl⟩, rfl, rfl, rfl, rfl, rfl⟩, fun a ha => ?_, fun _ => ⟨_, rfl⟩⟩
    simp only [Except.ok.injEq] at ha
    subst ha
    exact idxOf?_new h

theorem Ext.isSome {p q : Pool E} (h : Ext p q) {n : ℕ} (hn : (p.node n).isSome) : (q.node n).isSome := by
  obtain ⟨x, hx⟩ := Option.isSome_iff_exists.mp hn
  rw [h.node hx]; rfl

theorem internNode_run {X : XCtx E} {p : Pool E} (hp : Core X p) {d : Decision} (hd : DecOk d) {t f : ℕ} (htf : t ≠ f)
    (ht : (p.node t).isSome) (hf : (p.node f).isSome) :
    Run (Core X) Fr (internNode d t f) p True
      (fun n q => ∃ d', q.node n = some (.inner d' t f) ∧ d'.test = d.test ∧ DecOk d') := by
  unfold internNode
  refine Run.bind (fun h h' => h.trans h') (addTest_run hp d.test) fun i q hq hpq hi => Run.bindGet ?_
  cases h : q.internalMap.lookup (i, t, f) with
  | some n =>
    obtain ⟨d', h1, h2⟩ := (hq.inners i t f n).mp h
    refine Run.ret Fr.refl hq ⟨d', h1, ?_, (hq.inner h1).2.2.2.2.2.1⟩
    rw [List.idxOf?_eq_some_iff] at hi h2
    obtain ⟨h3, h4, -⟩ := hi
    obtain ⟨h5, h6, -⟩ := h2
    rw [← h4, ← h6]
  | none =>
    unfold Run
    refine ⟨?_, ?_, ?_, fun _ => ⟨_, rfl⟩⟩
    · exact hq.addInner hd hi h htf (hpq.isSome ht) (hpq.isSome hf) rfl rfl rfl rfl rfl rfl
    · exact ⟨⟨List.prefix_append _ _, List.prefix_refl _, rfl, rfl⟩, rfl, rfl, rfl, rfl, rfl⟩
    · intro n hn
      simp only [XM.bind_apply, register, XM.modify, XM.pure_apply, Except.ok.injEq] at hn ⊢
      subst hn
      refine ⟨d, ?_, rfl, hd⟩
      rw [node_append (p := q) rfl, if_pos rfl]

/-- SPEC: a canonical test over two diagrams. -/
def CanSpec (d : Decision) (A B T : XTree E) : Prop := (T = A ∧ A = B) ∨ ∃ d', d'.test = d.test ∧ DecOk d' ∧ T = .node d' A B

/-- SPEC: a linear or Boolean test over two diagrams. -/
def TestSpec (g : Formula) (A B T : XTree E) : Prop :=
  (∀ σ : Env ℝ, T.leafAt (truth σ ·) = if readTest σ g then A.leafAt (truth σ ·) else B.leafAt (truth σ ·)) ∧
  (T = A ∨ T = B ∨ ∃ d, (T = .node d A B ∨ T = .node d B A) ∧ ∀ v ∈ syms d.test, v ∈ syms g)

theorem internal_canon {X : XCtx E} (hs : SimpLaw X.simp) {p : Pool E} (hp : Core X p) {d : Decision} (hd : DecOk d) {t f : ℕ}
    {A B : XTree E} (hA : Den p t A) (hB : Den p f B) :
    Run (Core X) Fr (internal X d t f) p True (fun n q => ∃ T, Den q n T ∧ CanSpec d A B T) := by
  unfold internal
  split
  · rename_i h
    subst h
    exact Run.ret Fr.refl hp ⟨A, hA, Or.inl ⟨rfl, hA.unique hB⟩⟩
  · rename_i htf
    refine Run.bindLift (hd.branches hs) (Run.bindLift (hd.canon t f) ?_)
    refine (internNode_run hp hd htf hA.isSome hB.isSome).imp id fun n q _ hpq ⟨d', h1, h2, h3⟩ => ?_
    exact ⟨_, .node h1 (hpq.den hA) (hpq.den hB), Or.inr ⟨d', h2, h3, rfl⟩⟩

theorem linToSmt_var {q : Dict} (hn : KeysNodup q) (hz : ∀ p ∈ q, p.2 ≠ 0) (hv : ¬∃ p ∈ q, p.1 ≠ []) :
    q = [] ∨ ∃ c, c ≠ 0 ∧ q = [([], c)] := by
  push Not at hv
  match q, hn, hz, hv with
  | [], _, _, _ => exact Or.inl rfl
  | [(k, c)], _, hz, hv =>
    have : k = [] := hv (k, c) (by simp)
    subst this
    exact Or.inr ⟨c, hz ([], c) (by simp), rfl⟩
  | (k, c) :: (k', c') :: q, hn, hz, hv =>
    have h1 : k = [] := hv (k, c) (by simp)
    have h2 : k' = [] := hv (k', c') (by simp)
    subst h1 h2
    simp [KeysNodup] at hn

theorem internal_test {X : XCtx E} (hs : SimpLaw X.simp) {p : Pool E} (hp : Core X p) {g : Formula} (hg : TestForm g) {t f : ℕ}
    {A B : XTree E} (hA : Den p t A) (hB : Den p f B) :
    Run (Core X) Fr (internal X ⟨g, none, false⟩ t f) p True (fun n q => ∃ T, Den q n T ∧ TestSpec g A B T) := by
  unfold internal
  split
  · rename_i h
    subst h
    have := hA.unique hB
    subst this
    exact Run.ret Fr.refl hp ⟨A, hA, fun σ => by simp, Or.inl rfl⟩
  · rename_i htf
    rcases hg.cases with ⟨b, rfl⟩ | ⟨b, rfl⟩ | ⟨b, rfl⟩ | ⟨q, hq⟩
    · cases b with
      | true =>
        refine Run.bindLift (a := [true]) (by simp [validBranches, simplified]) ?_
        exact Run.ret Fr.refl hp ⟨A, hA, fun σ => by simp [readTest], Or.inl rfl⟩
      | false =>
        refine Run.bindLift (a := [false]) (by simp [validBranches, simplified]) ?_
        exact Run.ret Fr.refl hp ⟨B, hB, fun σ => by simp [readTest], Or.inr (Or.inl rfl)⟩
    · refine Run.bindLift (a := [true, false]) (by simp [validBranches, simplified, isBoolTest, hs.sym]) ?_
      refine Run.bindLift (a := (⟨.sym b .bool, none, true⟩, t, f)) (by simp [toCanonical, isBoolTest]) ?_
      refine (internNode_run hp ⟨rfl, Or.inl ⟨b, rfl⟩⟩ htf hA.isSome hB.isSome).imp id fun n q _ hpq ⟨d', h1, h2, h3⟩ => ?_
      refine ⟨_, .node h1 (hpq.den hA) (hpq.den hB), fun σ => ?_, Or.inr (Or.inr ⟨d', Or.inl rfl, ?_⟩)⟩
      · have e1 : truth σ d'.test = σ.b b := by rw [h2]; rfl
        have e2 : readTest σ (.sym b .bool) = σ.b b := rfl
        rw [XTree.leafAt_node, e1, e2]
      · rw [h2]; exact fun v hv => hv
    · refine Run.bindLift (a := [true, false]) (by simp [validBranches, simplified, isBoolTest, hs.notSym]) ?_
      refine Run.bindLift (a := (⟨.sym b .bool, none, true⟩, f, t)) (by simp [toCanonical, isBoolTest, mkNot, hs.sym]) ?_
      refine (internNode_run hp ⟨rfl, Or.inl ⟨b, rfl⟩⟩ (Ne.symm htf) hB.isSome hA.isSome).imp id
        fun n q _ hpq ⟨d', h1, h2, h3⟩ => ?_
      refine ⟨_, .node h1 (hpq.den hB) (hpq.den hA), fun σ => ?_, Or.inr (Or.inr ⟨d', Or.inr rfl, ?_⟩)⟩
      · have e1 : truth σ d'.test = σ.b b := by rw [h2]; rfl
        have e2 : readTest σ (.not (.sym b .bool)) = !σ.b b := rfl
        rw [XTree.leafAt_node, e1, e2]
        cases σ.b b <;> simp
      · rw [h2]; exact fun v hv => hv
    · have hbr : ∀ {r : Formula}, linToSmt q = .ok r → (⟨g, none, false⟩ : Decision).simplified X.simp = .ok (X.simp r) := by
        intro r hr
        have h1 : ¬(g = .boolC true ∨ g = .boolC false) := by
          rintro (h | h) <;> exact hq.notConst _ h
        simp [simplified, h1, hq.notBool, inequality, hq.from', hr]
      by_cases hv : ∃ r ∈ q, r.1 ≠ []
      · have hne : q ≠ [] := by rintro rfl; obtain ⟨r, hr, -⟩ := hv; cases hr
        obtain ⟨c, hc, hct, hcan⟩ := toCanonical_lin (K := ℝ) (simp := X.simp) hq.notBool hq.from' hq.nodup hq.nz hne t f
        have hcl := canonLin_div hq.nodup hq.nz hq.lin hv
        have h0 := leadCoef_ne_zero hq.nodup hq.nz hne
        have hbranch : (⟨g, none, false⟩ : Decision).validBranches X.simp = .ok [true, false] := by
          obtain ⟨r, hr, hw, ht⟩ := linToSmt_spec (K := ℝ) hq.nodup hq.nz hne
          have h3 : ∀ b, X.simp r ≠ .boolC b := by
            intro b hb
            have hc : ∀ σ : Env ℝ, truth σ r = b := fun σ => by
              rw [← hs.truth _ hw, hb, truth]
            have key : ∀ ρ : String → ℝ, (polyEval ρ q < 0) ↔ b = true := fun ρ => by
              rw [← ht ⟨fun _ => false, ρ⟩, hc]
            obtain ⟨⟨ρ, hρ⟩, ρ', hρ'⟩ := hcl.both (K := ℝ)
            obtain ⟨x, hx⟩ := hcl.coef
            rw [linCoef_mapVal q (g := fun v => v / leadCoef q) (by simp)] at hx
            have hx' : (linCoef q [x] : ℝ) ≠ 0 := by
              have : linCoef q [x] ≠ 0 := fun h => hx (by rw [h]; simp)
              exact_mod_cast this
            have e := polyEval_var (K := ℝ) hq.nodup hq.lin x (fun _ => (0 : ℝ))
            have h1 := (key _).mp (show polyEval (fun y => if y = x then
              (-1 - polyEval (fun _ => (0 : ℝ)) (q.filter fun p => p.1 ≠ [x])) / linCoef q [x] else 0) q < 0 by
              rw [e, mul_div_cancel₀ _ hx']; linarith)
            have h2 := (key fun y => if y = x then
              -polyEval (fun _ => (0 : ℝ)) (q.filter fun p => p.1 ≠ [x]) / linCoef q [x] else 0).mpr h1
            rw [e, mul_div_cancel₀ _ hx'] at h2
            linarith
          simp [validBranches, hbr hr, h3]
        refine Run.bindLift hbranch (Run.bindLift hcan ?_)
        have hdec : DecOk ⟨c, some (q.map fun p => (p.1, p.2 / leadCoef q)), true⟩ := ⟨rfl, Or.inr ⟨_, rfl, hcl, hc⟩⟩
        have hsy : ∀ v ∈ syms c, v ∈ syms g := by
          intro v hv
          obtain ⟨h1, h2⟩ := DecOk.syms_lin hcl hc v hv
          rw [linCoef_mapVal q (g := fun v => v / leadCoef q) (by simp)] at h2
          obtain ⟨x, ty⟩ := v
          simp only at h1
          subst h1
          exact hq.vars x fun h => h2 (by rw [h]; simp)
        have htr : ∀ σ : Env ℝ, truth σ c = decide (polyEval σ.r (q.map fun p => (p.1, p.2 / leadCoef q)) < 0) := fun σ => by
          rw [Bool.eq_iff_iff, hct, decide_eq_true_eq]
        by_cases hl : leadCoef q < 0
        · simp only [hl, if_true]
          refine (internNode_run hp hdec (Ne.symm htf) hB.isSome hA.isSome).imp id fun n q' _ hpq ⟨d', h1, h2, h3⟩ => ?_
          refine ⟨_, .node h1 (hpq.den hB) (hpq.den hA), fun σ => ?_, Or.inr (Or.inr ⟨d', Or.inr rfl, by rw [h2]; exact hsy⟩)⟩
          simp only at h2
          rw [XTree.leafAt_node, h2, readTest_lin hq, ← canon_read h0 σ.r, if_pos hl, htr]
          cases decide (polyEval σ.r (q.map fun p => (p.1, p.2 / leadCoef q)) < 0) <;> simp
        · simp only [hl, if_false]
          refine (internNode_run hp hdec htf hA.isSome hB.isSome).imp id fun n q' _ hpq ⟨d', h1, h2, h3⟩ => ?_
          refine ⟨_, .node h1 (hpq.den hA) (hpq.den hB), fun σ => ?_, Or.inr (Or.inr ⟨d', Or.inl rfl, by rw [h2]; exact hsy⟩)⟩
          simp only at h2
          rw [XTree.leafAt_node, h2, readTest_lin hq, ← canon_read h0 σ.r, if_neg hl, htr]
      · rcases linToSmt_var hq.nodup hq.nz hv with rfl | ⟨c, hc, rfl⟩
        · refine Run.bindLift (a := [true]) ?_ ?_
          · rw [validBranches, hbr (r := .le (.realC 0) (.realC 0)) (by simp [linToSmt]), hs.constLe]
            simp
          · exact Run.ret Fr.refl hp ⟨A, hA, fun σ => by rw [readTest_lin hq]; simp [readDict, leadCoef, sortedKeys], Or.inl rfl⟩
        · have hlin : linToSmt [([], c)] = .ok (.le (.realC 0) (.realC (-c))) := by
            simp [linToSmt, List.lookup_cons, linCoef]
          have hread : ∀ σ : Env ℝ, readDict σ.r [([], c)] = decide (c < 0) := by
            intro σ
            have hlead : leadCoef [([], c)] = c := by simp [leadCoef, sortedKeys, linCoef, List.lookup_cons]
            have hpe : polyEval σ.r [([], c)] = (c : ℝ) := by simp [polyEval, monoEval]
            rw [readDict, hlead, hpe]
            split
            · congr 1; simp
            · rename_i h
              rcases lt_or_gt_of_ne hc with h' | h'
              · have : (c : ℝ) ≤ 0 := by exact_mod_cast h'.le
                simp [h', this]
              · exact absurd h' h
          by_cases hc0 : c < 0
          · refine Run.bindLift (a := [true]) ?_ ?_
            · rw [validBranches, hbr hlin, hs.constLe]
              simp [hc0.le]
            · exact Run.ret Fr.refl hp ⟨A, hA, fun σ => by rw [readTest_lin hq, hread]; simp [hc0], Or.inl rfl⟩
          · have hc1 : ¬ (0 ≤ -c) := by
              intro h; exact hc0 (lt_of_le_of_ne (by linarith) hc)
            refine Run.bindLift (a := [false]) ?_ ?_
            · rw [validBranches, hbr hlin, hs.constLe]
              simp only [hc1, decide_false]
              simp
            · exact Run.ret Fr.refl hp ⟨B, hB, fun σ => by rw [readTest_lin hq, hread]; simp [hc0], Or.inr (Or.inl rfl)⟩

end
end Pywmi
