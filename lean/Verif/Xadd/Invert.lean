import Verif.Xadd.WalkInv
import Verif.Xadd.Law

set_option linter.unusedSectionVars false
set_option linter.unusedSimpArgs false

/-!
# Inversion of 0/1 diagrams
-/

namespace Pywmi
open Prog Formula

section
variable {E : Type} [DecidableEq E] {X : XCtx E} {ev : E → (String → ℝ) → ℝ}

/-- The invariant with profiles: they are at the start unless the diagram is not a 0/1 diagram. -/
structure InvP (X : XCtx E) (p : Pool E) : Prop extends Inv1 X p where
  prof : ∀ r pr, p.profiles.lookup r = some pr → ∃ T, Den p r T ∧ ProfOk p r pr (Bin X T)

/-- The caches of integration and conversion are as before. -/
structure FrI (p q : Pool E) : Prop extends Ext p q where
  resolveC : q.resolveCache = p.resolveCache
  walkC : q.walk = p.walk

theorem FrI.refl (p : Pool E) : FrI p p := ⟨Ext.refl p, rfl, rfl⟩
theorem FrI.trans {p q r : Pool E} (h : FrI p q) (h' : FrI q r) : FrI p r :=
  ⟨h.toExt.trans h'.toExt, h'.resolveC.trans h.resolveC, h'.walkC.trans h.walkC⟩
theorem Fr1.frI {p q : Pool E} (h : Fr1 p q) : FrI p q := ⟨h.toExt, h.resolveC, h.walkC⟩

theorem ProfOk.mono {p q : Pool E} (he : Ext p q) (hp : Core X p) {root : ℕ} {pr : Profile} {ok : Prop} (h : ProfOk p root pr ok) :
    ProfOk q root pr ok := ⟨h.1.mono he hp, h.2⟩

theorem Run.inv1 {α : Type} {m : XM E α} {p : Pool E} {s : Prop} {Q : α → Pool E → Prop} (hp : InvP X p)
    (h : Run (Inv1 X) Fr1 m p s Q) : Run (InvP X) FrI m p s Q :=
  h.weaken (fun _ hq hpq => ⟨hq, fun r pr hl => by
    obtain ⟨T, h1, h2⟩ := hp.prof r pr (hpq.profC ▸ hl)
    exact ⟨T, hpq.den h1, h2.mono hpq.toExt hp.core⟩⟩) fun _ hpq => hpq.frI

theorem Run.seqI {α β : Type} {I : Pool E → Prop} {m : XM E α} {f : α → XM E β} {p : Pool E} {s safe : Prop}
    {P : α → Pool E → Prop} {Q : β → Pool E → Prop} (h1 : Run I FrI m p s P) (hs : safe → s)
    (h2 : ∀ a q, I q → FrI p q → P a q → Run I FrI (f a) q safe Q) : Run I FrI (m >>= f) p safe Q :=
  Run.bind (R := FrI) (fun h h' => h.trans h') (h1.imp hs fun _ _ _ _ h => h) h2

theorem newPool_invP (hne : X.back.alg.zero ≠ X.back.alg.one) : InvP X (newPool X) :=
  ⟨newPool_inv hne, fun r pr h => by rw [newPool_eq hne] at h; cases h⟩

/-- SPEC: the second diagram arises from the first one by replacing leaves: where the first one arrives at `e`, the second
one arrives at some `e'` with `Rel`.  Tests are old ones or have `P`; the result is ordered if `O`, whatever the first
diagram. -/
structure LeafSpec (Rel : (Formula → Bool) → E → E → Prop) (P : Formula → Prop) (O : Prop) (L : List Formula) (T T' : XTree E) : Prop where
  rel : ∀ c, Rel c (T.leafAt c) (T'.leafAt c)
  tests : ∀ g ∈ T'.tests, g ∈ T.tests ∨ P g
  ord : O → T'.Ord L

/-- SPEC: a node and the node of its transformation. -/
def LeafMsg (Rel : (Formula → Bool) → E → E → Prop) (P : Formula → Prop) (O : Prop) (q : Pool E) (n a : ℕ) : Prop :=
  ∃ T T', Den q n T ∧ Den q a T' ∧ LeafSpec Rel P O q.tests T T'

theorem LeafMsg.mono {Rel : (Formula → Bool) → E → E → Prop} {P : Formula → Prop} {O : Prop} {q q' : Pool E} (hq : Core X q) (he : Ext q q')
    {n a : ℕ} (h : LeafMsg Rel P O q n a) : LeafMsg Rel P O q' n a := by
  obtain ⟨T, T', h1, h2, h3⟩ := h
  exact ⟨T, T', he.den h1, he.den h2, h3.rel, h3.tests, fun o => (XTree.Ord.mono he.tests (h2.tests hq)).mpr (h3.ord o)⟩

/-- SPEC: the leaf of one minus. -/
def InvRel (X : XCtx E) (ev : E → (String → ℝ) → ℝ) (_ : Formula → Bool) (e e' : E) : Prop :=
  (∀ ρ, ev e' ρ = 1 - ev e ρ) ∧ ((e = X.back.alg.zero ∨ e = X.back.alg.one) → e' = X.back.alg.zero ∨ e' = X.back.alg.one)

/-- SPEC: the second diagram is one minus the first one. -/
abbrev InvSpec (X : XCtx E) (ev : E → (String → ℝ) → ℝ) (L : List Formula) (T T' : XTree E) : Prop :=
  LeafSpec (InvRel X ev) (fun _ => False) True L T T'

theorem InvSpec.val {L : List Formula} {T T' : XTree E} (h : InvSpec X ev L T T') (c : Formula → Bool) (ρ : String → ℝ) :
    ev (T'.leafAt c) ρ = 1 - ev (T.leafAt c) ρ := (h.rel c).1 ρ

theorem InvSpec.tests' {L : List Formula} {T T' : XTree E} (h : InvSpec X ev L T T') : ∀ g ∈ T'.tests, g ∈ T.tests :=
  fun g hg => (h.tests g hg).resolve_right id

theorem InvSpec.bin {L : List Formula} {T T' : XTree E} (h : InvSpec X ev L T T') (hb : Bin X T) : Bin X T' := by
  intro e he
  obtain ⟨c, rfl, -⟩ := (h.ord trivial).reach e he fun _ => true
  exact (h.rel c).2 (hb _ (XTree.leafAt_mem _ _))

/-- SPEC: a node and the node of its inversion. -/
abbrev InvMsg (X : XCtx E) (ev : E → (String → ℝ) → ℝ) (q : Pool E) (n a : ℕ) : Prop :=
  LeafMsg (InvRel X ev) (fun _ => False) True q n a

theorem Den.reach_leaf {p : Pool E} {r n : ℕ} {T : XTree E} (hT : Den p r T) (hn : Reach p r n) {e : E} (hx : p.node n = some (.leaf e)) :
    e ∈ T.leaves := by
  have key : ∀ m, Reach p r m → ∃ U, Den p m U ∧ ∀ e ∈ U.leaves, e ∈ T.leaves := by
    intro m hm
    induction hm with
    | root => exact ⟨T, hT, fun _ h => h⟩
    | step _ hc ih =>
      obtain ⟨U, hU, hs⟩ := ih
      obtain ⟨d, t, f, hm, hc⟩ := hc
      cases hU with
      | leaf h => rw [hm] at h; simp at h
      | node h hA hB =>
        rw [hm] at h
        simp only [Option.some.injEq, XNode.inner.injEq] at h
        obtain ⟨-, rfl, rfl⟩ := h
        rcases hc with rfl | rfl
        · exact ⟨_, hA, fun e he => hs e (by simp [XTree.leaves, he])⟩
        · exact ⟨_, hB, fun e he => hs e (by simp [XTree.leaves, he])⟩
  obtain ⟨U, hU, hs⟩ := key n hn
  cases hU with
  | leaf h =>
    rw [hx] at h
    simp only [Option.some.injEq, XNode.leaf.injEq] at h
    subst h
    exact hs e (by simp [XTree.leaves])
  | node h _ _ => rw [hx] at h; simp at h

/-- The diagram of a single test. -/
theorem boolTest_run (hs : SimpLaw X.simp) (hb : BackLaw X.back ev) {p : Pool E} (hp : Core X p) {d : Decision} (hd : DecOk d) :
    Run (Core X) Fr (boolTest X d) p True (fun b q => ∃ d', d'.test = d.test ∧ DecOk d' ∧ q.node b = some (.inner d' q.oneId q.zeroId)) := by
  unfold boolTest
  refine Run.bindGet ?_
  refine (internal_canon hs hp hd (.leaf hp.one) (.leaf hp.zero)).imp id fun b q hq hpq ⟨T, hT, hc⟩ => ?_
  rcases hc with ⟨-, h⟩ | ⟨d', h1, h2, rfl⟩
  · exact absurd (XTree.leaf.inj h).symm hb.ne
  · refine ⟨d', h1, h2, ?_⟩
    cases hT with
    | node hn hA hB =>
      cases hA with
      | leaf ha => cases hB with
        | leaf hb' => rw [hn, hq.leaf_inj ha hq.one, hq.leaf_inj hb' hq.zero]

/-- `internal` on the constants. -/
theorem swap_run (hs : SimpLaw X.simp) (hb : BackLaw X.back ev) {p : Pool E} (hp : Core X p) {d : Decision} (hd : DecOk d) {n : ℕ}
    {a b : ℕ} {ea eb : E} (hn : p.node n = some (.inner d a b)) (ha : p.node a = some (.leaf ea)) (hb' : p.node b = some (.leaf eb))
    (hne : (ea = X.back.alg.one ∧ eb = X.back.alg.zero) ∨ (ea = X.back.alg.zero ∧ eb = X.back.alg.one)) :
    Run (Core X) Fr (internal X d b a) p True (fun r q => ∃ d', d'.test = d.test ∧ DecOk d' ∧ Den q r (.node d' (.leaf eb) (.leaf ea)) ∧
      InvMsg X ev q n r) := by
  refine (internal_canon hs hp hd (.leaf hb') (.leaf ha)).imp id fun r q hq hpq ⟨T, hT, hc⟩ => ?_
  rcases hc with ⟨-, h⟩ | ⟨d', h1, h2, rfl⟩
  · exfalso
    have := XTree.leaf.inj h
    rcases hne with ⟨rfl, rfl⟩ | ⟨rfl, rfl⟩
    · exact hb.ne this
    · exact hb.ne this.symm
  · refine ⟨d', h1, h2, hT, .node d (.leaf ea) (.leaf eb), _, .node (hpq.node hn) (.leaf (hpq.node ha)) (.leaf (hpq.node hb')), hT, ?_⟩
    refine ⟨fun c => ⟨fun ρ => ?_, fun _ => ?_⟩, fun g hg => Or.inl ?_, fun _ => ⟨fun g hg => by simp [XTree.tests] at hg, trivial, trivial⟩⟩
    · simp only [XTree.leafAt_node, h1, XTree.leafAt_leaf]
      rcases hne with ⟨rfl, rfl⟩ | ⟨rfl, rfl⟩ <;> cases c d.test <;> simp [hb.evZero, hb.evOne]
    · simp only [XTree.leafAt_node, h1, XTree.leafAt_leaf]
      rcases hne with ⟨rfl, rfl⟩ | ⟨rfl, rfl⟩ <;> cases c d.test <;> simp
    · simpa [XTree.tests, h1] using hg

/-- The inversion of a single test. -/
theorem invertF_test (hs : SimpLaw X.simp) (hb : BackLaw X.back ev) (k : ℕ) {p : Pool E} (hp : Inv1 X p) {d : Decision} {n : ℕ}
    (hn : p.node n = some (.inner d p.oneId p.zeroId)) :
    Run (Inv1 X) Fr1 (invertF X (k + 1) n) p True (fun r q => ∃ d', d'.test = d.test ∧ DecOk d' ∧
      Den q r (.node d' (.leaf X.back.alg.zero) (.leaf X.back.alg.one))) := by
  unfold invertF
  refine Run.bindEq (R := Fr1) (fun h h' => h.trans h') (q := p) (a := .inner d p.oneId p.zeroId) (by unfold getNode; rw [hn]) (Fr1.refl p) ?_
  refine Run.bindGet ?_
  simp only [and_self, if_true]
  refine (((swap_run hs hb hp.core (hp.core.inner hn).2.2.2.2.2.1 hn hp.core.one hp.core.zero (Or.inl ⟨rfl, rfl⟩)).core hp.toInv0).inv0 hp).imp id
    fun r q _ _ ⟨d', h1, h2, h3, _⟩ => ⟨d', h1, h2, h3⟩

/-- The visitor of inner nodes. -/
theorem leafInternal_run {Rel : (Formula → Bool) → E → E → Prop} {P : Formula → Prop} {O : Prop} (hs : SimpLaw X.simp) (hb : BackLaw X.back ev)
    {q : Pool E} (hq : Inv1 X q) {n : ℕ} {d : Decision} {t f a b : ℕ}
    (hn : q.node n = some (.inner d t f)) (ha : LeafMsg Rel P O q t a) (hb' : LeafMsg Rel P O q f b) (k : ℕ) :
    Run (Inv1 X) Fr1 (leafInternal X (invertF X (k + 1)) n d (some a) (some b)) q True (fun r q' => LeafMsg Rel P O q' n r) := by
  obtain ⟨A, A', hA, hA', sA⟩ := ha
  obtain ⟨B, B', hB, hB', sB⟩ := hb'
  have hd := (hq.core.inner hn).2.2.2.2.2.1
  unfold leafInternal
  refine Run.seq1 (((boolTest_run hs hb hq.core hd).core hq.toInv0).inv0 hq) id ?_
  rintro c q1 hq1 h01 ⟨d1, e1, k1, hn1⟩
  have hD1 : Den q1 c (.node d1 (.leaf X.back.alg.one) (.leaf X.back.alg.zero)) := .node hn1 (.leaf hq1.core.one) (.leaf hq1.core.zero)
  refine Run.bindEq (R := Fr1) (fun h h' => h.trans h') (q := q1) (a := a) rfl (Fr1.refl q1) ?_
  refine Run.seq1 ((apply_run hs .mul hq1.toInv0 hD1 (h01.den hA')).inv0 hq1) (fun _ h => by rcases h with h | h <;> cases h) ?_
  rintro u q2 hq2 h12 ⟨U, hU, sU⟩
  refine Run.seq1 (invertF_test hs hb k hq2 (d := d1) (n := c) (by rw [h12.toExt.one, h12.toExt.zero]; exact h12.node hn1)) id ?_
  rintro i q3 hq3 h23 ⟨d3, e3, k3, hD3⟩
  refine Run.bindEq (R := Fr1) (fun h h' => h.trans h') (q := q3) (a := b) rfl (Fr1.refl q3) ?_
  have h03 := (h01.trans h12).trans h23
  refine Run.seq1 ((apply_run hs .mul hq3.toInv0 hD3 (h03.den hB')).inv0 hq3) (fun _ h => by rcases h with h | h <;> cases h) ?_
  rintro v q4 hq4 h34 ⟨V, hV, sV⟩
  refine ((apply_run hs .add hq4.toInv0 ((h23.trans h34).den hU) hV).inv0 hq4).imp (fun _ h => by rcases h with h | h <;> cases h) ?_
  rintro r q5 hq5 h45 ⟨R, hR, sR⟩
  have h05 := (h03.trans h34).trans h45
  refine ⟨.node d A B, R, .node (h05.node hn) (h05.den hA) (h05.den hB), hR, ?_⟩
  have hne := hb.ne
  have hleaf : ∀ c, R.leafAt c = if c d.test then opE X .mul X.back.alg.one (A'.leafAt c) else opE X .mul X.back.alg.one (B'.leafAt c) := by
    intro c
    rw [sR.leaf, sU.leaf, sV.leaf]
    simp only [XTree.leafAt_node, XTree.leafAt_leaf, e3, e1]
    cases c d.test
    · simp only [Bool.false_eq_true, if_false]
      have : opE X .mul X.back.alg.zero (A'.leafAt c) = X.back.alg.zero := by simp [opE]
      rw [this]
      simp [opE]
    · simp only [if_true]
      have : opE X .mul X.back.alg.zero (B'.leafAt c) = X.back.alg.zero := by simp [opE]
      rw [this]
      generalize opE X .mul X.back.alg.one (A'.leafAt c) = w
      simp only [opE]
      split
      · rename_i h; exact h.symm
      · simp
  have hid : ∀ e, opE X .mul X.back.alg.one e = e := by
    intro e
    simp only [opE]
    split
    · rename_i h
      rcases h with h | h
      · exact absurd h hne.symm
      · exact h.symm
    · simp
  simp only [hid] at hleaf
  refine ⟨fun c => ?_, fun g hg => ?_, fun o => ?_⟩
  · rw [hleaf, XTree.leafAt_node]
    cases c d.test
    · simpa using sB.rel c
    · simpa using sA.rel c
  · simp only [XTree.tests, List.mem_cons, List.mem_append]
    rcases sR.tests g hg with h | h
    · rcases sU.tests g h with h | h
      · simp only [XTree.tests, List.append_nil, List.mem_singleton, e1] at h
        exact Or.inl (Or.inl h)
      · exact (sA.tests g h).imp (fun h => Or.inr (Or.inl h)) id
    · rcases sV.tests g h with h | h
      · simp only [XTree.tests, List.append_nil, List.mem_singleton, e3, e1] at h
        exact Or.inl (Or.inl h)
      · exact (sB.tests g h).imp (fun h => Or.inr (Or.inr h)) id
  · have single : ∀ (d : Decision) (e e' : E) (L : List Formula), (XTree.node d (.leaf e) (.leaf e')).Ord L :=
      fun d e e' L => ⟨fun g hg => by simp [XTree.tests] at hg, trivial, trivial⟩
    have oU : U.Ord q2.tests := sU.ord (single _ _ _ _) ((XTree.Ord.mono (h01.trans h12).toExt.tests (hA'.tests hq.core)).mpr (sA.ord o))
    have oV : V.Ord q4.tests := sV.ord (single _ _ _ _) ((XTree.Ord.mono (h03.trans h34).toExt.tests (hB'.tests hq.core)).mpr (sB.ord o))
    exact sR.ord ((XTree.Ord.mono ((h23.trans h34).trans h45).toExt.tests (hU.tests hq2.core)).mpr oU)
      ((XTree.Ord.mono h45.toExt.tests (hV.tests hq4.core)).mpr oV)

/-- The visitor of inner nodes when a message is missing. -/
theorem leafInternal_lost {Rel : (Formula → Bool) → E → E → Prop} {P : Formula → Prop} {O : Prop} (hs : SimpLaw X.simp) (hb : BackLaw X.back ev)
    {q : Pool E} (hq : Inv1 X q) {n : ℕ} {d : Decision} {t f : ℕ}
    {a b : Option ℕ} (hn : q.node n = some (.inner d t f)) (ha : ∀ x, a = some x → LeafMsg Rel P O q t x) (hl : a = none ∨ b = none) (k : ℕ) :
    Run (Inv1 X) Fr1 (leafInternal X (invertF X (k + 1)) n d a b) q False (fun _ _ => False) := by
  have hd := (hq.core.inner hn).2.2.2.2.2.1
  unfold leafInternal
  refine Run.seq1 (((boolTest_run hs hb hq.core hd).core hq.toInv0).inv0 hq) (fun h => h.elim) ?_
  rintro c q1 hq1 h01 ⟨d1, e1, k1, hn1⟩
  cases a with
  | none =>
    have : (message (E := E) none) = XM.fail .runtimeError := rfl
    rw [this]
    exact Run.bind (R := Fr1) (fun h h' => h.trans h') (P := fun _ _ => False) (Run.fail Fr1.refl hq1 id) fun _ _ _ _ h => h.elim
  | some a =>
    have hbn : b = none := by simpa using hl
    subst hbn
    obtain ⟨A, A', hA, hA', sA⟩ := ha a rfl
    have hD1 : Den q1 c (.node d1 (.leaf X.back.alg.one) (.leaf X.back.alg.zero)) := .node hn1 (.leaf hq1.core.one) (.leaf hq1.core.zero)
    refine Run.bindEq (R := Fr1) (fun h h' => h.trans h') (q := q1) (a := a) rfl (Fr1.refl q1) ?_
    refine Run.seq1 ((apply_run hs .mul hq1.toInv0 hD1 (h01.den hA')).inv0 hq1) (fun h => h.elim) ?_
    rintro u q2 hq2 h12 -
    refine Run.seq1 (invertF_test hs hb k hq2 (d := d1) (n := c) (by rw [h12.toExt.one, h12.toExt.zero]; exact h12.node hn1)) (fun h => h.elim) ?_
    rintro i q3 hq3 h23 -
    have : (message (E := E) none) = XM.fail .runtimeError := rfl
    rw [this]
    exact Run.bind (R := Fr1) (fun h h' => h.trans h') (P := fun _ _ => False) (Run.fail Fr1.refl hq3 id) fun _ _ _ _ h => h.elim

/-- The visitor of leaves. -/
theorem transformInvert_run (hb : BackLaw X.back ev) {q : Pool E} (hq : Inv1 X q) {n : ℕ} {e : E} (hn : q.node n = some (.leaf e)) :
    Run (Inv1 X) Fr1 (transformInvert X n e) q (e = X.back.alg.zero ∨ e = X.back.alg.one) (fun r q' => InvMsg X ev q' n r) := by
  have hspec : ∀ e' m, q.node m = some (.leaf e') → (e' = X.back.alg.zero ∨ e' = X.back.alg.one) →
      (∀ ρ, ev e' ρ = 1 - ev e ρ) → InvMsg X ev q n m := by
    intro e' m hm he' hv
    exact ⟨_, _, .leaf hn, .leaf hm, fun c => ⟨hv, fun _ => he'⟩, fun g hg => (by cases hg), fun _ => trivial⟩
  unfold transformInvert
  refine Run.bindGet ?_
  cases h1 : X.back.isOne e with
  | error err =>
    refine Run.bind (R := Fr1) (fun h h' => h.trans h') (P := fun _ _ => False) (Run.fail Fr1.refl hq ?_) fun _ _ _ _ h => h.elim
    rintro (rfl | rfl)
    · rw [hb.oneZero] at h1; cases h1
    · rw [hb.oneOne] at h1; cases h1
  | ok v =>
    refine Run.bindLift (a := v) rfl ?_
    cases v with
    | true =>
      refine Run.ret Fr1.refl hq (hspec _ _ hq.core.zero (Or.inl rfl) fun ρ => ?_)
      rw [hb.isOne e h1, hb.evZero]; simp
    | false =>
      simp only [Bool.false_eq_true, if_false]
      cases h2 : X.back.isZero e with
      | error err =>
        refine Run.bind (R := Fr1) (fun h h' => h.trans h') (P := fun _ _ => False) (Run.fail Fr1.refl hq ?_) fun _ _ _ _ h => h.elim
        rintro (rfl | rfl)
        · rw [hb.zeroZero] at h2; cases h2
        · rw [hb.oneOne] at h1; cases h1
      | ok v =>
        refine Run.bindLift (a := v) rfl ?_
        cases v with
        | true =>
          refine Run.ret Fr1.refl hq (hspec _ _ hq.core.one (Or.inr rfl) fun ρ => ?_)
          rw [hb.isZero e h2, hb.evOne]; simp
        | false =>
          refine Run.fail Fr1.refl hq ?_
          rintro (rfl | rfl)
          · rw [hb.zeroZero] at h2; cases h2
          · rw [hb.oneOne] at h1; cases h1

/-- `Pool.invert` computes the inversion of 0/1 diagrams. -/
theorem invert_run (hs : SimpLaw X.simp) (hb : BackLaw X.back ev) {p : Pool E} (hp : InvP X p) {n : ℕ} {T : XTree E} (hT : Den p n T) :
    Run (InvP X) FrI (invert X n) p (Bin X T) (fun r q => ∃ T', Den q r T' ∧ InvSpec X ev q.tests T T') := by
  have fin : ∀ {r : ℕ} {q : Pool E}, FrI p q → InvMsg X ev q n r → ∃ T', Den q r T' ∧ InvSpec X ev q.tests T T' := by
    rintro r q hpq ⟨U, T', hU, hT', h⟩
    rw [hU.unique (hpq.den hT)] at h
    exact ⟨T', hT', h⟩
  obtain ⟨x, hx⟩ := Option.isSome_iff_exists.mp hT.isSome
  unfold invert invertF
  refine Run.bindEq (R := FrI) (fun h h' => h.trans h') (q := p) (a := x) (by unfold getNode; rw [hx]) (FrI.refl p) ?_
  refine Run.bindGet ?_
  cases x with
  | leaf e =>
    simp only
    have hTe : T = .leaf e := hT.unique (.leaf hx)
    subst hTe
    split
    · rename_i h
      subst h
      have he : e = X.back.alg.one := by have := hp.core.one; rw [hx] at this; simpa using this
      subst he
      refine Run.ret FrI.refl hp ⟨_, .leaf hp.core.zero, fun c => ⟨fun ρ => ?_, fun _ => Or.inl rfl⟩, fun g hg => (by cases hg), fun _ => trivial⟩
      simp [hb.evZero, hb.evOne]
    · split
      · rename_i h
        subst h
        have he : e = X.back.alg.zero := by have := hp.core.zero; rw [hx] at this; simpa using this
        subst he
        refine Run.ret FrI.refl hp ⟨_, .leaf hp.core.one, fun c => ⟨fun ρ => ?_, fun _ => Or.inr rfl⟩, fun g hg => (by cases hg), fun _ => trivial⟩
        simp [hb.evZero, hb.evOne]
      · rename_i h1 h2
        refine Run.fail FrI.refl hp fun hbin => ?_
        rcases bin_leaf.mp hbin with rfl | rfl
        · exact h2 (hp.core.leaf_inj hx hp.core.zero)
        · exact h1 (hp.core.leaf_inj hx hp.core.one)
  | inner d t f =>
    simp only
    have hd := (hp.core.inner hx).2.2.2.2.2.1
    split
    · rename_i h
      obtain ⟨rfl, rfl⟩ := h
      refine ((((swap_run hs hb hp.core hd hx hp.core.one hp.core.zero (Or.inl ⟨rfl, rfl⟩)).core hp.toInv0).inv0 hp.toInv1).inv1 hp).imp
        (fun _ => trivial) fun r q _ hpq ⟨d', _, _, _, h⟩ => fin hpq h
    · split
      · rename_i h
        obtain ⟨rfl, rfl⟩ := h
        refine ((((swap_run hs hb hp.core hd hx hp.core.zero hp.core.one (Or.inr ⟨rfl, rfl⟩)).core hp.toInv0).inv0 hp.toInv1).inv1 hp).imp
          (fun _ => trivial) fun r q _ hpq ⟨d', _, _, _, h⟩ => fin hpq h
      · have hv : Visitors X p n (transformInvert X) (leafInternal X (invertF X 1)) (InvMsg X ev) (Bin X T) := by
          refine ⟨fun q q' m a hq _ he h => h.mono hq.core he, ?_, ?_, ?_⟩
          · intro q m e hq hpq hm hxm
            refine (transformInvert_run hb hq hxm).imp (fun hbin => ?_) fun _ _ _ _ h => h
            have hxp : p.node m = some (.leaf e) := by
              obtain ⟨y, hy⟩ := Option.isSome_iff_exists.mp (hp.core.reach_some hT.isSome hm)
              have := hpq.node hy
              rw [hxm] at this
              rw [hy, this]
            exact hbin e (hT.reach_leaf hm hxp)
          · intro q m d t f a b hq hpq hm hxm ha hb'
            exact (leafInternal_run hs hb hq hxm ha hb' 0).imp (fun _ => trivial) fun _ _ _ _ h => h
          · intro q m d t f a b hq hpq hm hxm ha hb' hl
            exact leafInternal_lost hs hb hq hxm ha hl 0
        have hip : IP X n (Bin X T) p := by
          refine ⟨hp.toInv1, fun pr hl => ?_⟩
          obtain ⟨U, h1, h2⟩ := hp.prof n pr hl
          rw [h1.unique hT] at h2
          exact h2
        have hrun := bottomUp_run hip hT.isSome hv
        refine Run.imp (Run.weaken hrun (R' := FrI) (I' := InvP X) ?_ fun q hpq => ⟨hpq.toExt, hpq.resolveC, hpq.walkC⟩) id
          fun r q _ hpq h => fin hpq h
        intro q hq hpq
        refine ⟨hq.toInv1, fun r pr hl => ?_⟩
        by_cases hr : r = n
        · subst hr
          exact ⟨T, hpq.den hT, hq.prof pr hl⟩
        · rw [hpq.profC r hr] at hl
          obtain ⟨U, h1, h2⟩ := hp.prof r pr hl
          exact ⟨U, hpq.den h1, h2.mono hpq.toExt hp.core⟩

end
end Pywmi
