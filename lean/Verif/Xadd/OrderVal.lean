import Verif.Xadd.Order
import Verif.Xadd.Value

set_option linter.unusedSectionVars false
set_option linter.unusedSimpArgs false

/-!
# `Pool.apply` with an ordering of tests keeps values, and follows the ordering
-/

namespace Pywmi
open Formula Prog Decision

section
variable {E : Type} [DecidableEq E]

/-- SPEC: an order of some tests. -/
structure TestOrder where
  on : Formula → Prop
  lt : Formula → Formula → Prop

/-- SPEC: the tests are tests of the order, and go up on every path. -/
def RelOrd (R : TestOrder) : XTree E → Prop
  | .leaf _ => True
  | .node d t f => R.on d.test ∧ (∀ g, g ∈ t.tests ∨ g ∈ f.tests → R.lt d.test g) ∧ RelOrd R t ∧ RelOrd R f

/-- SPEC: the object offers the method that the pool asks for. -/
def Offers (o : Option XOrdering) : Prop := ∀ x, o = some x → x.smallerEg.isSome

/-- SPEC: the object decides by the order. -/
structure FollowsOrder (o : Option XOrdering) (R : TestOrder) : Prop where
  trans : ∀ f g h, R.lt f g → R.lt g h → R.lt f h
  decides : ∃ x le, o = some x ∧ x.smallerEg = some le ∧
    ∀ i f j g, R.on f → R.on g → if le i f j g then f = g ∨ R.lt f g else f = g ∨ R.lt g f

/-- SPEC: the third diagram is the operation applied to the first two, and ordered if they are, for the relations given. -/
structure AppVal (X : XCtx E) (Rk : Set TestOrder) (op : XOp) (T1 T2 T : XTree E) : Prop where
  leaf : ∀ c, T.leafAt c = opE X op (T1.leafAt c) (T2.leafAt c)
  tests : ∀ g ∈ T.tests, g ∈ T1.tests ∨ g ∈ T2.tests
  ord : ∀ R ∈ Rk, RelOrd R T1 → RelOrd R T2 → RelOrd R T
  bin : op ≠ .add → Bin X T1 → Bin X T2 → Bin X T

/-- SPEC: the node `r` stands for the operation applied to the nodes `a` and `b`. -/
def ApplyVal (X : XCtx E) (Rk : Set TestOrder) (p : Pool E) (op : XOp) (a b r : ℕ) : Prop :=
  ∃ T1 T2 T, Den p a T1 ∧ Den p b T2 ∧ Den p r T ∧ AppVal X Rk op T1 T2 T

/-- The invariant with the cache of `apply`. -/
structure InvV (X : XCtx E) (Rk : Set TestOrder) (p : Pool E) : Prop where
  core : Core X p
  app : ∀ op a b r, p.applyCache.lookup (op, a, b) = some r → ApplyVal X Rk p op a b r

variable {Rk : Set TestOrder}

theorem ApplyVal.mono {X : XCtx E} {p q : Pool E} (he : Ext p q) {op : XOp} {a b r : ℕ}
    (h : ApplyVal X Rk p op a b r) : ApplyVal X Rk q op a b r := by
  obtain ⟨T1, T2, T, h1, h2, h3, h4⟩ := h
  exact ⟨T1, T2, T, he.den h1, he.den h2, he.den h3, h4⟩

theorem Run.coreV {α : Type} {X : XCtx E} {m : XM E α} {p : Pool E} {s : Prop} {Q : α → Pool E → Prop} (hp : InvV X Rk p)
    (h : Run (Core X) Fr m p s Q) : Run (InvV X Rk) Fr0 m p s Q :=
  h.weaken (fun _ hq hpq => ⟨hq, fun op a b r hr => (hp.app op a b r (hpq.applyC ▸ hr)).mono hpq.toExt⟩)
    fun _ hpq => hpq.fr0

theorem Inv0.values {X : XCtx E} {p : Pool E} (h : Inv0 X p) : InvV X ∅ p :=
  ⟨h.core, fun op a b r hr => by
    obtain ⟨T1, T2, T, h1, h2, h3, h4⟩ := h.app op a b r hr
    exact ⟨T1, T2, T, h1, h2, h3, h4.leaf, h4.tests, fun _ h => absurd h (Set.notMem_empty _), h4.bin⟩⟩

/-- SPEC: the test is the root's test or comes before it. -/
def BeforeR (R : TestOrder) (g : Formula) : XTree E → Prop
  | .leaf _ => True
  | .node d _ _ => g = d.test ∨ R.lt g d.test

theorem splitT_relOrd {R : TestOrder} (htr : ∀ f g h, R.lt f g → R.lt g h → R.lt f h) {g : Formula} {T : XTree E} (hT : RelOrd R T)
    (hb : BeforeR R g T) :
    RelOrd R (splitT g T).1 ∧ RelOrd R (splitT g T).2 ∧ (∀ h ∈ (splitT g T).1.tests, R.lt g h) ∧
      ∀ h ∈ (splitT g T).2.tests, R.lt g h := by
  cases T with
  | leaf e => exact ⟨trivial, trivial, fun h hh => (by cases hh), fun h hh => (by cases hh)⟩
  | node d t f =>
    rw [splitT]
    split
    · rename_i h
      subst h
      exact ⟨hT.2.2.1, hT.2.2.2, fun h hh => hT.2.1 h (Or.inl hh), fun h hh => hT.2.1 h (Or.inr hh)⟩
    · rename_i h
      have hlt : R.lt g d.test := hb.resolve_left fun e => h e.symm
      have : ∀ h ∈ (XTree.node d t f).tests, R.lt g h := by
        intro h' hh
        simp only [XTree.tests, List.mem_cons, List.mem_append] at hh
        rcases hh with rfl | hh
        · exact hlt
        · exact htr _ _ _ hlt (hT.2.1 h' hh)
      exact ⟨hT, hT, this, this⟩

theorem computeTerminal_runV {X : XCtx E} {p : Pool E} (hp : InvV X Rk p) (op : XOp) {a b : ℕ} {x y : XNode E}
    (hx : p.node a = some x) (hy : p.node b = some y) {T1 T2 : XTree E} (h1 : Den p a T1) (h2 : Den p b T2) :
    Run (InvV X Rk) Fr0 (computeTerminal X op a x b y) p (op = .or ∨ op = .and → Bin X T1 ∧ Bin X T2)
      (fun r q => match r with
        | some n => ∃ T, Den q n T ∧ AppVal X Rk op T1 T2 T
        | none => q = p ∧ ¬(x.isLeaf = true ∧ y.isLeaf = true)) := by
  have keep : ∀ {s : Prop} {n : ℕ} {T : XTree E}, Den p n T → AppVal X Rk op T1 T2 T →
      Run (InvV X Rk) Fr0 (pure (some n) : XM E (Option ℕ)) p s
        (fun r q => match r with
          | some n => ∃ T, Den q n T ∧ AppVal X Rk op T1 T2 T
          | none => q = p ∧ ¬(x.isLeaf = true ∧ y.isLeaf = true)) :=
    fun {s n T} hd hs => Run.ret Fr0.refl hp ⟨T, hd, hs⟩
  have first : (∀ c, T1.leafAt c = opE X op (T1.leafAt c) (T2.leafAt c)) → AppVal X Rk op T1 T2 T1 := fun h =>
    ⟨h, fun g hg => Or.inl hg, fun _ _ h _ => h, fun _ h _ => h⟩
  have second : (∀ c, T2.leafAt c = opE X op (T1.leafAt c) (T2.leafAt c)) → AppVal X Rk op T1 T2 T2 := fun h =>
    ⟨h, fun g hg => Or.inr hg, fun _ _ _ h => h, fun _ _ h => h⟩
  have zero : (∀ c, X.back.alg.zero = opE X op (T1.leafAt c) (T2.leafAt c)) →
      AppVal X Rk op T1 T2 (.leaf X.back.alg.zero) := fun h =>
    ⟨h, fun g hg => (by cases hg), fun _ _ _ _ => trivial, fun _ _ _ => bin_leaf.mpr (Or.inl rfl)⟩
  have one : (∀ c, X.back.alg.one = opE X op (T1.leafAt c) (T2.leafAt c)) →
      AppVal X Rk op T1 T2 (.leaf X.back.alg.one) := fun h =>
    ⟨h, fun g hg => (by cases hg), fun _ _ _ _ => trivial, fun _ _ _ => bin_leaf.mpr (Or.inr rfl)⟩
  have dz : Den p p.zeroId (.leaf X.back.alg.zero) := .leaf hp.core.zero
  have d1 : Den p p.oneId (.leaf X.back.alg.one) := .leaf hp.core.one
  have lx := h1.isLeaf hx
  have ly := h2.isLeaf hy
  have za := hp.core.leafZero h1
  have zb := hp.core.leafZero h2
  have oa := hp.core.leafOne h1
  have ob := hp.core.leafOne h2
  unfold computeTerminal
  refine Run.bindGet ?_
  cases op with
  | mul =>
    simp only
    split
    · rename_i h
      refine keep dz (zero fun c => ?_)
      rcases h with h | h
      · rw [za.mp h]; simp [opE]
      · rw [zb.mp h]; simp [opE]
    · rename_i h
      push Not at h
      split
      · rename_i h'
        have hne : X.back.alg.one ≠ X.back.alg.zero := fun e => h.1 (za.mpr (by rw [oa.mp h', e]))
        refine keep h2 (second fun c => ?_)
        rw [oa.mp h', XTree.leafAt_leaf]
        simp only [opE, hne, false_or, if_true]
        split
        · rename_i h''; exact h''
        · rfl
      · split
        · rename_i h'
          have hne : X.back.alg.one ≠ X.back.alg.zero := fun e => h.2 (zb.mpr (by rw [ob.mp h', e]))
          refine keep h1 (first fun c => ?_)
          rw [ob.mp h', XTree.leafAt_leaf]
          simp only [opE, hne, or_false, if_true]
          split
          · rename_i h''; exact h''
          · split
            · rename_i h''; exact h''
            · rfl
        · rename_i ha hb
          split
          · rename_i e e'
            have e1 : T1 = .leaf e := h1.unique (.leaf hx)
            have e2 : T2 = .leaf e' := h2.unique (.leaf hy)
            subst e1 e2
            have f1 : e ≠ X.back.alg.zero := fun h' => h.1 (za.mpr (by rw [h']))
            have f2 : e' ≠ X.back.alg.zero := fun h' => h.2 (zb.mpr (by rw [h']))
            have f3 : e ≠ X.back.alg.one := fun h' => ha (oa.mpr (by rw [h']))
            have f4 : e' ≠ X.back.alg.one := fun h' => hb (ob.mpr (by rw [h']))
            refine Run.seq0 ((terminal_run hp.core _).coreV hp) (fun _ => trivial) ?_
            intro n q hq _ hn
            refine Run.ret Fr0.refl hq ⟨_, .leaf hn, fun c => ?_, fun g hg => (by cases hg), fun _ _ _ _ => trivial, ?_⟩
            · simp [opE, f1, f2, f3, f4]
            · intro _ hb1 _
              rcases bin_leaf.mp hb1 with h' | h'
              · exact absurd h' f1
              · exact absurd h' f3
          · rename_i hno
            refine Run.ret Fr0.refl hp ⟨rfl, ?_⟩
            rintro ⟨g1, g2⟩
            cases x with
            | inner _ _ _ => cases g1
            | leaf e => cases y with
              | inner _ _ _ => cases g2
              | leaf e' => exact hno e e' rfl rfl
  | add =>
    simp only
    split
    · rename_i h
      exact keep h2 (second fun c => by rw [za.mp h]; simp [opE])
    · rename_i ha
      split
      · rename_i h
        refine keep h1 (first fun c => ?_)
        rw [zb.mp h, XTree.leafAt_leaf]
        simp only [opE, if_true]
        split
        · rename_i h''; exact h''
        · rfl
      · rename_i hb
        split
        · rename_i e e'
          have e1 : T1 = .leaf e := h1.unique (.leaf hx)
          have e2 : T2 = .leaf e' := h2.unique (.leaf hy)
          subst e1 e2
          have f1 : e ≠ X.back.alg.zero := fun h' => ha (za.mpr (by rw [h']))
          have f2 : e' ≠ X.back.alg.zero := fun h' => hb (zb.mpr (by rw [h']))
          refine Run.seq0 ((terminal_run hp.core _).coreV hp) (fun _ => trivial) ?_
          intro n q hq _ hn
          refine Run.ret Fr0.refl hq ⟨_, .leaf hn, fun c => ?_, fun g hg => (by cases hg), fun _ _ _ _ => trivial,
            fun h => absurd rfl h⟩
          simp [opE, f1, f2]
        · rename_i hno
          refine Run.ret Fr0.refl hp ⟨rfl, ?_⟩
          rintro ⟨g1, g2⟩
          cases x with
          | inner _ _ _ => cases g1
          | leaf e => cases y with
            | inner _ _ _ => cases g2
            | leaf e' => exact hno e e' rfl rfl
  | or =>
    simp only
    split
    · rename_i h
      obtain ⟨g1, g2, g3⟩ := h
      refine Run.fail Fr0.refl hp fun hs => ?_
      obtain ⟨b1, b2⟩ := hs (by simp)
      obtain ⟨e, rfl⟩ := lx.mp g1
      obtain ⟨e', rfl⟩ := ly.mp g2
      rw [bin_leaf] at b1 b2
      simp only [XTree.leaf.injEq] at za zb oa ob
      rcases g3 with ⟨g3, g4⟩ | ⟨g3, g4⟩
      · exact b1.elim (fun h => g3 (za.mpr h)) fun h => g4 (oa.mpr h)
      · exact b2.elim (fun h => g3 (zb.mpr h)) fun h => g4 (ob.mpr h)
    · rename_i hbad
      split
      · rename_i h
        exact keep h2 (second fun c => by rw [za.mp h]; simp [opE])
      · rename_i haz
        split
        · rename_i h
          have hne : X.back.alg.one ≠ X.back.alg.zero := fun e => haz (za.mpr (by rw [oa.mp h, e]))
          exact keep d1 (one fun c => by rw [oa.mp h]; simp [opE, hne])
        · rename_i hao
          split
          · rename_i h
            refine keep h1 (first fun c => ?_)
            rw [zb.mp h, XTree.leafAt_leaf]
            simp only [opE, if_true]
            split
            · rename_i h''; exact h''
            · split
              · rename_i h''; exact h''
              · rfl
          · rename_i hbz
            split
            · rename_i h
              have hne : X.back.alg.one ≠ X.back.alg.zero := fun e => hbz (zb.mpr (by rw [ob.mp h, e]))
              refine keep d1 (one fun c => ?_)
              rw [ob.mp h, XTree.leafAt_leaf]
              simp only [opE, hne, if_false]
              split
              · rfl
              · split <;> rfl
            · rename_i hbo
              split
              · rename_i h
                exact absurd ⟨h.1, h.2, Or.inl ⟨haz, hao⟩⟩ hbad
              · rename_i h
                exact Run.ret Fr0.refl hp ⟨rfl, h⟩
  | and =>
    simp only
    split
    · rename_i h
      obtain ⟨g1, g2, g3⟩ := h
      refine Run.fail Fr0.refl hp fun hs => ?_
      obtain ⟨b1, b2⟩ := hs (by simp)
      obtain ⟨e, rfl⟩ := lx.mp g1
      obtain ⟨e', rfl⟩ := ly.mp g2
      rw [bin_leaf] at b1 b2
      simp only [XTree.leaf.injEq] at za zb oa ob
      rcases g3 with ⟨g3, g4⟩ | ⟨g3, g4⟩
      · exact b1.elim (fun h => g3 (za.mpr h)) fun h => g4 (oa.mpr h)
      · exact b2.elim (fun h => g3 (zb.mpr h)) fun h => g4 (ob.mpr h)
    · rename_i hbad
      split
      · rename_i h
        exact keep h2 (second fun c => by rw [oa.mp h]; simp [opE])
      · rename_i hao
        split
        · rename_i h
          have hne : X.back.alg.zero ≠ X.back.alg.one := fun e => hao (oa.mpr (by rw [za.mp h, e]))
          exact keep dz (zero fun c => by rw [za.mp h]; simp [opE, hne])
        · rename_i haz
          split
          · rename_i h
            refine keep h1 (first fun c => ?_)
            rw [ob.mp h, XTree.leafAt_leaf]
            simp only [opE, if_true]
            split
            · rename_i h''; exact h''
            · split
              · rename_i h''; exact h''
              · rfl
          · rename_i hbo
            split
            · rename_i h
              have hne : X.back.alg.zero ≠ X.back.alg.one := fun e => hbo (ob.mpr (by rw [zb.mp h, e]))
              refine keep dz (zero fun c => ?_)
              rw [zb.mp h, XTree.leafAt_leaf]
              simp only [opE, hne, if_false]
              split
              · rfl
              · split <;> rfl
            · rename_i hbz
              split
              · rename_i h
                exact absurd ⟨h.1, h.2, Or.inl ⟨haz, hao⟩⟩ hbad
              · rename_i h
                exact Run.ret Fr0.refl hp ⟨rfl, h⟩

/-! ### The selected test -/

theorem selectTestO_run {X : XCtx E} {p : Pool E} (hp : InvV X Rk p) {o : Option XOrdering} {a b : ℕ} {x y : XNode E} (hx : p.node a = some x)
    (hy : p.node b = some y) {T1 T2 : XTree E} (h1 : Den p a T1) (h2 : Den p b T2) (hno : ¬(x.isLeaf = true ∧ y.isLeaf = true)) :
    Run (InvV X Rk) Fr0 (selectTestO o x y) p (Offers o) (fun d q => q = p ∧ DecOk d ∧ d.test ∈ p.tests ∧
      (∀ R, FollowsOrder o R → RelOrd R T1 → RelOrd R T2 → R.on d.test ∧ BeforeR R d.test T1 ∧ BeforeR R d.test T2) ∧
      ((∃ d' t f, x = .inner d' t f ∧ d'.test = d.test) ∨ ∃ d' t f, y = .inner d' t f ∧ d'.test = d.test)) := by
  cases x with
  | leaf e =>
    have e1 : T1 = .leaf e := h1.unique (.leaf hx)
    subst e1
    cases y with
    | leaf e' => exact absurd ⟨rfl, rfl⟩ hno
    | inner d' t' f' =>
      obtain ⟨-, -, -, -, -, hd, hm⟩ := hp.core.inner hy
      cases h2 with
      | leaf h => rw [hy] at h; simp at h
      | node h _ _ =>
        rw [hy] at h
        simp only [Option.some.injEq, XNode.inner.injEq] at h
        obtain ⟨rfl, rfl, rfl⟩ := h
        exact Run.ret Fr0.refl hp ⟨rfl, hd, hm, fun _ _ _ o2 => ⟨o2.1, trivial, Or.inl rfl⟩, Or.inr ⟨_, _, _, rfl, rfl⟩⟩
  | inner d t f =>
    obtain ⟨-, -, -, -, -, hd, hm⟩ := hp.core.inner hx
    cases h1 with
    | leaf h => rw [hx] at h; simp at h
    | node h _ _ =>
      rw [hx] at h
      simp only [Option.some.injEq, XNode.inner.injEq] at h
      obtain ⟨rfl, rfl, rfl⟩ := h
      cases y with
      | leaf e' =>
        have e2 : T2 = .leaf e' := h2.unique (.leaf hy)
        subst e2
        exact Run.ret Fr0.refl hp ⟨rfl, hd, hm, fun _ _ o1 _ => ⟨o1.1, Or.inl rfl, trivial⟩, Or.inl ⟨_, _, _, rfl, rfl⟩⟩
      | inner d' t' f' =>
        obtain ⟨-, -, -, -, -, hd', hm'⟩ := hp.core.inner hy
        cases h2 with
        | leaf h => rw [hy] at h; simp at h
        | node h _ _ =>
          rw [hy] at h
          simp only [Option.some.injEq, XNode.inner.injEq] at h
          obtain ⟨rfl, rfl, rfl⟩ := h
          obtain ⟨i, hi⟩ := Option.isSome_iff_exists.mp (List.isSome_idxOf?.mpr hm)
          obtain ⟨j, hj⟩ := Option.isSome_iff_exists.mp (List.isSome_idxOf?.mpr hm')
          unfold selectTestO
          refine Run.seq0 (s := Offers o) (P := fun s q => q = p ∧ ∀ R, FollowsOrder o R → R.on d.test → R.on d'.test →
            if s then d.test = d'.test ∨ R.lt d.test d'.test else d.test = d'.test ∨ R.lt d'.test d.test) ?_ (fun h => h) ?_
          · unfold Run testSmallerEqO
            cases o with
            | none =>
              simp only [testSmallerEq, hi, hj]
              refine ⟨hp, Fr0.refl p, fun s _ => ⟨trivial, fun R hl => ?_⟩, fun _ => ⟨_, rfl⟩⟩
              obtain ⟨x, le, hx, -⟩ := hl.decides
              cases hx
            | some o =>
              cases ho : o.smallerEg with
              | none =>
                simp only [ho]
                exact ⟨hp, Fr0.refl p, fun s hs => (by cases hs), fun h => by simpa [ho] using h o rfl⟩
              | some le =>
                simp only [ho]
                refine ⟨hp, Fr0.refl p, fun s hs => ⟨trivial, fun R hl n1 n2 => ?_⟩, fun _ => ⟨_, rfl⟩⟩
                obtain ⟨x, le', hx, hle, hsays⟩ := hl.decides
                cases hx
                rw [ho] at hle
                cases hle
                have := hsays (p.tests.idxOf? d.test) d.test (p.tests.idxOf? d'.test) d'.test n1 n2
                simp only [Except.ok.injEq] at hs
                rw [hs] at this
                exact this
          · rintro s q hq _ ⟨rfl, hsay⟩
            cases s with
            | true =>
              simp only [if_true] at hsay ⊢
              exact Run.ret Fr0.refl hq ⟨rfl, hd, hm, fun R hl o1 o2 => ⟨o1.1, Or.inl rfl, hsay R hl o1.1 o2.1⟩, Or.inl ⟨_, _, _, rfl, rfl⟩⟩
            | false =>
              simp only [Bool.false_eq_true, if_false] at hsay ⊢
              exact Run.ret Fr0.refl hq ⟨rfl, hd', hm', fun R hl o1 o2 => ⟨o2.1, (hsay R hl o1.1 o2.1).imp Eq.symm id, Or.inl rfl⟩, Or.inr ⟨_, _, _, rfl, rfl⟩⟩

/-- Adding an entry to the cache. -/
theorem cacheApply_runV {X : XCtx E} {p : Pool E} (hp : InvV X Rk p) {op : XOp} {a b r : ℕ} (h : ApplyVal X Rk p op a b r)
    {s : Prop} {Q : ℕ → Pool E → Prop} (hQ : ∀ q : Pool E, q.slots = p.slots → q.tests = p.tests → Ext p q → Q r q) :
    Run (InvV X Rk) Fr0 (do XM.modify fun p => { p with applyCache := ((op, a, b), r) :: p.applyCache }; pure r) p s Q := by
  have hext : Ext p { p with applyCache := ((op, a, b), r) :: p.applyCache } :=
    ⟨List.prefix_refl _, List.prefix_refl _, rfl, rfl⟩
  have hcore : Core X { p with applyCache := ((op, a, b), r) :: p.applyCache } :=
    have c := hp.core
    have hn : ∀ n, Pool.node { p with applyCache := ((op, a, b), r) :: p.applyCache } n = p.node n := node_congr rfl
    ⟨(hn _).trans c.zero, (hn _).trans c.one, fun h => by simp only [hn] at h ⊢; exact c.inner h,
      fun e n => by rw [hn]; exact c.exprs e n, fun i t f n => by simp only [hn]; exact c.inners i t f n, c.nodup⟩
  refine ⟨⟨hcore, ?_⟩, ⟨hext, rfl, rfl, rfl, rfl⟩, fun n hn => ?_, fun _ => ⟨r, rfl⟩⟩
  · intro op' a' b' r' hl
    simp only [XM.bind_apply, XM.modify, XM.pure_apply, List.lookup_cons] at hl
    split at hl
    · rename_i hk
      simp only [beq_iff_eq, Prod.mk.injEq] at hk
      obtain ⟨rfl, rfl, rfl⟩ := hk
      simp only [Option.some.injEq] at hl
      subst hl
      exact h.mono hext
    · exact (hp.app _ _ _ _ hl).mono hext
  · simp only [XM.bind_apply, XM.modify, XM.pure_apply, Except.ok.injEq] at hn ⊢
    subst hn
    exact hQ _ rfl rfl hext

theorem applyFO_run {X : XCtx E} (hs : SimpLaw X.simp) {o : Option XOrdering} (ho : ∀ R ∈ Rk, FollowsOrder o R) (op : XOp) : ∀ (k : ℕ) {p : Pool E}, InvV X Rk p → ∀ {a b : ℕ} {T1 T2 : XTree E},
    Den p a T1 → Den p b T2 → a + b < k →
    Run (InvV X Rk) Fr0 (applyFO X o op k a b) p (Offers o ∧ (op = .or ∨ op = .and → Bin X T1 ∧ Bin X T2))
      (fun r q => ∃ T, Den q r T ∧ AppVal X Rk op T1 T2 T) := by
  intro k
  induction k with
  | zero => intro p _ a b T1 T2 _ _ h; omega
  | succ k ih =>
    intro p hp a b T1 T2 h1 h2 hk
    unfold applyFO
    refine Run.bindGet ?_
    cases hc : p.applyCache.lookup (op, a, b) with
    | some r =>
      obtain ⟨U1, U2, T, g1, g2, g3, g4⟩ := hp.app _ _ _ _ hc
      rw [g1.unique h1, g2.unique h2] at g4
      exact Run.ret Fr0.refl hp ⟨T, g3, g4⟩
    | none =>
      simp only
      obtain ⟨x, hx⟩ := Option.isSome_iff_exists.mp h1.isSome
      obtain ⟨y, hy⟩ := Option.isSome_iff_exists.mp h2.isSome
      refine Run.seq0 ((getNode_run hp (n := a)).weaken (fun _ h _ => h) fun _ h => h.fr0) (fun _ => h1.isSome) ?_
      rintro x' q hq - ⟨rfl, hx'⟩
      rw [hx] at hx'
      cases hx'
      refine Run.seq0 ((getNode_run hp (n := b)).weaken (fun _ h _ => h) fun _ h => h.fr0) (fun _ => h2.isSome) ?_
      rintro y' q' hq' - ⟨rfl, hy'⟩
      rw [hy] at hy'
      cases hy'
      refine Run.seq0 (computeTerminal_runV hp op hx hy h1 h2) And.right ?_
      intro r q1 hq1 hpq1 hr
      cases r with
      | some r =>
        simp only at hr ⊢
        obtain ⟨T, hT, hsp⟩ := hr
        refine cacheApply_runV hq1 ⟨T1, T2, T, hpq1.den h1, hpq1.den h2, hT, hsp⟩ fun q2 _ _ he => ?_
        exact ⟨T, he.den hT, hsp⟩
      | none =>
        simp only at hr ⊢
        obtain ⟨rfl, hno⟩ := hr
        refine Run.seq0 (selectTestO_run (o := o) hp hx hy h1 h2 hno) And.left ?_
        rintro sel q2 - - ⟨rfl, hd, hm, hb, hwho⟩
        obtain ⟨a1, a2⟩ := splitOn_den (sel := sel) hx h1
        obtain ⟨b1, b2⟩ := splitOn_den (sel := sel) hy h2
        have hla := splitOn_le hp.core (sel := sel) hx
        have hlb := splitOn_le hp.core (sel := sel) hy
        have hlt : (splitOn sel a x).1 + (splitOn sel b y).1 < k ∧ (splitOn sel a x).2 + (splitOn sel b y).2 < k := by
          rcases hwho with ⟨d', t, f, rfl, hd'⟩ | ⟨d', t, f, rfl, hd'⟩
          · have := splitOn_lt hp.core hx hd'
            omega
          · have := splitOn_lt hp.core hy hd'
            omega
        have hbin : (op = .or ∨ op = .and → Bin X T1 ∧ Bin X T2) →
            (op = .or ∨ op = .and → Bin X (splitT sel.test T1).1 ∧ Bin X (splitT sel.test T2).1) ∧
            (op = .or ∨ op = .and → Bin X (splitT sel.test T1).2 ∧ Bin X (splitT sel.test T2).2) := fun h =>
          ⟨fun ho => ⟨fun e he => (h ho).1 e ((splitT_leaves sel.test T1).1 e he), fun e he => (h ho).2 e ((splitT_leaves sel.test T2).1 e he)⟩,
           fun ho => ⟨fun e he => (h ho).1 e ((splitT_leaves sel.test T1).2 e he), fun e he => (h ho).2 e ((splitT_leaves sel.test T2).2 e he)⟩⟩
        refine Run.seq0 (ih hp a1 b1 hlt.1) (fun h => ⟨h.1, (hbin h.2).1⟩) ?_
        rintro ct q3 hq3 h23 ⟨A, hA, sA⟩
        refine Run.seq0 (ih hq3 (h23.den a2) (h23.den b2) hlt.2) (fun h => ⟨h.1, (hbin h.2).2⟩) ?_
        rintro cf q4 hq4 h34 ⟨B, hB, sB⟩
        refine Run.seq0 ((internal_canon hs hq4.core hd (h34.den hA) hB).coreV hq4) (fun _ => trivial) ?_
        rintro r q5 hq5 h45 ⟨T, hT, hcan⟩
        have h25 : Fr0 q2 q5 := (h23.trans h34).trans h45
        have sA5 := sA
        have sB5 := sB
        have hspec : AppVal X Rk op T1 T2 T := by
          have hleaf : ∀ c, T.leafAt c = if c sel.test then A.leafAt c else B.leafAt c := by
            intro c
            rcases hcan with ⟨rfl, rfl⟩ | ⟨d', hd', -, rfl⟩
            · simp
            · rw [XTree.leafAt_node, hd']
          have htests : ∀ g ∈ T.tests, g = sel.test ∨ g ∈ A.tests ∨ g ∈ B.tests := by
            rcases hcan with ⟨rfl, rfl⟩ | ⟨d', hd', -, rfl⟩
            · exact fun g hg => Or.inr (Or.inl hg)
            · intro g hg
              simp only [XTree.tests, List.mem_cons, List.mem_append, hd'] at hg
              exact hg
          refine ⟨fun c => ?_, fun g hg => ?_, fun lt hlt' o1 o2 => ?_, fun hop g1 g2 => ?_⟩
          · rw [hleaf c, splitT_leafAt sel.test T1 c, splitT_leafAt sel.test T2 c, sA5.leaf, sB5.leaf]
            split <;> rfl
          · rcases htests g hg with rfl | hg | hg
            · rcases hwho with ⟨d', t, f, rfl, hd'⟩ | ⟨d', t, f, rfl, hd'⟩
              · left
                cases h1 with
                | leaf h => rw [hx] at h; simp at h
                | node h _ _ =>
                  rw [hx] at h
                  simp only [Option.some.injEq, XNode.inner.injEq] at h
                  simp [XTree.tests, ← h.1, hd']
              · right
                cases h2 with
                | leaf h => rw [hy] at h; simp at h
                | node h _ _ =>
                  rw [hy] at h
                  simp only [Option.some.injEq, XNode.inner.injEq] at h
                  simp [XTree.tests, ← h.1, hd']
            · exact (sA5.tests g hg).imp ((splitT_tests _ _).1 g) ((splitT_tests _ _).1 g)
            · exact (sB5.tests g hg).imp ((splitT_tests _ _).2 g) ((splitT_tests _ _).2 g)
          · have htr := (ho lt hlt').trans
            obtain ⟨hon, hb1, hb2⟩ := hb lt (ho lt hlt') o1 o2
            obtain ⟨p1, p2, p3, p4⟩ := splitT_relOrd htr o1 hb1
            obtain ⟨r1, r2, r3, r4⟩ := splitT_relOrd htr o2 hb2
            have oA := sA5.ord lt hlt' p1 r1
            have oB := sB5.ord lt hlt' p2 r2
            rcases hcan with ⟨rfl, rfl⟩ | ⟨d', hd', -, rfl⟩
            · exact oA
            · refine ⟨hd' ▸ hon, fun g hg => ?_, oA, oB⟩
              rw [hd']
              rcases hg with hg | hg
              · exact (sA5.tests g hg).elim (p3 g) (r3 g)
              · exact (sB5.tests g hg).elim (p4 g) (r4 g)
          · have bA := sA5.bin hop (fun e he => g1 e ((splitT_leaves _ _).1 e he)) (fun e he => g2 e ((splitT_leaves _ _).1 e he))
            have bB := sB5.bin hop (fun e he => g1 e ((splitT_leaves _ _).2 e he)) (fun e he => g2 e ((splitT_leaves _ _).2 e he))
            rcases hcan with ⟨rfl, rfl⟩ | ⟨d', hd', -, rfl⟩
            · exact bA
            · intro e he
              simp only [XTree.leaves, List.mem_append] at he
              exact he.elim (bA e) (bB e)
        refine cacheApply_runV hq5 ⟨T1, T2, T, h25.den h1, h25.den h2, hT, hspec⟩ fun q6 _ _ he => ?_
        exact ⟨T, he.den hT, hspec⟩

/-- `Pool.apply` computes the operation, whatever the ordering. -/
theorem applyO_run {X : XCtx E} (hs : SimpLaw X.simp) {o : Option XOrdering} (ho : ∀ R ∈ Rk, FollowsOrder o R) (op : XOp) {p : Pool E} (hp : InvV X Rk p)
    {a b : ℕ} {T1 T2 : XTree E} (h1 : Den p a T1) (h2 : Den p b T2) :
    Run (InvV X Rk) Fr0 (applyO X o op a b) p (Offers o ∧ (op = .or ∨ op = .and → Bin X T1 ∧ Bin X T2))
      (fun r q => ∃ T, Den q r T ∧ AppVal X Rk op T1 T2 T) :=
  applyFO_run hs ho op _ hp h1 h2 (by omega)

end
end Pywmi
