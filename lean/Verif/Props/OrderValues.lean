import Verif.Xadd.OrderVal
import Verif.Props.Order

set_option linter.unusedSectionVars false
set_option linter.unusedSimpArgs false

/-!
# C97: orderings that offer the method the pool asks for
-/

namespace Pywmi
open Formula MeasureTheory

section
variable {E : Type} [DecidableEq E] {X : XCtx E} {ev : E → (String → ℝ) → ℝ} {Γ : String → Ty}

/-- SPEC: pools that come from a pool of `start` by making leaves and tests, combining diagrams under orderings of `ok`, and
changing the ordering, also when calls raise. -/
inductive OPool (X : XCtx E) (start : Pool E → Prop) (ok : Option XOrdering → Prop) : Pool E → Prop
  | start {p : Pool E} : start p → OPool X start ok p
  | terminal {p : Pool E} (e : E) : OPool X start ok p → OPool X start ok (terminal e p).2
  | internal {p : Pool E} (g : Formula) (t f : ℕ) : OPool X start ok p → TestForm g → (p.node t).isSome → (p.node f).isSome →
      OPool X start ok (internal X ⟨g, none, false⟩ t f p).2
  | apply {p : Pool E} (o : Option XOrdering) (op : XOp) (a b : ℕ) : OPool X start ok p → ok o → (p.node a).isSome → (p.node b).isSome →
      OPool X start ok (applyO X o op a b p).2
  | changeOrder {p : Pool E} : OPool X start ok p → OPool X start ok (changeOrder p)

theorem changeOrder_invV {Rk : Set TestOrder} {p : Pool E} (hp : InvV X Rk p) : InvV X Rk (changeOrder p) := by
  have c := hp.core
  have hn : ∀ n, (changeOrder p).node n = p.node n := node_congr rfl
  exact ⟨⟨(hn _).trans c.zero, (hn _).trans c.one, fun h => by simp only [hn] at h ⊢; exact c.inner h,
      fun e n => by rw [hn]; exact c.exprs e n, fun i t f n => by simp only [hn]; exact c.inners i t f n, c.nodup⟩,
    fun op a b r h => (hp.app op a b r h).mono (changeOrder_ext p)⟩

theorem OPool.inv (hX : XLaw X ev) {Rk : Set TestOrder} {start : Pool E → Prop} {ok : Option XOrdering → Prop} (hs : ∀ p, start p → InvV X Rk p)
    (ho : ∀ o, ok o → ∀ R ∈ Rk, FollowsOrder o R) {p : Pool E} (hp : OPool X start ok p) : InvV X Rk p := by
  induction hp with
  | start h => exact hs _ h
  | terminal e _ ih => exact ((terminal_run ih.core e).coreV ih).1
  | internal g t f _ hg ht hf ih =>
    obtain ⟨A, hA⟩ := ih.core.den ht
    obtain ⟨B, hB⟩ := ih.core.den hf
    exact ((internal_test hX.simp ih.core hg hA hB).coreV ih).1
  | apply o op a b _ hok ha hb ih =>
    obtain ⟨A, hA⟩ := ih.core.den ha
    obtain ⟨B, hB⟩ := ih.core.den hb
    exact (applyO_run hX.simp (ho o hok) op ih hA hB).1
  | changeOrder _ ih => exact changeOrder_invV ih

/-- C97: with an ordering that offers `test_smaller_eg`, whatever it answers and whatever orderings the pool had before, `apply`
returns, the result is right at every assignment, 0/1 diagrams give 0/1 diagrams, and every diagram of the pool stays as it is. -/
theorem order_values (hX : XLaw X ev) {p : Pool E} (hp : OPool X (Reachable X Γ) (fun _ => True) p) {o : Option XOrdering} (ho : Offers o) {op : XOp}
    {a b : ℕ} (ha : (p.node a).isSome) (hb : (p.node b).isSome) (hbin : op = .or ∨ op = .and → Binary X p a ∧ Binary X p b) :
    ∃ r q, applyO X o op a b p = (.ok r, q) ∧ (∀ σ u v, ValAt ev p σ a u → ValAt ev p σ b v → ValAt ev q σ r (opR op u v)) ∧
      (op ≠ .add → Binary X p a → Binary X p b → Binary X q r) ∧ ∀ n x, p.node n = some x → q.node n = some x := by
  have hi : InvV X ∅ p := hp.inv hX (fun p h => (h.inv hX).toInv0.values) fun _ _ _ h => absurd h (Set.notMem_empty _)
  obtain ⟨A, hA⟩ := hi.core.den ha
  obtain ⟨B, hB⟩ := hi.core.den hb
  have hbin' : op = .or ∨ op = .and → Bin X A ∧ Bin X B := fun h => ⟨hA.binary_iff.mp (hbin h).1, hB.binary_iff.mp (hbin h).2⟩
  obtain ⟨r, q, h1, -, hf, T, hT, hs⟩ := (applyO_run hX.simp (o := o) (fun _ h => absurd h (Set.notMem_empty _)) op hi hA hB).returns ⟨ho, hbin'⟩
  refine ⟨r, q, h1, fun σ va vb h2 h3 => ?_, fun hop h2 h3 => ?_, fun n x hn => hf.toExt.node hn⟩
  · rw [hA.val_iff] at h2
    rw [hB.val_iff] at h3
    rw [hT.val_iff, h2, h3]
    unfold XTree.eval
    rw [hs.leaf]
    refine (opE_eval hX.back op _ _ (fun h => ?_) σ.r).symm
    exact ⟨(hbin' h).1 _ (XTree.leafAt_mem _ _), (hbin' h).2 _ (XTree.leafAt_mem _ _)⟩
  · rw [hT.binary_iff]
    exact hs.bin hop (hA.binary_iff.mp h2) (hB.binary_iff.mp h3)

/-- SPEC: the tests of the diagram are tests of the order, and on every path they go up. -/
def OrderedBy (R : TestOrder) (p : Pool E) (n : ℕ) : Prop :=
  ∀ m d t f, Reach p n m → p.node m = some (.inner d t f) → R.on d.test ∧ ∀ c, c = t ∨ c = f → ∀ m' d' t' f', Reach p c m' →
    p.node m' = some (.inner d' t' f') → R.lt d.test d'.test

theorem Den.orderedBy_iff {R : TestOrder} {p : Pool E} {n : ℕ} {T : XTree E} (h : Den p n T) : OrderedBy R p n ↔ RelOrd R T := by
  induction h with
  | leaf h =>
    refine ⟨fun _ => trivial, fun _ m d t f hm hn => ?_⟩
    exfalso
    have := ((Den.leaf h).test_reach d.test).mpr ⟨m, d, t, f, hm, hn, rfl⟩
    cases this
  | node h h1 h2 ih1 ih2 =>
    rename_i n d t f A B
    constructor
    · intro ho
      refine ⟨(ho n d t f .root h).1, fun g hg => ?_, ih1.mp ?_, ih2.mp ?_⟩
      · rcases hg with hg | hg
        · obtain ⟨m, d', t', f', k1, k2, rfl⟩ := (h1.test_reach g).mp hg
          exact (ho n d t f .root h).2 t (Or.inl rfl) m d' t' f' k1 k2
        · obtain ⟨m, d', t', f', k1, k2, rfl⟩ := (h2.test_reach g).mp hg
          exact (ho n d t f .root h).2 f (Or.inr rfl) m d' t' f' k1 k2
      · exact fun m d' t' f' hm => ho m d' t' f' ((Reach.step .root ⟨_, _, _, h, Or.inl rfl⟩).trans hm)
      · exact fun m d' t' f' hm => ho m d' t' f' ((Reach.step .root ⟨_, _, _, h, Or.inr rfl⟩).trans hm)
    · rintro ⟨o0, o1, o2, o3⟩ m d' t' f' hm hn
      have key : m = n ∨ Reach p t m ∨ Reach p f m := by
        clear hn
        induction hm with
        | root => exact Or.inl rfl
        | step hm hc ih =>
          right
          rcases ih with rfl | ih | ih
          · obtain ⟨d3, t3, f3, hx, hc⟩ := hc
            rw [h] at hx
            simp only [Option.some.injEq, XNode.inner.injEq] at hx
            obtain ⟨-, rfl, rfl⟩ := hx
            rcases hc with rfl | rfl
            · exact Or.inl .root
            · exact Or.inr .root
          · exact Or.inl (.step ih hc)
          · exact Or.inr (.step ih hc)
      rcases key with rfl | hk | hk
      · rw [h] at hn
        simp only [Option.some.injEq, XNode.inner.injEq] at hn
        obtain ⟨rfl, rfl, rfl⟩ := hn
        refine ⟨o0, fun c hc m' d'' t'' f'' hm' hn' => o1 d''.test ?_⟩
        rcases hc with rfl | rfl
        · exact Or.inl ((h1.test_reach _).mpr ⟨m', d'', t'', f'', hm', hn', rfl⟩)
        · exact Or.inr ((h2.test_reach _).mpr ⟨m', d'', t'', f'', hm', hn', rfl⟩)
      · exact (ih1.mpr o2) m d' t' f' hk hn
      · exact (ih2.mpr o3) m d' t' f' hk hn

/-- C97: in a pool that only ever had orderings that decide by one order, results on diagrams ordered by it are ordered by it. -/
theorem order_followed (hX : XLaw X ev) {R : TestOrder} {p : Pool E}
    (hp : OPool X (· = newPool X) (FollowsOrder · R) p) {o : Option XOrdering} (ho : FollowsOrder o R) {op : XOp} {a b r : ℕ} {q : Pool E}
    (ha : (p.node a).isSome) (hb : (p.node b).isSome) (h : applyO X o op a b p = (.ok r, q))
    (h1 : OrderedBy R p a) (h2 : OrderedBy R p b) : OrderedBy R q r := by
  have hi : InvV X {R} p := by
    refine hp.inv hX (fun p hp => ?_) fun o ho R' hR => by rw [Set.mem_singleton_iff.mp hR]; exact ho
    subst hp
    refine ⟨newPool_core hX.back.ne, fun op a b r h => ?_⟩
    rw [newPool_eq hX.back.ne] at h
    cases h
  obtain ⟨A, hA⟩ := hi.core.den ha
  obtain ⟨B, hB⟩ := hi.core.den hb
  obtain ⟨-, -, h3, -⟩ := applyO_run hX.simp (o := o) (fun R' hR => by rw [Set.mem_singleton_iff.mp hR]; exact ho) op hi hA hB
  rw [h] at h3
  obtain ⟨T, hT, hs⟩ := h3 r rfl
  rw [hT.orderedBy_iff]
  exact hs.ord R rfl (hA.orderedBy_iff.mp h1) (hB.orderedBy_iff.mp h2)

end

/-- EXAMPLE: an ordering with `b` before `a`. -/
def exBA : XOrdering := ⟨fun _ _ _ _ => true, some fun _ f _ g => decide (f = g) || decide (f = .sym "b" .bool ∧ g = .sym "a" .bool)⟩

/-- EXAMPLE: the order with `b` before `a`. -/
def exBefore : TestOrder := ⟨fun f => f = .sym "a" .bool ∨ f = .sym "b" .bool, fun f g => f = .sym "b" .bool ∧ g = .sym "a" .bool⟩

theorem exBA_follows : FollowsOrder (some exBA) exBefore := by
  refine ⟨?_, exBA, _, rfl, rfl, ?_⟩
  · rintro f g h ⟨rfl, rfl⟩ ⟨h1, -⟩
    simp at h1
  · rintro i f j g (rfl | rfl) (rfl | rfl) <;> simp [exBefore]

/-- EXAMPLE: a pool with the tests `a` (node 3) and `b` (node 4), registered in this order. -/
def exAB : Pool Dict :=
  (internal exCtx ⟨.sym "b" .bool, none, false⟩ 2 1 (internal exCtx ⟨.sym "a" .bool, none, false⟩ 2 1 (newPool exCtx)).2).2

theorem exAB_nodes : exAB.node 3 = some (.inner ⟨.sym "a" .bool, none, true⟩ 2 1) ∧ exAB.node 4 = some (.inner ⟨.sym "b" .bool, none, true⟩ 2 1) ∧
    exAB.zeroId = 1 ∧ exAB.oneId = 2 := by decide +kernel

theorem exAB_pool (ok : Option XOrdering → Prop) : OPool exCtx (· = newPool exCtx) ok exAB :=
  .internal _ 2 1 (.internal _ 2 1 (.start rfl) (.sym "a") (by decide +kernel) (by decide +kernel)) (.sym "b") (by decide +kernel) (by decide +kernel)

theorem exAB_reachable : Reachable exCtx exTypes exAB :=
  .step (.internal (.sym "b" .bool) 2 1) (.step (.internal (.sym "a" .bool) 2 1) .refl ⟨.sym "a", by decide +kernel, by decide +kernel⟩)
    ⟨.sym "b", by decide +kernel, by decide +kernel⟩

theorem exAB_ordered : OrderedBy exBefore exAB 3 ∧ OrderedBy exBefore exAB 4 := by
  have c := (exAB_reachable.inv exLaw).core
  obtain ⟨h3, h4, hz, ho⟩ := exAB_nodes
  have z : exAB.node 1 = _ := hz ▸ c.zero
  have o : exAB.node 2 = _ := ho ▸ c.one
  constructor
  · exact (Den.node h3 (.leaf o) (.leaf z)).orderedBy_iff.mpr
      ⟨Or.inl rfl, fun g hg => by simp [XTree.tests] at hg, trivial, trivial⟩
  · exact (Den.node h4 (.leaf o) (.leaf z)).orderedBy_iff.mpr
      ⟨Or.inr rfl, fun g hg => by simp [XTree.tests] at hg, trivial, trivial⟩

/-- The hypotheses are met: with `b` before `a`, the product of the tests `a` and `b` tests `b` first. -/
theorem order_followed_concrete : ∃ q, applyO exCtx (some exBA) .mul 3 4 exAB = (.ok 5, q) ∧
    q.node 5 = some (.inner ⟨.sym "b" .bool, none, true⟩ 3 1) ∧ OrderedBy exBefore q 5 := by
  have h1 : (applyO exCtx (some exBA) .mul 3 4 exAB).1 = .ok 5 ∧
      (applyO exCtx (some exBA) .mul 3 4 exAB).2.node 5 = some (.inner ⟨.sym "b" .bool, none, true⟩ 3 1) := by decide +kernel
  refine ⟨_, Prod.ext h1.1 rfl, h1.2, ?_⟩
  exact order_followed exLaw (exAB_pool _) exBA_follows (by rw [exAB_nodes.1]; rfl) (by rw [exAB_nodes.2.1]; rfl)
    (Prod.ext h1.1 rfl) exAB_ordered.1 exAB_ordered.2

/-- C97, finding: a product computed before `change_order` is returned afterwards although it is not ordered by the new ordering, and
its factors are. -/
theorem order_not_followed : ∃ p, OPool exCtx (Reachable exCtx exTypes) (fun _ => True) p ∧ OrderedBy exBefore p 3 ∧ OrderedBy exBefore p 4 ∧
    ∃ q, applyO exCtx (some exBA) .mul 3 4 (changeOrder p) = (.ok 5, q) ∧ ¬OrderedBy exBefore q 5 := by
  refine ⟨(applyO exCtx none .mul 3 4 exAB).2, .apply none .mul 3 4 (.start exAB_reachable) trivial (by decide +kernel) (by decide +kernel), ?_⟩
  obtain ⟨r, q, h, -, -, hk⟩ := order_values exLaw (o := none) (Γ := exTypes) (.start exAB_reachable) (fun _ h => by cases h) (op := .mul) (a := 3) (b := 4)
    (by decide +kernel) (by decide +kernel) (by rintro (h | h) <;> cases h)
  rw [h]
  have c := (exAB_reachable.inv exLaw).core
  obtain ⟨h3, h4, hz, ho⟩ := exAB_nodes
  have z : exAB.node 1 = _ := hz ▸ c.zero
  have o : exAB.node 2 = _ := ho ▸ c.one
  refine ⟨?_, ?_, ?_⟩
  · exact (Den.node (hk _ _ h3) (.leaf (hk _ _ o)) (.leaf (hk _ _ z))).orderedBy_iff.mpr
      ⟨Or.inl rfl, fun g hg => by simp [XTree.tests] at hg, trivial, trivial⟩
  · exact (Den.node (hk _ _ h4) (.leaf (hk _ _ o)) (.leaf (hk _ _ z))).orderedBy_iff.mpr
      ⟨Or.inr rfl, fun g hg => by simp [XTree.tests] at hg, trivial, trivial⟩
  · have h1 : (applyO exCtx (some exBA) .mul 3 4 (changeOrder (applyO exCtx none .mul 3 4 exAB).2)).1 = .ok 5 ∧
        (applyO exCtx (some exBA) .mul 3 4 (changeOrder (applyO exCtx none .mul 3 4 exAB).2)).2.node 5 = some (.inner ⟨.sym "a" .bool, none, true⟩ 4 1) ∧
        (applyO exCtx (some exBA) .mul 3 4 (changeOrder (applyO exCtx none .mul 3 4 exAB).2)).2.node 4 = some (.inner ⟨.sym "b" .bool, none, true⟩ 2 1) := by
      decide +kernel
    rw [h] at h1
    refine ⟨_, Prod.ext h1.1 rfl, fun hO => ?_⟩
    have := (hO 5 _ _ _ .root h1.2.1).2 4 (Or.inl rfl) 4 _ _ _ .root h1.2.2
    simp [exBefore] at this

end Pywmi
