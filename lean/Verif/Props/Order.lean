import Verif.Props.Leaves

set_option linter.unusedSectionVars false
set_option linter.unusedSimpArgs false

/-!
# C97: orderings of tests
-/

namespace Pywmi
open Formula MeasureTheory

section
variable {E : Type} [DecidableEq E] {X : XCtx E} {ev : E → (String → ℝ) → ℝ} {Γ : String → Ty}

theorem selectTestO_none (x y : XNode E) : selectTestO none x y = selectTest x y := by
  cases x <;> cases y <;> rfl

theorem applyFO_none (X : XCtx E) (op : XOp) : ∀ k a b, applyFO X none op k a b = applyF X op k a b
  | 0, _, _ => rfl
  | k + 1, a, b => by
    unfold applyFO applyF
    simp only [selectTestO_none, applyFO_none X op k]
    rfl

/-- C97: a pool without an ordering is the pool of C14 to C22. -/
theorem order_none (X : XCtx E) (op : XOp) (a b : ℕ) : applyO X none op a b = apply X op a b := applyFO_none X op _ a b

theorem XM.bind_ok_iff {α β : Type} {m : XM E α} {f : α → XM E β} {p q : Pool E} {b : β} :
    (m >>= f) p = (.ok b, q) ↔ ∃ a p', m p = (.ok a, p') ∧ f a p' = (.ok b, q) := by
  rw [XM.bind_apply]
  rcases m p with ⟨a | a, p'⟩ <;> simp

theorem selectTestO_same {o : XOrdering} (ho : o.smallerEg = none) {x y : XNode E} {p q : Pool E} {d : Decision}
    (h : selectTestO (some o) x y p = (.ok d, q)) : selectTest x y p = (.ok d, q) := by
  cases x <;> cases y
  all_goals first | exact h | skip
  simp only [selectTestO, testSmallerEqO, XM.bind_apply, ho] at h
  cases h

theorem applyFO_same {o : XOrdering} (ho : o.smallerEg = none) (op : XOp) : ∀ (k a b r : ℕ) (p q : Pool E),
    applyFO X (some o) op k a b p = (.ok r, q) → applyF X op k a b p = (.ok r, q)
  | 0, _, _, _, _, _, h => by cases h
  | k + 1, a, b, r, p, q, h => by
    unfold applyFO at h
    unfold applyF
    rw [XM.bind_ok_iff] at h ⊢
    obtain ⟨p0, p1, h1, h⟩ := h
    refine ⟨p0, p1, h1, ?_⟩
    cases hc : p0.applyCache.lookup (op, a, b) with
    | some r' => rw [hc] at h; exact h
    | none =>
      rw [hc] at h
      simp only at h ⊢
      rw [XM.bind_ok_iff] at h ⊢
      obtain ⟨x, p2, h2, h⟩ := h
      refine ⟨x, p2, h2, ?_⟩
      rw [XM.bind_ok_iff] at h ⊢
      obtain ⟨y, p3, h3, h⟩ := h
      refine ⟨y, p3, h3, ?_⟩
      rw [XM.bind_ok_iff] at h ⊢
      obtain ⟨t, p4, h4, h⟩ := h
      refine ⟨t, p4, h4, ?_⟩
      cases t with
      | some t => exact h
      | none =>
        simp only at h ⊢
        rw [XM.bind_ok_iff] at h ⊢
        obtain ⟨s, p5, h5, h⟩ := h
        refine ⟨s, p5, selectTestO_same ho h5, ?_⟩
        rw [XM.bind_ok_iff] at h ⊢
        obtain ⟨ct, p6, h6, h⟩ := h
        refine ⟨ct, p6, applyFO_same ho op k _ _ _ _ _ h6, ?_⟩
        rw [XM.bind_ok_iff] at h ⊢
        obtain ⟨cf, p7, h7, h⟩ := h
        exact ⟨cf, p7, applyFO_same ho op k _ _ _ _ _ h7, h⟩

/-- C97: an ordering that implements the class `Ordering` has no effect on results: when `apply` returns, it returns what the
pool without an ordering returns, and leaves the same pool. -/
theorem order_ignored {o : XOrdering} (ho : o.smallerEg = none) {op : XOp} {a b r : ℕ} {p q : Pool E}
    (h : applyO X (some o) op a b p = (.ok r, q)) : apply X op a b p = (.ok r, q) := applyFO_same ho op _ _ _ _ _ _ h

/-- C97: so results are right at every assignment, in registration order and not in that of the ordering. -/
theorem order_values_partial (hX : XLaw X ev) {p q : Pool E} (hp : Reachable X Γ p) {o : XOrdering} (ho : o.smallerEg = none) {op : XOp} {a b r : ℕ}
    (ha : (p.node a).isSome) (hb : (p.node b).isSome) (hbin : op = .or ∨ op = .and → Binary X p a ∧ Binary X p b)
    (h : applyO X (some o) op a b p = (.ok r, q)) :
    (∀ σ u v, ValAt ev p σ a u → ValAt ev p σ b v → ValAt ev q σ r (opR op u v)) ∧ (Ordered p a → Ordered p b → Ordered q r) := by
  obtain ⟨r', q', h1, h2⟩ := apply_pointwise hX hp ha hb hbin
  rw [order_ignored ho h] at h1
  cases h1
  exact ⟨h2, (apply_shape hX hp ha hb (order_ignored ho h)).2⟩

/-- C97, finding: with such an ordering no two diagrams that both test something can be combined for the first time: the pool asks for
`test_smaller_eg`, which the class does not have. -/
theorem order_raises (hX : XLaw X ev) {p : Pool E} (hp : Reachable X Γ p) {o : XOrdering} (ho : o.smallerEg = none) {op : XOp} {a b : ℕ}
    {d d' : Decision} {t f t' f' : ℕ} (ha : p.node a = some (.inner d t f)) (hb : p.node b = some (.inner d' t' f'))
    (hc : p.applyCache.lookup (op, a, b) = none) : applyO X (some o) op a b p = (.error .attributeError, p) := by
  have c := (hp.inv hX).core
  have az : a ≠ p.zeroId := fun h => by rw [h, c.zero] at ha; cases ha
  have ao : a ≠ p.oneId := fun h => by rw [h, c.one] at ha; cases ha
  have bz : b ≠ p.zeroId := fun h => by rw [h, c.zero] at hb; cases hb
  have bo : b ≠ p.oneId := fun h => by rw [h, c.one] at hb; cases hb
  unfold applyO applyFO
  simp only [XM.bind_apply, XM.get, hc, getNode, ha, hb]
  have ht : computeTerminal X op a (.inner d t f) b (.inner d' t' f') p = (.ok none, p) := by
    cases op <;> simp [computeTerminal, XM.bind_apply, XM.get, az, ao, bz, bo, XNode.isLeaf, XM.pure_apply]
  simp only [ht, selectTestO, testSmallerEqO, XM.bind_apply, ho]
  rfl

/-- C97: `change_order` forgets reductions, integrals and walks but no node, so every diagram keeps its value and its shape, and
diagrams whose walks raised can be walked again. -/
theorem change_order_keeps (hX : XLaw X ev) {p : Pool E} (hp : Reachable X Γ p) :
    Reachable X Γ (changeOrder p) ∧ (∀ n, (changeOrder p).node n = p.node n) ∧ (∀ n σ v, ValAt ev (changeOrder p) σ n v ↔ ValAt ev p σ n v) ∧
      ∀ n, Fresh (changeOrder p) n := by
  have hn : ∀ n, (changeOrder p).node n = p.node n := node_congr rfl
  refine ⟨.step .changeOrder hp trivial, hn, fun n σ v => ⟨fun h => ?_, fun h => kept_val (hp.inv hX).core (changeOrder_ext p) h.isSome h⟩, fun n pr h => by cases h⟩
  induction h with
  | leaf h => exact .leaf ((hn _).symm.trans h)
  | pos h h1 _ ih => exact .pos ((hn _).symm.trans h) h1 ih
  | neg h h1 _ ih => exact .neg ((hn _).symm.trans h) h1 ih

/-- C97, finding: results of `apply` computed before are not forgotten: they are returned whatever the new ordering says. -/
theorem change_order_stale {p : Pool E} {op : XOp} {a b r : ℕ} (h : p.applyCache.lookup (op, a, b) = some r) (o : Option XOrdering) :
    applyO X o op a b (changeOrder p) = (.ok r, changeOrder p) := by
  unfold applyO applyFO
  have : (changeOrder p).applyCache.lookup (op, a, b) = some r := h
  simp only [XM.bind_apply, XM.get, this]
  rfl

/-- C97: after a walk of a diagram raised, `change_order(None)` makes its leaves transformable again. -/
theorem change_order_repairs : (toBinary exCtx (fun e => decide (e = [])) 5 exDirty).1 = .error .runtimeError ∧
    ∃ r q, toBinary exCtx (fun e => decide (e = [])) 5 (changeOrder exDirty) = (.ok r, q) ∧ Binary exCtx q r := by
  refine ⟨to_binary_after_raise, ?_⟩
  obtain ⟨h1, -, -, h2⟩ := change_order_keeps exLaw exDirty_reachable
  obtain ⟨r, q, h3, -, -, h4, -⟩ := to_binary_partial exLaw h1 (n := 5) (by decide +kernel) (h2 5) fun e => decide (e = [])
  exact ⟨r, q, h3, h4⟩

/-- EXAMPLE: an ordering by the size of the tests' ids, as the class `Ordering` asks for. -/
def exOrdering : XOrdering := ⟨fun i _ j _ => decide (j.getD 0 ≤ i.getD 0), none⟩

/-- The hypotheses are met: the sum of `a or x <= 3` and `if b then 2 else x` raises with an ordering, that with a constant does not. -/
theorem order_concrete : (applyO exCtx (some exOrdering) .add 5 12 exPool).1 = .error .attributeError ∧
    ∃ r q, applyO exCtx (some exOrdering) .add 12 2 exPool = (.ok r, q) ∧ ∀ σ u v, ValAt exEv exPool σ 12 u → ValAt exEv exPool σ 2 v → ValAt exEv q σ r (u + v) := by
  have h12 := exPool_nodes.2.2.2
  have h2 : (exPool.node 2).isSome := by decide +kernel
  refine ⟨by rw [order_raises exLaw exPool_reachable rfl exPool_nodes.2.2.1 exPool_ite.1 (by decide +kernel)], ?_⟩
  have hok : (applyO exCtx (some exOrdering) .add 12 2 exPool).1.toOption.isSome = true := by decide +kernel
  generalize hr : applyO exCtx (some exOrdering) .add 12 2 exPool = r at hok
  obtain ⟨r1 | r1, q⟩ := r
  · cases hok
  · exact ⟨r1, q, rfl, (order_values_partial exLaw exPool_reachable rfl h12 h2 (by rintro (h | h) <;> cases h) hr).1⟩

end
end Pywmi
