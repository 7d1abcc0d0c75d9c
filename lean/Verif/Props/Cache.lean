import Verif.Xadd.Cache
import Verif.Props.XaddExamples

set_option linter.unusedSectionVars false
set_option linter.unusedSimpArgs false

/-!
# C103: diagrams of a pool
-/

namespace Pywmi

section
variable {E : Type} [DecidableEq E] {X : XCtx E} {Γ : String → Ty} {ev : E → (String → ℝ) → ℝ}

/-! ## Specification -/

/-- SPEC: a history of legal calls and requests for diagrams. -/
inductive DHist (X : XCtx E) (Γ : String → Ty) (s : DiagramPool E) : List (DiagramOp E) → DiagramPool E → Prop
  | refl : DHist X Γ s [] s
  | call {os : List (DiagramOp E)} {q : DiagramPool E} (o : PoolOp E) : DHist X Γ s os q → o.Legal X Γ q.pool →
      DHist X Γ s (os ++ [.call o]) (DiagramOp.exec X q (.call o))
  | diagram {os : List (DiagramOp E)} {q : DiagramPool E} (n : ℕ) : DHist X Γ s os q →
      DHist X Γ s (os ++ [.diagram n]) (DiagramOp.exec X q (.diagram n))

/-- SPEC: a request for a diagram. -/
def DiagramOp.isRequest : DiagramOp E → Bool
  | .diagram _ => true
  | .call _ => false

theorem DHist.trans {s q r : DiagramPool E} {os os' : List (DiagramOp E)} (h : DHist X Γ s os q) (h' : DHist X Γ q os' r) :
    DHist X Γ s (os ++ os') r := by
  induction h' with
  | refl => simpa using h
  | call o _ ho ih => rw [← List.append_assoc]; exact .call o ih ho
  | diagram n _ ih => rw [← List.append_assoc]; exact .diagram n ih

theorem DHist.fold {s q : DiagramPool E} {os : List (DiagramOp E)} (h : DHist X Γ s os q) : q = os.foldl (DiagramOp.exec X) s := by
  induction h with
  | refl => rfl
  | call o _ _ ih => rw [List.foldl_append, ← ih]; rfl
  | diagram n _ ih => rw [List.foldl_append, ← ih]; rfl

/-- What holds of the cache at all times. -/
structure DInv (X : XCtx E) (Γ : String → Ty) (ev : E → (String → ℝ) → ℝ) (s : DiagramPool E) : Prop where
  pool : Inv2 X Γ ev s.pool
  entry : ∀ k d, s.cache.entries.lookup k = some d → d.rootId = k ∧ s.pool.node k = some d.root ∧ d.serial < s.next

/-- The three cases of a request. -/
theorem diagram_eq (n : ℕ) (s : DiagramPool E) :
    s.diagram n = match s.cache.entries.lookup n with
      | some d => (.ok d, ⟨s.pool, { s.cache with hits := s.cache.hits + 1 }, s.next⟩)
      | none =>
        match s.pool.node n with
        | some x => (.ok ⟨s.next, n, x⟩, ⟨s.pool, ⟨(n, ⟨s.next, n, x⟩) :: s.cache.entries, s.cache.hits, s.cache.misses + 1⟩, s.next + 1⟩)
        | none => (.error .runtimeError, ⟨s.pool, { s.cache with misses := s.cache.misses + 1 }, s.next⟩) := by
  unfold DiagramPool.diagram MemoCache.get
  cases h : s.cache.entries.lookup n with
  | some d => rfl
  | none =>
    simp only [makeDiagram, getNode]
    cases h' : s.pool.node n <;> simp

theorem DInv.ext {s : DiagramPool E} (h : DInv X Γ ev s) {q : Pool E} (hq : Inv2 X Γ ev q) (he : Ext s.pool q) : DInv X Γ ev ⟨q, s.cache, s.next⟩ :=
  ⟨hq, fun k d hd => by obtain ⟨h1, h2, h3⟩ := h.entry k d hd; exact ⟨h1, he.node h2, h3⟩⟩

theorem DInv.diagram {s : DiagramPool E} (h : DInv X Γ ev s) (n : ℕ) : DInv X Γ ev (s.diagram n).2 := by
  rw [diagram_eq]
  cases hl : s.cache.entries.lookup n with
  | some d => exact ⟨h.pool, h.entry⟩
  | none =>
    cases hn : s.pool.node n with
    | none => exact ⟨h.pool, h.entry⟩
    | some x =>
      refine ⟨h.pool, fun k d hd => ?_⟩
      simp only [List.lookup_cons] at hd
      split at hd
      · rename_i hk
        obtain rfl : k = n := by simpa using hk
        cases hd
        exact ⟨rfl, hn, Nat.lt_succ_self _⟩
      · obtain ⟨h1, h2, h3⟩ := h.entry k d hd
        exact ⟨h1, h2, Nat.lt_succ_of_lt h3⟩

theorem exec_call_other (o : PoolOp E) (ho : o ≠ .changeOrder) (s : DiagramPool E) :
    DiagramOp.exec X s (.call o) = ⟨o.exec X s.pool, s.cache, s.next⟩ := by
  cases o <;> first | rfl | exact absurd rfl ho

theorem DInv.call (hX : XLaw X ev) {s : DiagramPool E} (h : DInv X Γ ev s) (o : PoolOp E) (ho : o.Legal X Γ s.pool) :
    DInv X Γ ev (DiagramOp.exec X s (.call o)) := by
  obtain ⟨h1, h2⟩ := o.keeps hX h.pool ho
  by_cases hc : o = .changeOrder
  · subst hc
    exact ⟨h1, fun k d hd => by simp [DiagramOp.exec, MemoCache.empty] at hd⟩
  · rw [exec_call_other o hc]; exact h.ext h1 h2

theorem DHist.inv (hX : XLaw X ev) {s q : DiagramPool E} {os : List (DiagramOp E)} (h : DHist X Γ s os q) (hs : DInv X Γ ev s) : DInv X Γ ev q := by
  induction h with
  | refl => exact hs
  | call o _ ho ih => exact ih.call hX o ho
  | diagram n _ ih => exact ih.diagram n

theorem newDiagramPool_inv (hX : XLaw X ev) : DInv X Γ ev (newDiagramPool X) :=
  ⟨Reachable.inv hX .refl, fun k d hd => by simp [newDiagramPool, MemoCache.empty] at hd⟩

/-- Objects are only made, never remade. -/
theorem DHist.next_le {s q : DiagramPool E} {os : List (DiagramOp E)} (h : DHist X Γ s os q) : s.next ≤ q.next := by
  induction h with
  | refl => exact Nat.le_refl _
  | call o _ _ ih =>
    by_cases hc : o = .changeOrder
    · subst hc; exact ih
    · rw [exec_call_other o hc]; exact ih
  | diagram n _ ih =>
    refine ih.trans ?_
    simp only [DiagramOp.exec, diagram_eq]
    split
    · exact Nat.le_refl _
    · split
      · exact Nat.le_succ _
      · exact Nat.le_refl _

/-! ## C103 -/

/-- **C103**: after every history, asking for the diagram of a node returns a diagram of that node as it is in the pool now, and raises exactly if
there is no such node; the pool is not changed. -/
theorem diagram_current (hX : XLaw X ev) {s : DiagramPool E} {os : List (DiagramOp E)} (h : DHist X Γ (newDiagramPool X) os s) (n : ℕ) :
    (s.diagram n).2.pool = s.pool ∧
    match s.pool.node n with
    | none => (s.diagram n).1 = .error .runtimeError
    | some x => ∃ d, (s.diagram n).1 = .ok d ∧ d.rootId = n ∧ d.root = x := by
  have hi := h.inv hX (newDiagramPool_inv hX)
  rw [diagram_eq]
  cases hl : s.cache.entries.lookup n with
  | some d =>
    obtain ⟨h1, h2, -⟩ := hi.entry n d hl
    rw [h2]
    exact ⟨rfl, d, rfl, h1, rfl⟩
  | none =>
    cases hn : s.pool.node n with
    | none => exact ⟨rfl, rfl⟩
    | some x => exact ⟨rfl, _, rfl, rfl, rfl⟩

theorem lookup_after {s : DiagramPool E} {n : ℕ} {d : DiagramObj E} (hd : (s.diagram n).1 = .ok d) :
    (s.diagram n).2.cache.entries.lookup n = some d := by
  rw [diagram_eq] at hd ⊢
  cases hl : s.cache.entries.lookup n with
  | some d' => rw [hl] at hd; cases hd; simpa using hl
  | none =>
    rw [hl] at hd
    cases hn : s.pool.node n with
    | none => rw [hn] at hd; cases hd
    | some x => rw [hn] at hd; cases hd; simp

theorem lookup_diagram {s : DiagramPool E} {n m : ℕ} {d : DiagramObj E} (h : s.cache.entries.lookup n = some d) :
    (s.diagram m).2.cache.entries.lookup n = some d := by
  rw [diagram_eq]
  cases hl : s.cache.entries.lookup m with
  | some d' => exact h
  | none =>
    cases hn : s.pool.node m with
    | none => exact h
    | some x =>
      have : (n == m) = false := beq_false_of_ne fun he => by rw [he, hl] at h; cases h
      simp [List.lookup_cons, this, h]

theorem DHist.lookup {s q : DiagramPool E} {n : ℕ} {d : DiagramObj E} (hd : s.cache.entries.lookup n = some d) {os : List (DiagramOp E)}
    (h : DHist X Γ s os q) (hc : .call .changeOrder ∉ os) : q.cache.entries.lookup n = some d := by
  induction h with
  | refl => exact hd
  | @call os q o _ _ ih =>
    simp only [List.mem_append, List.mem_singleton, not_or] at hc
    rw [exec_call_other o fun he => hc.2 (by rw [he])]
    exact ih hc.1
  | @diagram os q m _ ih =>
    simp only [List.mem_append, List.mem_singleton, not_or] at hc
    exact lookup_diagram (ih hc.1)

/-- C103: as long as the order is not changed, the same object is returned. -/
theorem diagram_same {s q : DiagramPool E} {n : ℕ} {d : DiagramObj E} (hd : (s.diagram n).1 = .ok d) {os : List (DiagramOp E)}
    (h : DHist X Γ (s.diagram n).2 os q) (hc : .call .changeOrder ∉ os) : (q.diagram n).1 = .ok d := by
  rw [diagram_eq, h.lookup (lookup_after hd) hc]

/-- C103: diagrams of different nodes are different objects. -/
theorem diagram_distinct (hX : XLaw X ev) {s : DiagramPool E} {os : List (DiagramOp E)} (h : DHist X Γ (newDiagramPool X) os s) {n m : ℕ}
    {d d' : DiagramObj E} (hd : (s.diagram n).1 = .ok d) {q : DiagramPool E} {os' : List (DiagramOp E)} (hq : DHist X Γ (s.diagram n).2 os' q)
    (hd' : (q.diagram m).1 = .ok d') (hne : n ≠ m) : d ≠ d' := by
  intro he
  have hi := h.inv hX (newDiagramPool_inv hX)
  have root : ∀ {s : DiagramPool E}, DInv X Γ ev s → ∀ {n d}, (s.diagram n).1 = .ok d → d.rootId = n := by
    intro s hi n d hd
    rw [diagram_eq] at hd
    cases hl : s.cache.entries.lookup n with
    | some d' => rw [hl] at hd; cases hd; exact (hi.entry n _ hl).1
    | none =>
      rw [hl] at hd
      cases hn : s.pool.node n with
      | none => rw [hn] at hd; cases hd
      | some x => rw [hn] at hd; cases hd; rfl
  have h1 := root hi hd
  have h2 := root (hq.inv hX (hi.diagram n)) hd'
  exact hne (by rw [← h1, ← h2, he])

/-- C103: after the order is changed, a diagram is a new object, different from all those handed out before. -/
theorem diagram_fresh (hX : XLaw X ev) {s : DiagramPool E} {os : List (DiagramOp E)} (h : DHist X Γ (newDiagramPool X) os s) {n m : ℕ}
    {d d' : DiagramObj E} (hd : (s.diagram n).1 = .ok d) {q r : DiagramPool E} {os₁ os₂ : List (DiagramOp E)} (h₁ : DHist X Γ (s.diagram n).2 os₁ q)
    (h₂ : DHist X Γ (DiagramOp.exec X q (.call .changeOrder)) os₂ r) (hd' : (r.diagram m).1 = .ok d') : d ≠ d' := by
  have hi := h.inv hX (newDiagramPool_inv hX)
  have old : d.serial < q.next := by
    refine Nat.lt_of_lt_of_le ?_ h₁.next_le
    rw [diagram_eq] at hd ⊢
    cases hl : s.cache.entries.lookup n with
    | some e => rw [hl] at hd; cases hd; exact (hi.entry n _ hl).2.2
    | none =>
      rw [hl] at hd
      cases hn : s.pool.node n with
      | none => rw [hn] at hd; cases hd
      | some x => rw [hn] at hd; cases hd; exact Nat.lt_succ_self _
  have new : (∀ k e, r.cache.entries.lookup k = some e → q.next ≤ e.serial) ∧ q.next ≤ r.next := by
    clear hd'
    induction h₂ with
    | refl => exact ⟨fun k e he => by simp [DiagramOp.exec, MemoCache.empty] at he, Nat.le_refl _⟩
    | @call os t o _ _ ih =>
      by_cases hc : o = .changeOrder
      · subst hc; exact ⟨fun k e he => by simp [DiagramOp.exec, MemoCache.empty] at he, ih.2⟩
      · rw [exec_call_other o hc]; exact ih
    | @diagram os t k _ ih =>
      simp only [DiagramOp.exec]
      rw [diagram_eq]
      cases hl : t.cache.entries.lookup k with
      | some e => exact ih
      | none =>
        cases hn : t.pool.node k with
        | none => exact ih
        | some x =>
          refine ⟨fun k' e he => ?_, Nat.le_succ_of_le ih.2⟩
          simp only [List.lookup_cons] at he
          split at he
          · cases he; exact ih.2
          · exact ih.1 k' e he
  have hge : q.next ≤ d'.serial := by
    rw [diagram_eq] at hd'
    cases hl : r.cache.entries.lookup m with
    | some e => rw [hl] at hd'; cases hd'; exact new.1 m _ hl
    | none =>
      rw [hl] at hd'
      cases hn : r.pool.node m with
      | none => rw [hn] at hd'; cases hd'
      | some x => rw [hn] at hd'; cases hd'; exact new.2
  intro he
  rw [he] at old
  omega

/-- C103: a request counts as a hit if the diagram is stored and as a miss otherwise, also if it raises. -/
theorem diagram_counted (s : DiagramPool E) (n : ℕ) :
    (s.diagram n).2.cache.hits = s.cache.hits + (if s.isCached n then 1 else 0) ∧
    (s.diagram n).2.cache.misses = s.cache.misses + (if s.isCached n then 0 else 1) := by
  rw [diagram_eq, DiagramPool.isCached, MemoCache.contains]
  cases hl : s.cache.entries.lookup n with
  | some d => simp
  | none =>
    cases hn : s.pool.node n with
    | none => simp
    | some x => simp

/-- C103: the two counters add up to the number of requests since the pool was made or its order was changed. -/
theorem diagram_counts {s q : DiagramPool E} (hs : s = newDiagramPool X ∨ ∃ r, s = DiagramOp.exec X r (.call .changeOrder))
    {os : List (DiagramOp E)} (h : DHist X Γ s os q) (hc : .call .changeOrder ∉ os) :
    q.cache.hits + q.cache.misses = os.countP DiagramOp.isRequest := by
  induction h with
  | refl => rcases hs with rfl | ⟨r, rfl⟩ <;> rfl
  | @call os q o _ _ ih =>
    simp only [List.mem_append, List.mem_singleton, not_or] at hc
    rw [exec_call_other o fun he => hc.2 (by rw [he])]
    simpa [List.countP_append, List.countP_cons, DiagramOp.isRequest] using ih hc.1
  | @diagram os q m _ ih =>
    simp only [List.mem_append, List.mem_singleton, not_or] at hc
    have h1 := ih hc.1
    obtain ⟨h2, h3⟩ := diagram_counted q m
    simp only [DiagramOp.exec, h2, h3, List.countP_append, List.countP_cons, List.countP_nil, DiagramOp.isRequest]
    split <;> simp <;> omega

/-- C103: a diagram is stored exactly if a request for it succeeded since the pool was made or its order was changed. -/
theorem diagram_cached {s q : DiagramPool E} (hs : s = newDiagramPool X ∨ ∃ r, s = DiagramOp.exec X r (.call .changeOrder))
    {os : List (DiagramOp E)} (h : DHist X Γ s os q) (hc : .call .changeOrder ∉ os) (n : ℕ) :
    q.isCached n = true ↔ ∃ os₁ os₂ t, os = os₁ ++ .diagram n :: os₂ ∧ DHist X Γ s os₁ t ∧ (t.pool.node n).isSome := by
  constructor
  · intro hn
    induction h with
    | refl => rcases hs with rfl | ⟨r, rfl⟩ <;> cases hn
    | @call os q o _ _ ih =>
      simp only [List.mem_append, List.mem_singleton, not_or] at hc
      rw [exec_call_other o fun he => hc.2 (by rw [he])] at hn
      obtain ⟨a, b, t, rfl, h2, h3⟩ := ih hc.1 hn
      exact ⟨a, b ++ [.call o], t, by simp, h2, h3⟩
    | @diagram os q m hq ih =>
      simp only [List.mem_append, List.mem_singleton, not_or] at hc
      by_cases hold : q.isCached n = true
      · obtain ⟨a, b, t, rfl, h2, h3⟩ := ih hc.1 hold
        exact ⟨a, b ++ [.diagram m], t, by simp, h2, h3⟩
      · have hl : q.cache.entries.lookup n = none := by
          cases hl : q.cache.entries.lookup n with
          | none => rfl
          | some d => exact absurd (by rw [DiagramPool.isCached, MemoCache.contains, hl]; rfl) hold
        simp only [DiagramOp.exec, DiagramPool.isCached, MemoCache.contains] at hn
        rw [diagram_eq] at hn
        cases hm : q.cache.entries.lookup m with
        | some d => rw [hm] at hn; simp [hl] at hn
        | none =>
          rw [hm] at hn
          cases hx : q.pool.node m with
          | none => rw [hx] at hn; simp [hl] at hn
          | some x =>
            rw [hx] at hn
            simp only [List.lookup_cons] at hn
            split at hn
            · rename_i he
              obtain rfl : n = m := by simpa using he
              exact ⟨os, [], q, by simp, hq, by simp [hx]⟩
            · rw [hl] at hn; cases hn
  · rintro ⟨os₁, os₂, t, he, h1, h2⟩
    rw [DiagramPool.isCached, MemoCache.contains]
    induction h generalizing os₂ with
    | refl => simp at he
    | @call os q o _ _ ih =>
      simp only [List.mem_append, List.mem_singleton, not_or] at hc
      rw [exec_call_other o fun he => hc.2 (by rw [he])]
      rcases List.eq_nil_or_concat os₂ with rfl | ⟨b, x, rfl⟩
      · have := List.append_inj_right' he rfl
        cases this
      · rw [List.concat_eq_append, ← List.cons_append, ← List.append_assoc] at he
        exact ih hc.1 b (List.append_inj_left' he rfl)
    | @diagram os q m hq ih =>
      simp only [List.mem_append, List.mem_singleton, not_or] at hc
      rcases List.eq_nil_or_concat os₂ with rfl | ⟨b, x, rfl⟩
      · have h3 := List.append_inj_right' he rfl
        have h4 := List.append_inj_left' he rfl
        cases h3
        subst h4
        obtain rfl : q = t := hq.fold.trans h1.fold.symm
        obtain ⟨x, hx⟩ := Option.isSome_iff_exists.mp h2
        simp only [DiagramOp.exec]
        rw [diagram_eq]
        cases hl : q.cache.entries.lookup n with
        | some d => simp [hl]
        | none => simp [hx]
      · rw [List.concat_eq_append, ← List.cons_append, ← List.append_assoc] at he
        obtain ⟨d, hd⟩ := Option.isSome_iff_exists.mp (ih hc.1 b (List.append_inj_left' he rfl))
        simp only [DiagramOp.exec]
        rw [lookup_diagram hd]
        rfl
end

/-! ### The hypotheses are met -/

/-- EXAMPLE: a history with a diagram, a new node, the same diagram, one of a node that does not exist, a change of the order, and two more
requests. -/
def cacheHistory : List (DiagramOp Dict) :=
  [.diagram 1, .call (.boolTest exB), .diagram 1, .diagram 9, .call .changeOrder, .diagram 1, .diagram 3]

/-- The state after the first `n` calls. -/
def cacheAfter (n : ℕ) : DiagramPool Dict := (cacheHistory.take n).foldl (DiagramOp.exec exCtx) (newDiagramPool exCtx)

theorem cache_hist : DHist exCtx exTypes (newDiagramPool exCtx) cacheHistory (cacheAfter 7) :=
  .diagram 3 (.diagram 1 (.call .changeOrder (.diagram 9 (.diagram 1 (.call (.boolTest exB) (.diagram 1 .refl) (TestForm.sym "b")))) trivial))

/-- The second request returns the first object, the one after the change of the order does not, and the counters start again. -/
theorem cache_concrete :
    ((cacheAfter 0).diagram 1).1.toOption.map (·.serial) = some 0 ∧ ((cacheAfter 2).diagram 1).1.toOption.map (·.serial) = some 0 ∧
    ((cacheAfter 3).diagram 9).1.toOption.map (·.serial) = none ∧ ((cacheAfter 5).diagram 1).1.toOption.map (·.serial) = some 1 ∧
    ((cacheAfter 4).cache.hits, (cacheAfter 4).cache.misses) = (1, 2) ∧ ((cacheAfter 7).cache.hits, (cacheAfter 7).cache.misses) = (0, 2) ∧
    ((cacheAfter 7).diagram 3).1.toOption.map (·.root) = some (.inner ⟨exB, none, true⟩ 2 1) := by
  decide +kernel

end Pywmi
