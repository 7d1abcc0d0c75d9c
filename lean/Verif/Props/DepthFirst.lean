import Verif.Props.TopDown
import Verif.Xadd.DepthFirst

set_option linter.unusedSectionVars false
set_option linter.unusedSimpArgs false

/-!
# C102: walks depth first
-/

namespace Pywmi

section
variable {E : Type} [DecidableEq E] {X : XCtx E} {ev : E → (String → ℝ) → ℝ} {Γ : String → Ty} {M : Type}

/-! ### Every path -/

/-- SPEC: the node and the message a path arrives at; `true` is the true child. -/
def follow (p : Pool E) (vi : ℕ → Decision → M → M × M) : List Bool → ℕ → M → Option (ℕ × M)
  | [], n, m => (p.node n).map fun _ => (n, m)
  | b :: bs, n, m => match p.node n with
    | some (.inner d t f) => if b then follow p vi bs t (vi n d m).1 else follow p vi bs f (vi n d m).2
    | _ => none

/-- SPEC: the order of paths: a path comes before its extensions, true children come before false children. -/
abbrev Earlier : List Bool → List Bool → Prop := List.Lex fun a b => a = true ∧ b = false

theorem dfVisit_ok {p : Pool E} (hp : Core X p) (vi : ℕ → Decision → M → M × M) (k : ℕ) : ∀ n m, n < k → (p.node n).isSome →
    ∃ ps : List (List Bool), dfVisit p vi k n m = .ok (ps.filterMap fun q => follow p vi q n m) ∧ ps.Pairwise Earlier ∧
      ∀ q, q ∈ ps ↔ (follow p vi q n m).isSome := by
  induction k with
  | zero => intro n m h; omega
  | succ k ih =>
    intro n m hk hn
    cases hx : p.node n with
    | none => rw [hx] at hn; cases hn
    | some x =>
      cases x with
      | leaf e =>
        refine ⟨[[]], by simp [dfVisit, hx, follow], by simp, fun q => ?_⟩
        cases q <;> simp [follow, hx]
      | inner d t f =>
        obtain ⟨h1, h2, -, h3, h4, -⟩ := hp.inner hx
        obtain ⟨ps, a1, a2, a3⟩ := ih t (vi n d m).1 (by omega) h3
        obtain ⟨qs, b1, b2, b3⟩ := ih f (vi n d m).2 (by omega) h4
        refine ⟨[] :: (ps.map (true :: ·) ++ qs.map (false :: ·)), ?_, ?_, fun q => ?_⟩
        · simp only [dfVisit, hx, a1, b1, List.filterMap_cons, List.filterMap_append, List.filterMap_map, Function.comp_def, follow, Option.map_some,
            if_true, Bool.false_eq_true, if_false]
        · rw [List.pairwise_cons, List.pairwise_append, List.pairwise_map, List.pairwise_map]
          refine ⟨fun q hq => ?_, a2.imp fun h => .cons h, b2.imp fun h => .cons h, fun q hq r hr => ?_⟩
          · rw [List.mem_append, List.mem_map, List.mem_map] at hq
            rcases hq with ⟨_, _, rfl⟩ | ⟨_, _, rfl⟩ <;> exact .nil
          · obtain ⟨_, _, rfl⟩ := List.mem_map.mp hq
            obtain ⟨_, _, rfl⟩ := List.mem_map.mp hr
            exact .rel ⟨rfl, rfl⟩
        · cases q with
          | nil => simp [follow, hx]
          | cons b q => cases b <;> simp [follow, hx, a3, b3]

/-- **C102**: a `DepthFirstWalker` returns; it calls a visiting method once for every path of the diagram, with the message sent along
the path, parents before children and true children before false ones. -/
theorem depth_first_paths (hX : XLaw X ev) {p : Pool E} (hp : Reachable X Γ p) {root : ℕ} (hr : (p.node root).isSome)
    (vi : ℕ → Decision → M → M × M) (m : M) :
    ∃ ps : List (List Bool), depthFirst1 p vi m root = .ok (ps.filterMap fun q => follow p vi q root m) ∧ ps.Pairwise Earlier ∧
      ∀ q, q ∈ ps ↔ (follow p vi q root m).isSome :=
  dfVisit_ok (hp.inv hX).core vi _ root m (Nat.lt_succ_self _) hr

/-! ### Every edge -/

/-- SPEC: what the expansion of a node sends to its children. -/
def sends (p : Pool E) (vi : ℕ → Decision → M → M × M) (v : ℕ × M) : List (ℕ × M) :=
  match p.node v.1 with
  | some (.inner d t f) => [(t, (vi v.1 d v.2).1), (f, (vi v.1 d v.2).2)]
  | _ => []

/-- SPEC: an internal node. -/
def Internal (p : Pool E) (n : ℕ) : Prop := ∃ d t f, p.node n = some (.inner d t f)

/-- One visit: the nodes expanded by it and the calls made by it. -/
structure DFStep (p : Pool E) (vi : ℕ → Decision → M → M × M) (n : ℕ) (m : M) (s s' : DFState M) (ex cs : List (ℕ × M)) : Prop where
  calls : s'.calls = s.calls ++ cs
  seen : ∀ u, u ∈ s'.seen ↔ u ∈ s.seen ∨ u ∈ ex.map (·.1)
  fresh : ∀ u ∈ ex.map (·.1), u ∉ s.seen ∧ Internal p u ∧ Reach p n u
  nodup : (ex.map (·.1)).Nodup
  perm : cs.Perm ((n, m) :: ex.flatMap (sends p vi))
  first : ∀ v ∈ ex, cs.lookup v.1 = some v.2
  inner : ∀ v ∈ cs, Internal p v.1 → v.1 ∈ s'.seen

theorem lookup_append_left {α β : Type} [BEq α] {l l' : List (α × β)} {k : α} {b : β} (h : l.lookup k = some b) : (l ++ l').lookup k = some b := by
  induction l with
  | nil => simp at h
  | cons q l ih =>
    rw [List.cons_append, ← Prod.mk.eta (p := q), List.lookup_cons] at *
    split <;> simp_all

theorem lookup_append_right {α β : Type} [BEq α] [LawfulBEq α] {l l' : List (α × β)} {k : α} (h : k ∉ l.map (·.1)) : (l ++ l').lookup k = l'.lookup k := by
  induction l with
  | nil => rfl
  | cons q l ih =>
    simp only [List.map_cons, List.mem_cons, not_or] at h
    rw [List.cons_append, ← Prod.mk.eta (p := q), List.lookup_cons]
    have : (k == q.1) = false := by simpa using h.1
    rw [this]
    exact ih h.2

theorem dfuVisit_ok {p : Pool E} (hp : Core X p) (vi : ℕ → Decision → M → M × M) (k : ℕ) : ∀ n m s, n < k → (p.node n).isSome →
    ∃ s' ex cs, dfuVisit p vi k n m s = .ok s' ∧ DFStep p vi n m s s' ex cs := by
  induction k with
  | zero => intro n m s h; omega
  | succ k ih =>
    intro n m s hk hn
    cases hx : p.node n with
    | none => rw [hx] at hn; cases hn
    | some x =>
      cases x with
      | leaf e =>
        refine ⟨⟨s.seen, s.calls ++ [(n, m)]⟩, [], [(n, m)], by simp only [dfuVisit, hx], ⟨rfl, by simp, by simp, by simp, by simp, by simp, ?_⟩⟩
        rintro v hv ⟨d, t, f, h⟩
        rw [List.mem_singleton.mp hv, hx] at h
        cases h
      | inner d t f =>
        by_cases hs : n ∈ s.seen
        · refine ⟨⟨s.seen, s.calls ++ [(n, m)]⟩, [], [(n, m)], by simp only [dfuVisit, hx, if_pos hs], ⟨rfl, by simp, by simp, by simp, by simp, by simp, ?_⟩⟩
          intro v hv _
          rw [List.mem_singleton.mp hv]
          exact hs
        · obtain ⟨h1, h2, -, h3, h4, -⟩ := hp.inner hx
          obtain ⟨s1, ea, ca, a0, A⟩ := ih t (vi n d m).1 ⟨n :: s.seen, s.calls ++ [(n, m)]⟩ (by omega) h3
          obtain ⟨s2, eb, cb, b0, B⟩ := ih f (vi n d m).2 s1 (by omega) h4
          have ht : Reach p n t := .step .root ⟨d, t, f, hx, .inl rfl⟩
          have hf : Reach p n f := .step .root ⟨d, t, f, hx, .inr rfl⟩
          have seen1 : ∀ u, u ∈ s1.seen ↔ u = n ∨ u ∈ s.seen ∨ u ∈ ea.map (·.1) := fun u => by
            rw [A.seen u, List.mem_cons, or_assoc]
          refine ⟨s2, (n, m) :: (ea ++ eb), (n, m) :: (ca ++ cb), by simp only [dfuVisit, hx, if_neg hs, a0, b0], ⟨?_, ?_, ?_, ?_, ?_, ?_, ?_⟩⟩
          · rw [B.calls, A.calls]; simp
          · intro u
            rw [B.seen u, seen1 u]
            simp only [List.map_cons, List.map_append, List.mem_cons, List.mem_append]
            tauto
          · intro u hu
            simp only [List.map_cons, List.map_append, List.mem_cons, List.mem_append] at hu
            rcases hu with rfl | hu | hu
            · exact ⟨hs, ⟨d, t, f, hx⟩, .root⟩
            · obtain ⟨i1, i2, i3⟩ := A.fresh u hu
              exact ⟨fun h => i1 (by simp [h]), i2, ht.trans i3⟩
            · obtain ⟨i1, i2, i3⟩ := B.fresh u hu
              exact ⟨fun h => i1 ((seen1 u).mpr (.inr (.inl h))), i2, hf.trans i3⟩
          · simp only [List.map_cons, List.map_append, List.nodup_cons, List.nodup_append, List.mem_append, not_or]
            refine ⟨⟨fun h => (A.fresh n h).1 (by simp), fun h => (B.fresh n h).1 ((seen1 n).mpr (.inl rfl))⟩, A.nodup, B.nodup, ?_⟩
            rintro a ha b hb rfl
            exact (B.fresh a hb).1 ((seen1 a).mpr (.inr (.inr ha)))
          · refine List.Perm.cons _ ((A.perm.append B.perm).trans ?_)
            have : sends p vi (n, m) = [(t, (vi n d m).1), (f, (vi n d m).2)] := by simp only [sends, hx]
            rw [List.flatMap_cons, this, List.flatMap_append]
            simp only [List.cons_append, List.nil_append]
            exact .cons _ (List.perm_middle)
          · intro v hv
            simp only [List.mem_cons, List.mem_append] at hv
            rcases hv with rfl | hv | hv
            · simp [List.lookup_cons]
            · have hm : v.1 ∈ ea.map (·.1) := List.mem_map.mpr ⟨v, hv, rfl⟩
              have hne : (v.1 == n) = false := by
                have : v.1 ≠ n := fun h => (A.fresh v.1 hm).1 (by simp [h])
                simpa using this
              rw [List.lookup_cons, hne]
              exact lookup_append_left (A.first v hv)
            · have hm : v.1 ∈ eb.map (·.1) := List.mem_map.mpr ⟨v, hv, rfl⟩
              obtain ⟨i1, i2, -⟩ := B.fresh v.1 hm
              have hne : (v.1 == n) = false := by
                have : v.1 ≠ n := fun h => i1 ((seen1 v.1).mpr (.inl h))
                simpa using this
              rw [List.lookup_cons, hne]
              simp only
              rw [lookup_append_right, B.first v hv]
              intro hca
              obtain ⟨w, hw, hwe⟩ := List.mem_map.mp hca
              exact i1 (hwe ▸ A.inner w hw (hwe ▸ i2))
          · intro v hv hi
            simp only [List.mem_cons, List.mem_append] at hv
            rcases hv with rfl | hv | hv
            · exact (B.seen _).mpr (.inl ((seen1 _).mpr (.inl rfl)))
            · exact (B.seen _).mpr (.inl (A.inner v hv hi))
            · exact B.inner v hv hi

/-- **C102**: a `DepthFirstUniqueWalker` returns; every internal node of the diagram is expanded once, at its first call; the calls are one
for the root and one for each edge, with the message the expansion of the parent sent. -/
theorem unique_edges (hX : XLaw X ev) {p : Pool E} (hp : Reachable X Γ p) {root : ℕ} (hr : (p.node root).isSome)
    (vi : ℕ → Decision → M → M × M) (m : M) :
    ∃ cs ex : List (ℕ × M), depthFirstUnique p vi m root = .ok cs ∧ (ex.map (·.1)).Nodup ∧
      (∀ u, u ∈ ex.map (·.1) ↔ Reach p root u ∧ Internal p u) ∧ (∀ v ∈ ex, cs.lookup v.1 = some v.2) ∧
      cs.Perm ((root, m) :: ex.flatMap (sends p vi)) := by
  have hc := (hp.inv hX).core
  obtain ⟨s', ex, cs, h1, S⟩ := dfuVisit_ok hc vi (root + 1) root m ⟨[], []⟩ (Nat.lt_succ_self _) hr
  have hcalls : s'.calls = cs := by simpa using S.calls
  have hseen : ∀ u, u ∈ s'.seen ↔ u ∈ ex.map (·.1) := fun u => by simpa using S.seen u
  have hin : ∀ u, Reach p root u → u ∈ cs.map (·.1) := by
    intro u hu
    induction hu with
    | root => exact List.mem_map.mpr ⟨(root, m), S.perm.mem_iff.mpr (by simp), rfl⟩
    | @step a c _ hch ih =>
      obtain ⟨d, t, f, hx, hct⟩ := hch
      obtain ⟨v, hv, rfl⟩ := List.mem_map.mp ih
      obtain ⟨w, hw, hwe⟩ := List.mem_map.mp ((hseen v.1).mp (S.inner v hv ⟨d, t, f, hx⟩))
      have hsend : sends p vi w = [(t, (vi w.1 d w.2).1), (f, (vi w.1 d w.2).2)] := by simp only [sends, hwe, hx]
      refine List.mem_map.mpr ?_
      rcases hct with rfl | rfl
      · exact ⟨_, S.perm.mem_iff.mpr (List.mem_cons_of_mem _ (List.mem_flatMap.mpr ⟨w, hw, by rw [hsend]; exact List.mem_cons_self ..⟩)), rfl⟩
      · exact ⟨(_, (vi w.1 d w.2).2), S.perm.mem_iff.mpr (List.mem_cons_of_mem _ (List.mem_flatMap.mpr ⟨w, hw, by rw [hsend]; simp⟩)), rfl⟩
  refine ⟨cs, ex, by simp only [depthFirstUnique, h1, hcalls], S.nodup, fun u => ⟨fun h => ?_, fun ⟨h, hi⟩ => ?_⟩, S.first, S.perm⟩
  · obtain ⟨-, i2, i3⟩ := S.fresh u h
    exact ⟨i3, i2⟩
  · obtain ⟨v, hv, rfl⟩ := List.mem_map.mp (hin u h)
    exact (hseen _).mp (S.inner v hv hi)

/-- C102: the number of calls is one more than twice the number of internal nodes, however many paths there are. -/
theorem unique_length (hX : XLaw X ev) {p : Pool E} (hp : Reachable X Γ p) {root : ℕ} (hr : (p.node root).isSome)
    (vi : ℕ → Decision → M → M × M) (m : M) :
    ∃ (cs : List (ℕ × M)) (us : List ℕ), depthFirstUnique p vi m root = .ok cs ∧ us.Nodup ∧ (∀ u, u ∈ us ↔ Reach p root u ∧ Internal p u) ∧
      cs.length = 1 + 2 * us.length := by
  obtain ⟨cs, ex, h1, h2, h3, -, h4⟩ := unique_edges hX hp hr vi m
  refine ⟨cs, ex.map (·.1), h1, h2, h3, ?_⟩
  have : ∀ l : List (ℕ × M), (∀ v ∈ l, Internal p v.1) → (l.flatMap (sends p vi)).length = 2 * l.length := by
    intro l hl
    induction l with
    | nil => rfl
    | cons v l ih =>
      obtain ⟨d, t, f, hx⟩ := hl v (by simp)
      rw [List.flatMap_cons, List.length_append, ih fun w hw => hl w (by simp [hw])]
      simp only [sends, hx, List.length_cons, List.length_nil]
      omega
  rw [h4.length_eq, List.length_cons, this ex fun v hv => ((h3 v.1).mp (List.mem_map.mpr ⟨v, hv, rfl⟩)).2, List.length_map]
  omega

/-- The documentation of `DepthFirstUniqueWalker` says that every node is visited only once. It is not so: a node with two parents is
visited twice. -/
theorem unique_visits_again (hX : XLaw X ev) {p : Pool E} (hp : Reachable X Γ p) {root : ℕ} (hr : (p.node root).isSome)
    (vi : ℕ → Decision → M → M × M) (m : M) {a b c : ℕ} (ha : Reach p root a) (hb : Reach p root b) (hab : a ≠ b) (hac : Child p a c) (hbc : Child p b c) :
    ∃ cs : List (ℕ × M), depthFirstUnique p vi m root = .ok cs ∧ 2 ≤ (cs.map (·.1)).count c := by
  obtain ⟨cs, ex, h1, h2, h3, -, h4⟩ := unique_edges hX hp hr vi m
  refine ⟨cs, h1, ?_⟩
  obtain ⟨d, t, f, hx, hc⟩ := hac
  obtain ⟨d', t', f', hx', hc'⟩ := hbc
  obtain ⟨v, hv, rfl⟩ := List.mem_map.mp ((h3 a).mpr ⟨ha, d, t, f, hx⟩)
  obtain ⟨w, hw, rfl⟩ := List.mem_map.mp ((h3 b).mpr ⟨hb, d', t', f', hx'⟩)
  classical
  obtain ⟨l, hl⟩ : ∃ l, ex.Perm (v :: l) := ⟨_, List.perm_cons_erase hv⟩
  have hwl : w ∈ l := by
    have := hl.mem_iff.mp hw
    rw [List.mem_cons] at this
    exact this.resolve_left fun h => hab (by rw [h])
  obtain ⟨l', hl'⟩ : ∃ l', l.Perm (w :: l') := ⟨_, List.perm_cons_erase hwl⟩
  have hcount : ∀ (u : ℕ × M) (d : Decision) (t f : ℕ), p.node u.1 = some (.inner d t f) → (c = t ∨ c = f) → 1 ≤ ((sends p vi u).map (·.1)).count c := by
    intro u d t f hu hc
    rw [List.one_le_count_iff]
    simp only [sends, hu, List.map_cons, List.map_nil, List.mem_cons, List.not_mem_nil, or_false]
    exact hc
  have i1 := hcount v d t f hx hc
  have i2 := hcount w d' t' f' hx' hc'
  rw [(h4.map (·.1)).count_eq, List.map_cons, List.count_cons, ((hl.trans (hl'.cons v)).flatMap_right (sends p vi) |>.map (·.1)).count_eq]
  simp only [List.flatMap_cons, List.map_append, List.count_append]
  omega

/-! ### ParentsWalker -/

/-- What `ParentsWalker` does with a call. -/
def recordParent (par : List (ℕ × List ℕ)) (c : ℕ × Option ℕ) : List (ℕ × List ℕ) :=
  match c.2 with
  | some m => addParent par c.1 m
  | none => par

/-- C102: `ParentsWalker` is a `DepthFirstUniqueWalker` that sends every child the number of the parent and records what it gets. -/
theorem parents_walker (p : Pool E) (root : ℕ) :
    parentsOf p root = (depthFirstUnique p (fun n _ _ => (some n, some n)) none root).map fun cs => cs.foldl recordParent [(root, [])] := by
  have key : ∀ k n m (s : DFState (Option ℕ)) i, visitParents p k n m ⟨s.calls.foldl recordParent i, s.seen⟩ =
      (dfuVisit p (fun n _ _ => (some n, some n)) k n m s).map fun s => ⟨s.calls.foldl recordParent i, s.seen⟩ := by
    intro k
    induction k with
    | zero => intros; rfl
    | succ k ih =>
      intro n m s i
      have step : ∀ j, j = (s.calls ++ [(n, m)]).foldl recordParent i →
          (match p.node n with
            | none => .error .runtimeError
            | some (.leaf _) => .ok ⟨j, s.seen⟩
            | some (.inner _ t f) =>
              if n ∈ s.seen then .ok ⟨j, s.seen⟩
              else
                match visitParents p k t (some n) ⟨j, n :: s.seen⟩ with
                | .error e => .error e
                | .ok s2 => visitParents p k f (some n) s2) =
          (dfuVisit p (fun n _ _ => (some n, some n)) (k + 1) n m s).map fun s => (⟨s.calls.foldl recordParent i, s.seen⟩ : PWState) := by
        rintro j rfl
        simp only [dfuVisit]
        cases p.node n with
        | none => rfl
        | some x =>
          cases x with
          | leaf e => rfl
          | inner d t f =>
            simp only
            split
            · rfl
            · rw [ih t (some n) ⟨n :: s.seen, s.calls ++ [(n, m)]⟩ i]
              cases dfuVisit p (fun n _ _ => (some n, some n)) k t (some n) ⟨n :: s.seen, s.calls ++ [(n, m)]⟩ with
              | error e => rfl
              | ok s1 => exact ih f (some n) s1 i
      cases m with
      | none => exact step _ (by simp [recordParent])
      | some x => exact step _ (by simp [recordParent])
  unfold parentsOf depthFirstUnique
  have := key (root + 1) root none ⟨[], []⟩ [(root, [])]
  simp only [List.foldl_nil] at this
  rw [this]
  cases dfuVisit p (fun n _ _ => (some n, some n)) (root + 1) root none ⟨[], []⟩ <;> rfl

end

/-! ### The hypotheses are met -/

/-- The length of the path, as a message. -/
def exDepth (_ : ℕ) (_ : Decision) (m : ℕ) : ℕ × ℕ := (m + 1, m + 1)

/-- EXAMPLE: node 3 is `b`, node 4 tests `a` above it, node 5 has both as children. -/
def exShared : Pool Dict := runOps [.boolTest exB, .internal exA 3 1, .internal exB 4 3] (newPool exCtx)

theorem exShared_reachable : Reachable exCtx exTypes exShared := by
  refine .step (.internal exB 4 3) (.step (.internal exA 3 1) (.step (.boolTest exB) .refl ?_) ?_) ?_
  · exact .sym _
  · exact ⟨.sym _, by decide +kernel, by decide +kernel⟩
  · exact ⟨.sym _, by decide +kernel, by decide +kernel⟩

/-- Every path, and every edge: the node 3 is called twice by both walkers, but expanded once by the second. -/
theorem depth_first_example :
    depthFirst1 exShared exDepth 0 5 = .ok [(5, 0), (4, 1), (3, 2), (2, 3), (1, 3), (1, 2), (3, 1), (2, 2), (1, 2)] ∧
    depthFirstUnique exShared exDepth 0 5 = .ok [(5, 0), (4, 1), (3, 2), (2, 3), (1, 3), (1, 2), (3, 1)] := by decide +kernel

example : ∃ ps : List (List Bool), depthFirst1 exShared exDepth 0 5 = .ok (ps.filterMap fun q => follow exShared exDepth q 5 0) ∧
    ps.Pairwise Earlier ∧ ∀ q, q ∈ ps ↔ (follow exShared exDepth q 5 0).isSome :=
  depth_first_paths exLaw exShared_reachable (by decide +kernel) exDepth 0

example : ∃ (cs : List (ℕ × ℕ)) (us : List ℕ), depthFirstUnique exShared exDepth 0 5 = .ok cs ∧ us.Nodup ∧
    (∀ u, u ∈ us ↔ Reach exShared 5 u ∧ Internal exShared u) ∧ cs.length = 1 + 2 * us.length :=
  unique_length exLaw exShared_reachable (by decide +kernel) exDepth 0

example : ∃ cs : List (ℕ × ℕ), depthFirstUnique exShared exDepth 0 5 = .ok cs ∧ 2 ≤ (cs.map (·.1)).count 3 := by
  have h5 : ∃ d, exShared.node 5 = some (.inner d 4 3) := by
    refine ⟨⟨exB, none, true⟩, ?_⟩
    decide +kernel
  have h4 : ∃ d, exShared.node 4 = some (.inner d 3 1) := by
    refine ⟨⟨exA, none, true⟩, ?_⟩
    decide +kernel
  obtain ⟨d5, h5⟩ := h5
  obtain ⟨d4, h4⟩ := h4
  exact unique_visits_again exLaw exShared_reachable (by decide +kernel) exDepth 0 (a := 5) (b := 4) .root (.step .root ⟨_, _, _, h5, .inl rfl⟩) (by decide)
    ⟨_, _, _, h5, .inr rfl⟩ ⟨_, _, _, h4, .inl rfl⟩

end Pywmi
