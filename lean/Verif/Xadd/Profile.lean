import Verif.Xadd.Walk
import Verif.Xadd.Reduce

set_option linter.unusedSectionVars false
set_option linter.unusedSimpArgs false

/-!
# Profiles list every node once, children first
-/

namespace Pywmi
open Prog

/-! ### Dictionaries -/

theorem lookup_setKey {β : Type} (d : List (ℕ × β)) (k : ℕ) (v : β) (j : ℕ) :
    (setKey d k v).lookup j = if j = k then (d.lookup k).map (fun _ => v) else d.lookup j := by
  induction d with
  | nil => simp [setKey]
  | cons p d ih =>
    obtain ⟨k', v'⟩ := p
    simp only [setKey]
    by_cases h : k' = k
    · subst h
      rw [if_pos rfl, List.lookup_cons, List.lookup_cons, List.lookup_cons]
      by_cases hj : j = k'
      · subst hj; simp
      · have : (j == k') = false := by simpa using hj
        simp [this, hj]
    · rw [if_neg h, List.lookup_cons, List.lookup_cons, List.lookup_cons, ih]
      have h1 : (k == k') = false := by simpa using fun e : k = k' => h e.symm
      by_cases hj : j = k'
      · subst hj; simp [h]
      · have : (j == k') = false := by simpa using hj
        simp [this, h1]

theorem keys_setKey {β : Type} (d : List (ℕ × β)) (k : ℕ) (v : β) : (setKey d k v).map (·.1) = d.map (·.1) := by
  induction d with
  | nil => rfl
  | cons p d ih =>
    obtain ⟨k', v'⟩ := p
    simp only [setKey]
    split <;> simp [ih]

theorem lookup_addParent (d : List (ℕ × List ℕ)) (n m j : ℕ) : (addParent d n m).lookup j =
    if j = n then some (match d.lookup n with | none => [m] | some l => if m ∈ l then l else l ++ [m]) else d.lookup j := by
  induction d with
  | nil =>
    simp only [addParent, List.lookup_cons, List.lookup_nil]
    by_cases hj : j = n
    · subst hj; simp
    · have : (j == n) = false := by simpa using hj
      simp [this, hj]
  | cons p d ih =>
    obtain ⟨k', l'⟩ := p
    simp only [addParent]
    by_cases h : k' = n
    · subst h
      rw [if_pos rfl, List.lookup_cons, List.lookup_cons, List.lookup_cons]
      by_cases hj : j = k'
      · subst hj; simp
      · have : (j == k') = false := by simpa using hj
        simp [this, hj]
    · rw [if_neg h, List.lookup_cons, List.lookup_cons, List.lookup_cons, ih]
      have h1 : (n == k') = false := by simpa using fun e : n = k' => h e.symm
      by_cases hj : j = k'
      · subst hj; simp [h]
      · have : (j == k') = false := by simpa using hj
        simp [this, h1]

theorem lookup_isSome_mem {β : Type} (d : List (ℕ × β)) (k : ℕ) : (d.lookup k).isSome ↔ k ∈ d.map (·.1) := by
  induction d with
  | nil => simp
  | cons p d ih =>
    obtain ⟨k', v⟩ := p
    rw [List.lookup_cons]
    by_cases h : k = k'
    · subst h; simp
    · have : (k == k') = false := by simpa using h
      simp [this, ih, h]

theorem lookup_append_single {β : Type} (d : List (ℕ × β)) (c : ℕ) (v : β) (h : (d.lookup c).isSome = false) (j : ℕ) :
    (d ++ [(c, v)]).lookup j = if j = c then some v else d.lookup j := by
  induction d with
  | nil =>
    simp only [List.nil_append, List.lookup_cons, List.lookup_nil]
    by_cases hj : j = c
    · subst hj; simp
    · have : (j == c) = false := by simpa using hj
      simp [this, hj]
  | cons p d ih =>
    obtain ⟨k', v'⟩ := p
    rw [List.lookup_cons] at h
    by_cases hc : c = k'
    · subst hc; simp at h
    · have h1 : (c == k') = false := by simpa using hc
      rw [h1] at h
      rw [List.cons_append, List.lookup_cons, List.lookup_cons, ih h]
      by_cases hj : j = k'
      · subst hj
        have hjc : ¬j = c := fun e => hc e.symm
        simp [hjc]
      · have : (j == k') = false := by simpa using hj
        simp [this]

section
variable {E : Type} [DecidableEq E]

/-! ### Reachable nodes -/

/-- SPEC: `c` is a child of `m`. -/
def Child (p : Pool E) (m c : ℕ) : Prop := ∃ d t f, p.node m = some (.inner d t f) ∧ (c = t ∨ c = f)

/-- SPEC: the nodes of the diagram with the given root. -/
inductive Reach (p : Pool E) (root : ℕ) : ℕ → Prop
  | root : Reach p root root
  | step {m c : ℕ} : Reach p root m → Child p m c → Reach p root c

theorem Reach.trans {p : Pool E} {a b c : ℕ} (h : Reach p a b) (h' : Reach p b c) : Reach p a c := by
  induction h' with
  | root => exact h
  | step _ hc ih => exact .step ih hc

theorem Core.child_lt {X : XCtx E} {p : Pool E} (h : Core X p) {m c : ℕ} (hc : Child p m c) : c < m := by
  obtain ⟨d, t, f, hn, rfl | rfl⟩ := hc
  · exact (h.inner hn).1
  · exact (h.inner hn).2.1

theorem Core.child_some {X : XCtx E} {p : Pool E} (h : Core X p) {m c : ℕ} (hc : Child p m c) : (p.node c).isSome := by
  obtain ⟨d, t, f, hn, rfl | rfl⟩ := hc
  · exact (h.inner hn).2.2.2.1
  · exact (h.inner hn).2.2.2.2.1

theorem Core.reach_some {X : XCtx E} {p : Pool E} (h : Core X p) {r n : ℕ} (hr : (p.node r).isSome) (hn : Reach p r n) : (p.node n).isSome := by
  induction hn with
  | root => exact hr
  | step _ hc _ => exact h.child_some hc

theorem Core.reach_le {X : XCtx E} {p : Pool E} (h : Core X p) {r n : ℕ} (hn : Reach p r n) : n ≤ r := by
  induction hn with
  | root => exact le_refl _
  | step _ hc ih => exact (h.child_lt hc).le.trans ih

/-- A node other than the root has a parent. -/
theorem Reach.parent {p : Pool E} {r n : ℕ} (h : Reach p r n) (hne : n ≠ r) : ∃ m, Reach p r m ∧ Child p m n := by
  cases h with
  | root => exact absurd rfl hne
  | step hm hc => exact ⟨_, hm, hc⟩

/-! ### The walk that collects parents -/

/-- The parent `m` is recorded for the node `c`. -/
def Edge (d : List (ℕ × List ℕ)) (c m : ℕ) : Prop := ∃ l, d.lookup c = some l ∧ m ∈ l

/-- Keys and parents are without repetition. -/
def ParOk (d : List (ℕ × List ℕ)) : Prop := ∀ c l, d.lookup c = some l → l.Nodup

theorem edge_addParent (d : List (ℕ × List ℕ)) (n m c k : ℕ) : Edge (addParent d n m) c k ↔ Edge d c k ∨ (c = n ∧ k = m) := by
  unfold Edge
  rw [lookup_addParent]
  by_cases h : c = n
  · subst h
    simp only [if_true, Option.some.injEq, exists_eq_left', true_and]
    cases hl : d.lookup c with
    | none => simp
    | some l =>
      simp only [Option.some.injEq, exists_eq_left']
      split
      · rename_i hm
        constructor
        · exact Or.inl
        · rintro (h | rfl) <;> assumption
      · simp
  · simp [h]

theorem parOk_addParent {d : List (ℕ × List ℕ)} (h : ParOk d) (n m : ℕ) : ParOk (addParent d n m) := by
  intro c l hl
  rw [lookup_addParent] at hl
  split at hl
  · rename_i hc
    simp only [Option.some.injEq] at hl
    cases hd : d.lookup n with
    | none => rw [hd] at hl; simp only at hl; subst hl; simp
    | some l' =>
      rw [hd] at hl
      simp only at hl
      have := h n l' hd
      split at hl
      · subst hl; exact this
      · rename_i hm
        subst hl
        rw [List.nodup_append]
        refine ⟨this, by simp, fun a ha b hb => ?_⟩
        simp only [List.mem_singleton] at hb
        subst hb
        rintro rfl
        exact hm ha
  · exact h c l hl

theorem key_addParent (d : List (ℕ × List ℕ)) (n m c : ℕ) : ((addParent d n m).lookup c).isSome ↔ c = n ∨ (d.lookup c).isSome := by
  rw [lookup_addParent]
  by_cases h : c = n <;> simp [h]

/-- What one visit does to the state. -/
structure Visited (p : Pool E) (n : ℕ) (parent : Option ℕ) (s s' : PWState) : Prop where
  seen : ∀ m ∈ s.seen, m ∈ s'.seen
  fresh : ∀ m ∈ s'.seen, m ∉ s.seen → Reach p n m ∧ (∀ c, Child p m c → Edge s'.par c m) ∧
    ∀ c, Child p m c → (∃ d, Child p c d) → c ∈ s'.seen
  self : (∃ d, Child p n d) → n ∈ s'.seen
  edges : ∀ c m, Edge s.par c m → Edge s'.par c m
  edgeSelf : ∀ m, parent = some m → Edge s'.par n m
  edgesNew : ∀ c m, Edge s'.par c m → Edge s.par c m ∨ (c = n ∧ parent = some m) ∨ (m ∈ s'.seen ∧ m ∉ s.seen ∧ Child p m c)
  keys : ∀ c, (s.par.lookup c).isSome → (s'.par.lookup c).isSome
  keysNew : ∀ c, (s'.par.lookup c).isSome → (s.par.lookup c).isSome ∨ ∃ m, Edge s'.par c m
  ok : ParOk s.par → ParOk s'.par

theorem visitParents_ok {X : XCtx E} {p : Pool E} (hp : Core X p) : ∀ (k n : ℕ), n < k → (p.node n).isSome → ∀ (parent : Option ℕ) (s : PWState),
    ∃ s', visitParents p k n parent s = .ok s' ∧ Visited p n parent s s' := by
  intro k
  induction k with
  | zero => intro n h; omega
  | succ k ih =>
    intro n hk hsome parent s
    obtain ⟨s1, hs1, hpar, hseen⟩ : ∃ s1 : PWState, s1 = (match parent with
        | some m => ({ s with par := addParent s.par n m } : PWState)
        | none => s) ∧ (s1.par = match parent with | some m => addParent s.par n m | none => s.par) ∧ s1.seen = s.seen := by
      refine ⟨_, rfl, ?_, ?_⟩ <;> cases parent <;> rfl
    have e1 : ∀ c m, Edge s1.par c m ↔ Edge s.par c m ∨ (c = n ∧ parent = some m) := by
      intro c m
      rw [hpar]
      cases parent with
      | none => simp
      | some m' => simp only [edge_addParent, Option.some.injEq]; exact or_congr_right (and_congr_right fun _ => eq_comm)
    have k1 : ∀ c, (s.par.lookup c).isSome → (s1.par.lookup c).isSome := by
      intro c hc
      rw [hpar]
      cases parent with
      | none => exact hc
      | some m' => exact (key_addParent _ _ _ _).mpr (Or.inr hc)
    have k1' : ∀ c, (s1.par.lookup c).isSome → (s.par.lookup c).isSome ∨ ∃ m, Edge s1.par c m := by
      intro c hc
      rw [hpar] at hc
      cases parent with
      | none => exact Or.inl hc
      | some m' =>
        rcases (key_addParent _ _ _ _).mp hc with rfl | h
        · exact Or.inr ⟨m', (e1 _ _).mpr (Or.inr ⟨rfl, rfl⟩)⟩
        · exact Or.inl h
    have o1 : ParOk s.par → ParOk s1.par := by
      intro h
      rw [hpar]
      cases parent with
      | none => exact h
      | some m' => exact parOk_addParent h n m'
    have base : (∀ d, ¬Child p n d) ∨ n ∈ s.seen → Visited p n parent s s1 := by
      intro hb
      refine ⟨fun m hm => hseen ▸ hm, fun m hm hm' => absurd (hseen ▸ hm) hm', fun ⟨d, hd⟩ => ?_, fun c m h => (e1 c m).mpr (Or.inl h),
        fun m h => (e1 n m).mpr (Or.inr ⟨rfl, h⟩), fun c m h => ((e1 c m).mp h).imp id Or.inl, k1, k1', o1⟩
      rcases hb with hb | hb
      · exact absurd hd (hb d)
      · exact hseen ▸ hb
    have hunf : visitParents p (k + 1) n parent s = match p.node n with
        | none => Except.error PyErr.runtimeError
        | some (XNode.leaf e) => Except.ok s1
        | some (XNode.inner d t f) =>
          if n ∈ s1.seen then Except.ok s1
          else
            match visitParents p k t (some n) { par := s1.par, seen := n :: s1.seen } with
            | Except.error e => Except.error e
            | Except.ok s2 => visitParents p k f (some n) s2 := by
      rw [hs1]; rfl
    rw [hunf]
    cases hn : p.node n with
    | none => rw [hn] at hsome; cases hsome
    | some x =>
      cases x with
      | leaf e =>
        refine ⟨s1, rfl, base (Or.inl ?_)⟩
        rintro d ⟨_, _, _, h, -⟩
        rw [hn] at h; simp at h
      | inner d t f =>
        simp only
        split
        · rename_i hin
          exact ⟨s1, rfl, base (Or.inr (hseen ▸ hin))⟩
        · rename_i hin
          have ht : Child p n t := ⟨d, t, f, hn, Or.inl rfl⟩
          have hf : Child p n f := ⟨d, t, f, hn, Or.inr rfl⟩
          have hch : ∀ c, Child p n c → c = t ∨ c = f := by
            rintro c ⟨d', t', f', h, hc⟩
            rw [hn] at h
            simp only [Option.some.injEq, XNode.inner.injEq] at h
            obtain ⟨-, rfl, rfl⟩ := h
            exact hc
          obtain ⟨s2, h2, v2⟩ := ih t (by have := hp.child_lt ht; omega) (hp.child_some ht) (some n) { s1 with seen := n :: s1.seen }
          obtain ⟨s3, h3, v3⟩ := ih f (by have := hp.child_lt hf; omega) (hp.child_some hf) (some n) s2
          refine ⟨s3, by rw [h2]; exact h3, ?_⟩
          have hseen1 : ∀ m, m ∈ ({ s1 with seen := n :: s1.seen } : PWState).seen ↔ m = n ∨ m ∈ s.seen := by
            intro m; simp [hseen]
          have hn3 : n ∈ s3.seen := v3.seen n (v2.seen n ((hseen1 n).mpr (Or.inl rfl)))
          refine ⟨?_, ?_, fun _ => hn3, ?_, ?_, ?_, ?_, ?_, ?_⟩
          · exact fun m hm => v3.seen m (v2.seen m ((hseen1 m).mpr (Or.inr hm)))
          · intro m hm hm'
            by_cases h2' : m ∈ s2.seen
            · by_cases hmn : m = n
              · subst hmn
                refine ⟨.root, fun c hc => ?_, fun c hc hd => ?_⟩
                · rcases hch c hc with rfl | rfl
                  · exact v3.edges _ _ (v2.edgeSelf m rfl)
                  · exact v3.edgeSelf m rfl
                · rcases hch c hc with rfl | rfl
                  · exact v3.seen _ (v2.self hd)
                  · exact v3.self hd
              · obtain ⟨r, e, c'⟩ := v2.fresh m h2' (fun h => by rcases (hseen1 m).mp h with h | h <;> contradiction)
                exact ⟨(Reach.step .root ht).trans r, fun c hc => v3.edges _ _ (e c hc), fun c hc hd => v3.seen _ (c' c hc hd)⟩
            · obtain ⟨r, e, c'⟩ := v3.fresh m hm h2'
              exact ⟨(Reach.step .root hf).trans r, e, c'⟩
          · exact fun c m h => v3.edges _ _ (v2.edges _ _ ((e1 c m).mpr (Or.inl h)))
          · exact fun m h => v3.edges _ _ (v2.edges _ _ ((e1 n m).mpr (Or.inr ⟨rfl, h⟩)))
          · intro c m h
            rcases v3.edgesNew c m h with h | ⟨rfl, h⟩ | ⟨h, h', h''⟩
            · rcases v2.edgesNew c m h with h | ⟨rfl, h⟩ | ⟨h, h', h''⟩
              · exact ((e1 c m).mp h).imp id Or.inl
              · simp only [Option.some.injEq] at h
                subst h
                exact Or.inr (Or.inr ⟨hn3, fun h => hin (hseen ▸ h), ht⟩)
              · exact Or.inr (Or.inr ⟨v3.seen _ h, fun hm => h' ((hseen1 m).mpr (Or.inr hm)), h''⟩)
            · simp only [Option.some.injEq] at h
              subst h
              exact Or.inr (Or.inr ⟨hn3, fun h => hin (hseen ▸ h), hf⟩)
            · exact Or.inr (Or.inr ⟨h, fun hm => h' (v2.seen m ((hseen1 m).mpr (Or.inr hm))), h''⟩)
          · exact fun c hc => v3.keys c (v2.keys c (k1 c hc))
          · intro c hc
            rcases v3.keysNew c hc with hc | hc
            · rcases v2.keysNew c hc with hc | ⟨m, hm⟩
              · rcases k1' c hc with hc | ⟨m, hm⟩
                · exact Or.inl hc
                · exact Or.inr ⟨m, v3.edges _ _ (v2.edges _ _ hm)⟩
              · exact Or.inr ⟨m, v3.edges _ _ hm⟩
            · exact Or.inr hc
          · exact fun h => v3.ok (v2.ok (o1 h))

/-- The parents that are collected are the parents within the diagram. -/
theorem parentsOf_ok {X : XCtx E} {p : Pool E} (hp : Core X p) {root : ℕ} (hr : (p.node root).isSome) :
    ∃ d, parentsOf p root = .ok d ∧ ParOk d ∧ (∀ c m, Edge d c m ↔ Reach p root m ∧ Child p m c) ∧
      ∀ c, (d.lookup c).isSome ↔ Reach p root c := by
  obtain ⟨s, hs, v⟩ := visitParents_ok hp (root + 1) root (by omega) hr none ⟨[(root, [])], []⟩
  have hedge0 : ∀ c m, ¬Edge [(root, [])] c m := by
    rintro c m ⟨l, h1, h2⟩
    rw [List.lookup_cons] at h1
    by_cases h : c = root
    · subst h; simp at h1; subst h1; cases h2
    · have : (c == root) = false := by simpa using h
      simp [this] at h1
  have hkey0 : ∀ c, ((([(root, [])] : List (ℕ × List ℕ))).lookup c).isSome → c = root := by
    intro c h1
    rw [List.lookup_cons] at h1
    by_contra h
    have : (c == root) = false := by simpa using h
    simp [this] at h1
  have hseen : ∀ m, Reach p root m → (∃ d, Child p m d) → m ∈ s.seen := by
    intro m hm
    induction hm with
    | root => exact v.self
    | @step m c hm hc ih => exact fun hd => (v.fresh m (ih ⟨c, hc⟩) (by simp)).2.2 c hc hd
  refine ⟨s.par, by unfold parentsOf; rw [hs], v.ok ?_, fun c m => ⟨fun h => ?_, fun ⟨h, hc⟩ => ?_⟩, fun c => ⟨fun h => ?_, fun h => ?_⟩⟩
  · intro c l h
    rw [List.lookup_cons] at h
    by_cases hc : c = root
    · subst hc; simp at h; subst h; simp
    · have : (c == root) = false := by simpa using hc
      simp [this] at h
  · rcases v.edgesNew c m h with h | ⟨-, h⟩ | ⟨h, h', h''⟩
    · exact absurd h (hedge0 c m)
    · cases h
    · exact ⟨(v.fresh m h h').1, h''⟩
  · exact (v.fresh m (hseen m h ⟨c, hc⟩) (by simp)).2.1 c hc
  · rcases v.keysNew c h with h | ⟨m, h⟩
    · rw [hkey0 c h]; exact .root
    · rcases v.edgesNew c m h with h | ⟨-, h⟩ | ⟨h, h', h''⟩
      · exact absurd h (hedge0 c m)
      · cases h
      · exact .step (v.fresh m h h').1 h''
  · cases h with
    | root => exact v.keys root (by simp)
    | @step m _ hm hc =>
      obtain ⟨l, h, -⟩ := (v.fresh m (hseen m hm ⟨c, hc⟩) (by simp)).2.1 c hc
      rw [h]; rfl

/-! ### Layers -/

open Classical in
/-- Invariant of the loop of `extract_layers`: `Ed` are the edges removed so far, `Pop` the nodes taken from the stack. -/
structure Lay (p : Pool E) (root : ℕ) (P0 : List (ℕ × List ℕ)) (Ed : ℕ → ℕ → Prop) (Pop : List ℕ) (s : LayerState) : Prop where
  ed : ∀ m c, Ed m c → Child p m c ∧ m ∈ Pop
  nodup : (Pop ++ s.watch).Nodup
  reach : ∀ m ∈ Pop ++ s.watch, Reach p root m
  par : ∀ n, s.par.lookup n = (P0.lookup n).map fun l => l.filter fun m => ¬Ed m n
  ready : ∀ n, Reach p root n → (n ∈ Pop ++ s.watch ↔ ∀ m, Reach p root m → Child p m n → Ed m n)
  keys : ∀ n, (s.pos.lookup n).isSome ↔ n = root ∨ ∃ m, Ed m n
  keysNodup : (s.pos.map (·.1)).Nodup
  edge : ∀ m c, Ed m c → ∀ a b, s.pos.lookup m = some a → s.pos.lookup c = some b → a < b
  tight : ∀ n b, s.pos.lookup n = some b → (n = root ∧ b = 0) ∨ ∃ m a, Ed m n ∧ s.pos.lookup m = some a ∧ b = a + 1

/-- What is known about the collected parents. -/
structure Parents (p : Pool E) (root : ℕ) (P0 : List (ℕ × List ℕ)) : Prop where
  ok : ParOk P0
  edge : ∀ c m, Edge P0 c m ↔ Reach p root m ∧ Child p m c
  key : ∀ c, (P0.lookup c).isSome ↔ Reach p root c

theorem layerChild_ok {X : XCtx E} {p : Pool E} (hp : Core X p) {root : ℕ} {P0 : List (ℕ × List ℕ)} (hP : Parents p root P0)
    {Ed : ℕ → ℕ → Prop} {Pop : List ℕ} {s : LayerState} (h : Lay p root P0 Ed Pop s) {cur c : ℕ} (hcur : cur ∈ Pop)
    (hc : Child p cur c) (hnew : ¬Ed cur c) :
    ∃ s', layerChild cur c s = .ok s' ∧ Lay p root P0 (fun m n => Ed m n ∨ (m = cur ∧ n = c)) Pop s' := by
  classical
  have rcur : Reach p root cur := h.reach cur (List.mem_append_left _ hcur)
  have rc : Reach p root c := .step rcur hc
  have hlt := hp.child_lt hc
  have hcroot : c ≠ root := by
    rintro rfl
    have := hp.reach_le rcur; omega
  -- the child is not on the stack and was not taken from it
  have hcnot : c ∉ Pop ++ s.watch := fun hm => hnew ((h.ready c rc).mp hm cur rcur hc)
  have hcEd : ∀ x, ¬Ed c x := fun x hx => hcnot (List.mem_append_left _ (h.ed c x hx).2)
  -- the position of the current node
  obtain ⟨b, hb⟩ : ∃ b, s.pos.lookup cur = some b := by
    rw [← Option.isSome_iff_exists, h.keys]
    by_cases hr : cur = root
    · exact Or.inl hr
    · obtain ⟨m, hm, hmc⟩ := rcur.parent hr
      exact Or.inr ⟨m, (h.ready cur rcur).mp (List.mem_append_left _ hcur) m hm hmc⟩
  -- the parents of the child
  obtain ⟨l0, hl0⟩ := Option.isSome_iff_exists.mp ((hP.key c).mpr rc)
  have hl : s.par.lookup c = some (l0.filter fun m => ¬Ed m c) := by rw [h.par, hl0]; rfl
  have hmem : cur ∈ l0 := by
    obtain ⟨l, h1, h2⟩ := (hP.edge c cur).mpr ⟨rcur, hc⟩
    rw [hl0] at h1; cases h1; exact h2
  have hmem' : cur ∈ l0.filter fun m => ¬Ed m c := by simp [hmem, hnew]
  have hnd : (l0.filter fun m => ¬Ed m c).Nodup := (hP.ok c l0 hl0).filter _
  have herase : (l0.filter fun m => ¬Ed m c).erase cur = l0.filter fun m => ¬(Ed m c ∨ (m = cur ∧ c = c)) := by
    rw [hnd.erase_eq_filter, List.filter_filter]
    apply List.filter_congr
    intro m _
    by_cases h1 : m = cur <;> by_cases h2 : Ed m c <;> simp [h1, h2]
  -- positions with the child
  obtain ⟨pos1, hpos1⟩ : ∃ pos1, pos1 = if (s.pos.lookup c).isSome then s.pos else s.pos ++ [(c, 0)] := ⟨_, rfl⟩
  have hl1 : ∀ j, pos1.lookup j = if j = c then some ((s.pos.lookup c).getD 0) else s.pos.lookup j := by
    intro j
    rw [hpos1]
    cases hs : (s.pos.lookup c) with
    | some a =>
      simp only [Option.isSome_some, if_true, Option.getD_some]
      split
      · rename_i hj; rw [hj, hs]
      · rfl
    | none =>
      simp only [Option.isSome_none, if_false, Option.getD_none]
      exact lookup_append_single _ _ _ (by rw [hs]; rfl) j
  have hk1 : (pos1.map (·.1)).Nodup := by
    rw [hpos1]
    split
    · exact h.keysNodup
    · rename_i hs
      rw [List.map_append, List.nodup_append]
      refine ⟨h.keysNodup, by simp, fun a ha b hb => ?_⟩
      simp only [List.map_cons, List.map_nil, List.mem_singleton] at hb
      subst hb
      rintro rfl
      exact hs ((lookup_isSome_mem _ _).mpr ha)
  have hposc : pos1.lookup c = some ((s.pos.lookup c).getD 0) := by rw [hl1, if_pos rfl]
  have hposcur : pos1.lookup cur = some b := by rw [hl1, if_neg (by omega), hb]
  obtain ⟨v, hv⟩ : ∃ v, v = max ((s.pos.lookup c).getD 0) (b + 1) := ⟨_, rfl⟩
  refine ⟨⟨setKey pos1 c v, setKey s.par c ((l0.filter fun m => ¬Ed m c).erase cur),
    if (l0.filter fun m => ¬Ed m c).erase cur = [] then c :: s.watch else s.watch⟩, ?_, ?_⟩
  · unfold layerChild
    rw [← hpos1, hl]
    simp only [hmem', if_true]
    rw [hposc, hposcur]
    simp only [hv]
  · have hlook : ∀ j, (setKey pos1 c v).lookup j = if j = c then some v else s.pos.lookup j := by
      intro j
      rw [lookup_setKey]
      split
      · rw [hposc]; rfl
      · rename_i hj; rw [hl1, if_neg hj]
    have hwmem : ∀ n, n ∈ Pop ++ (if (l0.filter fun m => ¬Ed m c).erase cur = [] then c :: s.watch else s.watch) ↔
        n ∈ Pop ++ s.watch ∨ (n = c ∧ (l0.filter fun m => ¬Ed m c).erase cur = []) := by
      intro n
      split
      · rename_i hh
        simp only [hh, and_true, List.mem_append, List.mem_cons]
        tauto
      · rename_i hh
        simp only [hh, and_false, or_false]
    refine ⟨?_, ?_, ?_, ?_, ?_, ?_, ?_, ?_, ?_⟩
    · rintro m n (hm | ⟨rfl, rfl⟩)
      · exact h.ed m n hm
      · exact ⟨hc, hcur⟩
    · simp only
      split
      · have := h.nodup
        rw [List.nodup_append] at this ⊢
        simp only [List.mem_append, not_or] at hcnot
        refine ⟨this.1, List.nodup_cons.mpr ⟨hcnot.2, this.2.1⟩, fun a ha b' hb' => ?_⟩
        rcases List.mem_cons.mp hb' with rfl | hb'
        · rintro rfl; exact hcnot.1 ha
        · exact this.2.2 a ha b' hb'
      · exact h.nodup
    · intro m hm
      rcases (hwmem m).mp hm with hm | ⟨rfl, -⟩
      · exact h.reach m hm
      · exact rc
    · intro n
      rw [lookup_setKey]
      split
      · rename_i hn
        subst hn
        rw [hl, hl0, herase]
        simp only [Option.map_some, Option.some.injEq]
      · rename_i hn
        rw [h.par]
        congr 1
        funext l
        apply List.filter_congr
        intro m _
        simp [hn]
    · intro n rn
      rw [hwmem]
      by_cases hn : n = c
      · subst hn
        constructor
        · rintro (hm | ⟨-, he⟩)
          · exact absurd hm hcnot
          · intro m hm hmc
            by_contra hcon
            have : m ∈ (l0.filter fun m => ¬Ed m n).erase cur := by
              rw [herase]
              obtain ⟨l, h1, h2⟩ := (hP.edge n m).mpr ⟨hm, hmc⟩
              rw [hl0] at h1; cases h1
              simpa [h2] using hcon
            rw [he] at this; cases this
        · intro hall
          refine Or.inr ⟨rfl, ?_⟩
          rw [herase, List.filter_eq_nil_iff]
          intro m hm
          have := (hP.edge n m).mp ⟨l0, hl0, hm⟩
          have := hall m this.1 this.2
          have h3 : Ed m n ∨ m = cur := by simpa using this
          rcases h3 with h3 | h3 <;> simp [h3]
      · rw [show (n ∈ Pop ++ s.watch ∨ n = c ∧ (l0.filter fun m => ¬Ed m c).erase cur = []) ↔ n ∈ Pop ++ s.watch by simp [hn],
          h.ready n rn]
        simp [hn]
    · intro n
      rw [hlook]
      by_cases hn : n = c
      · subst hn; simp
      · simp only [hn, if_false, and_false, or_false]
        exact h.keys n
    · rw [keys_setKey]; exact hk1
    · rintro m n hm a b' ha hb'
      simp only [hlook] at ha hb'
      rcases hm with hm | ⟨rfl, rfl⟩
      · have hmc : m ≠ c := by rintro rfl; exact hcEd n hm
        rw [if_neg hmc] at ha
        by_cases hn : n = c
        · subst hn
          rw [if_pos rfl] at hb'
          simp only [Option.some.injEq] at hb'
          subst hb'
          obtain ⟨a', ha'⟩ := Option.isSome_iff_exists.mp ((h.keys n).mpr (Or.inr ⟨m, hm⟩))
          have := h.edge m n hm a a' ha ha'
          rw [hv, ha']
          simp only [Option.getD_some]
          omega
        · rw [if_neg hn] at hb'
          exact h.edge m n hm a b' ha hb'
      · rw [if_neg (by omega), hb] at ha
        simp only [if_true, Option.some.injEq] at ha hb'
        omega
    · intro n b' hb'
      simp only [hlook] at hb'
      by_cases hn : n = c
      · subst hn
        simp only [if_true, Option.some.injEq] at hb'
        subst hb'
        right
        by_cases hle : (s.pos.lookup n).getD 0 ≤ b + 1
        · refine ⟨cur, b, Or.inr ⟨rfl, rfl⟩, ?_, ?_⟩
          · simp only [hlook]; rw [if_neg (by omega), hb]
          · omega
        · cases hs : s.pos.lookup n with
          | none => rw [hs] at hle; simp at hle
          | some a =>
            rw [hs] at hle hv
            simp only [Option.getD_some] at hle hv
            rcases h.tight n a hs with ⟨h1, -⟩ | ⟨m, a', h1, h2, h3⟩
            · exact absurd h1 hcroot
            · refine ⟨m, a', Or.inl h1, ?_, ?_⟩
              · simp only [hlook]; rw [if_neg (by rintro rfl; exact hcEd _ h1), h2]
              · omega
      · rw [if_neg hn] at hb'
        rcases h.tight n b' hb' with h1 | ⟨m, a', h1, h2, h3⟩
        · exact Or.inl h1
        · refine Or.inr ⟨m, a', Or.inl h1, ?_, h3⟩
          simp only [hlook]; rw [if_neg (by rintro rfl; exact hcEd _ h1), h2]

/-- The edges out of the given nodes. -/
def outOf (p : Pool E) (D : List ℕ) (m c : ℕ) : Prop := m ∈ D ∧ Child p m c

theorem layerLoop_ok {X : XCtx E} {p : Pool E} (hp : Core X p) {root : ℕ} (hr : (p.node root).isSome) {P0 : List (ℕ × List ℕ)}
    (hP : Parents p root P0) : ∀ (k : ℕ) (D : List ℕ) (s : LayerState), Lay p root P0 (outOf p D) D s → P0.length < k + D.length →
    ∃ s' D', layerLoop p k s = .ok s' ∧ s'.watch = [] ∧ Lay p root P0 (outOf p D') D' s' := by
  classical
  intro k
  induction k with
  | zero =>
    intro D s h hk
    exfalso
    have hsub : D ⊆ P0.map (·.1) := by
      intro m hm
      rw [← lookup_isSome_mem, hP.key]
      exact h.reach m (List.mem_append_left _ hm)
    have hnd : D.Nodup := (List.nodup_append.mp h.nodup).1
    have := (hnd.subperm hsub).length_le
    simp at this; omega
  | succ k ih =>
    intro D s h hk
    unfold layerLoop
    cases hw : s.watch with
    | nil => exact ⟨s, D, rfl, hw, h⟩
    | cons cur w =>
      simp only
      have hcw : cur ∈ D ++ s.watch := by rw [hw]; simp
      have rcur := h.reach cur hcw
      have hnd := h.nodup
      rw [hw] at hnd
      have hcD : cur ∉ D := fun hm => (List.nodup_append.mp hnd).2.2 cur hm cur (by simp) rfl
      obtain ⟨l0, hl0⟩ := Option.isSome_iff_exists.mp ((hP.key cur).mpr rcur)
      have hpar : s.par.lookup cur = some [] := by
        rw [h.par, hl0, Option.map_some]
        congr 1
        rw [List.filter_eq_nil_iff]
        intro m hm
        have hm' := (hP.edge cur m).mp ⟨l0, hl0, hm⟩
        have := (h.ready cur rcur).mp hcw m hm'.1 hm'.2
        simpa using this
      rw [hpar]
      simp only
      -- the state after the node is taken
      have hperm : ∀ n, n ∈ (cur :: D) ++ w ↔ n ∈ D ++ s.watch := by
        intro n; rw [hw]; simp only [List.cons_append, List.mem_cons, List.mem_append]; tauto
      have hnd' : ((cur :: D) ++ w).Nodup := by
        have : (cur :: (D ++ w)).Perm (D ++ cur :: w) := List.perm_middle.symm
        exact (this.nodup_iff).mpr hnd
      have h1 : Lay p root P0 (outOf p D) (cur :: D) { s with watch := w } :=
        ⟨fun m c hm => ⟨hm.2, List.mem_cons_of_mem _ hm.1⟩, hnd', fun m hm => h.reach m ((hperm m).mp hm), h.par,
          fun n rn => (hperm n).trans (h.ready n rn), h.keys, h.keysNodup, h.edge, h.tight⟩
      have hcsome := hp.reach_some hr rcur
      cases hn : p.node cur with
      | none => rw [hn] at hcsome; cases hcsome
      | some x =>
        cases x with
        | leaf e =>
          simp only
          refine ih (cur :: D) _ ?_ (by simp only [List.length_cons]; omega)
          have : outOf p (cur :: D) = outOf p D := by
            funext m c
            apply propext
            unfold outOf
            constructor
            · rintro ⟨hm, hc⟩
              rcases List.mem_cons.mp hm with rfl | hm
              · obtain ⟨_, _, _, h', -⟩ := hc
                rw [hn] at h'; simp at h'
              · exact ⟨hm, hc⟩
            · exact fun ⟨hm, hc⟩ => ⟨List.mem_cons_of_mem _ hm, hc⟩
          rw [this]; exact h1
        | inner d t f =>
          simp only
          have ht : Child p cur t := ⟨d, t, f, hn, Or.inl rfl⟩
          have hf : Child p cur f := ⟨d, t, f, hn, Or.inr rfl⟩
          have htf : t ≠ f := (hp.inner hn).2.2.1
          obtain ⟨s1, hs1, l1⟩ := layerChild_ok hp hP h1 (by simp) ht (fun hh => hcD hh.1)
          obtain ⟨s2, hs2, l2⟩ := layerChild_ok hp hP l1 (by simp) hf (by
            rintro (hh | ⟨-, hh⟩)
            · exact hcD hh.1
            · exact htf hh.symm)
          rw [hs1]
          simp only
          rw [hs2]
          simp only
          refine ih (cur :: D) _ ?_ (by simp only [List.length_cons]; omega)
          have : outOf p (cur :: D) = fun m n => (outOf p D m n ∨ (m = cur ∧ n = t)) ∨ (m = cur ∧ n = f) := by
            funext m c
            apply propext
            unfold outOf
            constructor
            · rintro ⟨hm, hc⟩
              rcases List.mem_cons.mp hm with rfl | hm
              · obtain ⟨d', t', f', h', hc⟩ := hc
                rw [hn] at h'
                simp only [Option.some.injEq, XNode.inner.injEq] at h'
                obtain ⟨-, rfl, rfl⟩ := h'
                rcases hc with rfl | rfl
                · exact Or.inl (Or.inr ⟨rfl, rfl⟩)
                · exact Or.inr ⟨rfl, rfl⟩
              · exact Or.inl (Or.inl ⟨hm, hc⟩)
            · rintro ((⟨hm, hc⟩ | ⟨rfl, rfl⟩) | ⟨rfl, rfl⟩)
              · exact ⟨List.mem_cons_of_mem _ hm, hc⟩
              · exact ⟨by simp, ht⟩
              · exact ⟨by simp, hf⟩
          rw [this]; exact l2

/-- What the loop computes: positions of all nodes of the diagram, larger for children, without gaps. -/
structure Layers (p : Pool E) (root : ℕ) (pos : List (ℕ × ℕ)) : Prop where
  keys : ∀ n, n ∈ pos.map (·.1) ↔ Reach p root n
  nodup : (pos.map (·.1)).Nodup
  edge : ∀ m c a b, Child p m c → (m, a) ∈ pos → (c, b) ∈ pos → a < b
  tight : ∀ n b, (n, b) ∈ pos → b = 0 ∨ ∃ m, (m, b - 1) ∈ pos
  path : ∀ n b, (n, b) ∈ pos → (n = root ∧ b = 0) ∨ ∃ m a, Child p m n ∧ (m, a) ∈ pos ∧ b = a + 1

theorem mem_of_lookup_nat {β : Type} {d : List (ℕ × β)} {k : ℕ} {v : β} (h : d.lookup k = some v) : (k, v) ∈ d := by
  induction d with
  | nil => cases h
  | cons p d ih =>
    obtain ⟨k', v'⟩ := p
    rw [List.lookup_cons] at h
    by_cases hk : k = k'
    · subst hk; simp at h; subst h; simp
    · have : (k == k') = false := by simpa using hk
      rw [this] at h
      exact List.mem_cons_of_mem _ (ih h)

theorem lookup_of_mem_nat {β : Type} {d : List (ℕ × β)} {k : ℕ} {v : β} (hn : (d.map (·.1)).Nodup) (h : (k, v) ∈ d) : d.lookup k = some v := by
  induction d with
  | nil => cases h
  | cons p d ih =>
    obtain ⟨k', v'⟩ := p
    rw [List.lookup_cons]
    simp only [List.map_cons, List.nodup_cons] at hn
    rcases List.mem_cons.mp h with h | h'
    · cases h; simp
    · have : k ≠ k' := by
        rintro rfl
        exact hn.1 (List.mem_map_of_mem (f := (·.1)) h')
      have : (k == k') = false := by simpa using this
      rw [this]
      exact ih hn.2 h'

theorem layers_ok {X : XCtx E} {p : Pool E} (hp : Core X p) {root : ℕ} (hr : (p.node root).isSome) {P0 : List (ℕ × List ℕ)}
    (hP : Parents p root P0) : ∃ s, layerLoop p (P0.length + 1) ⟨[(root, 0)], P0, [root]⟩ = .ok s ∧ Layers p root s.pos := by
  classical
  have hout : ∀ m c, ¬outOf p ([] : List ℕ) m c := fun m c h => by cases h.1
  have hroot : ∀ m, Reach p root m → ¬Child p m root := by
    intro m hm hc
    have := hp.reach_le hm
    have := hp.child_lt hc
    omega
  have h0 : Lay p root P0 (outOf p []) [] ⟨[(root, 0)], P0, [root]⟩ := by
    refine ⟨fun m c h => absurd h (hout m c), by simp, ?_, ?_, ?_, ?_, by simp, fun m c h => absurd h (hout m c), ?_⟩
    · intro m hm
      simp only [List.nil_append, List.mem_singleton] at hm
      subst hm; exact .root
    · intro n
      cases hl : P0.lookup n with
      | none => simp [hl]
      | some l =>
        simp only [hl, Option.map_some, Option.some.injEq]
        symm
        rw [List.filter_eq_self]
        intro m _
        simpa using hout m n
    · intro n rn
      simp only [List.nil_append, List.mem_singleton]
      constructor
      · rintro rfl m hm hc
        exact absurd hc (hroot m hm)
      · intro hall
        by_contra hne
        obtain ⟨m, hm, hc⟩ := rn.parent hne
        exact hout _ _ (hall m hm hc)
    · intro n
      simp only [List.lookup_cons, List.lookup_nil]
      by_cases hn : n = root
      · subst hn; simp
      · have : (n == root) = false := by simpa using hn
        simp [this, hn, hout]
    · intro n b hb
      simp only [List.lookup_cons, List.lookup_nil] at hb
      by_cases hn : n = root
      · subst hn; simp at hb; exact Or.inl ⟨rfl, hb.symm⟩
      · have : (n == root) = false := by simpa using hn
        simp [this] at hb
  obtain ⟨s, D, hs, hw, hl⟩ := layerLoop_ok hp hr hP (P0.length + 1) [] _ h0 (by simp)
  refine ⟨s, hs, ?_⟩
  -- all nodes were taken
  have hall : ∀ k n, root - n ≤ k → Reach p root n → n ∈ D := by
    intro k
    induction k with
    | zero =>
      intro n hk rn
      have hle := hp.reach_le rn
      have : n = root := by omega
      subst this
      have := (hl.ready n rn).mpr fun m hm hc => absurd hc (hroot m hm)
      rw [hw] at this; simpa using this
    | succ k ih =>
      intro n hk rn
      have := (hl.ready n rn).mpr fun m hm hc => ?_
      · rw [hw] at this; simpa using this
      · have := hp.child_lt hc
        have := hp.reach_le hm
        exact ⟨ih m (by omega) hm, hc⟩
  have hD : ∀ n, Reach p root n → n ∈ D := fun n rn => hall _ n (le_refl _) rn
  refine ⟨fun n => ?_, hl.keysNodup, ?_, ?_, ?_⟩
  · rw [← lookup_isSome_mem, hl.keys]
    constructor
    · rintro (rfl | ⟨m, hm, hc⟩)
      · exact .root
      · exact .step (hl.reach m (List.mem_append_left _ hm)) hc
    · intro rn
      by_cases hn : n = root
      · exact Or.inl hn
      · obtain ⟨m, hm, hc⟩ := rn.parent hn
        exact Or.inr ⟨m, hD m hm, hc⟩
  · intro m c a b hc ha hb
    have ha' := lookup_of_mem_nat hl.keysNodup ha
    have hb' := lookup_of_mem_nat hl.keysNodup hb
    have hm : m ∈ D := by
      apply hD
      have := (hl.keys m).mp (by rw [ha']; rfl)
      rcases this with rfl | ⟨m', hm', hc'⟩
      · exact .root
      · exact .step (hl.reach m' (List.mem_append_left _ hm')) hc'
    exact hl.edge m c ⟨hm, hc⟩ a b ha' hb'
  · intro n b hb
    rcases hl.tight n b (lookup_of_mem_nat hl.keysNodup hb) with ⟨-, h⟩ | ⟨m, a, -, h1, h2⟩
    · exact Or.inl h
    · refine Or.inr ⟨m, ?_⟩
      have := mem_of_lookup_nat h1
      rw [h2]; simpa using this
  · intro n b hb
    rcases hl.tight n b (lookup_of_mem_nat hl.keysNodup hb) with ⟨h, h'⟩ | ⟨m, a, he, h1, h2⟩
    · exact Or.inl ⟨h, h'⟩
    · exact Or.inr ⟨m, a, he.2, mem_of_lookup_nat h1, h2⟩

/-! ### The list of nodes -/

theorem layerNodes_ok {p : Pool E} {root : ℕ} {pos : List (ℕ × ℕ)} (h : Layers p root pos) :
    ∃ ns, layerNodes pos = .ok ns ∧ ns.Nodup ∧ (∀ n, n ∈ ns ↔ Reach p root n) ∧
      ∀ l1 m l2, ns = l1 ++ m :: l2 → ∀ c, Child p m c → c ∈ l1 := by
  classical
  -- the positions are an initial segment
  have hdown : ∀ b, b ∈ pos.map (·.2) → ∀ a ≤ b, a ∈ pos.map (·.2) := by
    intro b
    induction b with
    | zero => intro hb a ha; rw [Nat.le_zero.mp ha]; exact hb
    | succ b ih =>
      intro hb a ha
      obtain ⟨⟨n, b'⟩, hq, rfl⟩ := List.mem_map.mp hb
      rcases Nat.lt_or_ge a (b + 1) with hlt | hge
      · rcases h.tight n _ hq with h0 | ⟨m, hm⟩
        · cases h0
        · exact ih (List.mem_map.mpr ⟨_, hm, by simp⟩) a (by omega)
      · have : a = b + 1 := by omega
        subst this; exact hb
  have hset : ∀ b, b ∈ pos.map (·.2) ↔ b < (pos.map (·.2)).dedup.length := by
    have hcard : (pos.map (·.2)).dedup.length = (pos.map (·.2)).toFinset.card := (List.card_toFinset _).symm
    intro b
    rw [hcard]
    constructor
    · intro hb
      have hsub : Finset.range (b + 1) ⊆ (pos.map (·.2)).toFinset := by
        intro a ha
        rw [List.mem_toFinset]
        exact hdown b hb a (by simpa [Nat.lt_succ_iff] using ha)
      have := Finset.card_le_card hsub
      simp at this ⊢; omega
    · intro hb
      by_contra hcon
      have hsub : (pos.map (·.2)).toFinset ⊆ Finset.range b := by
        intro a ha
        rw [List.mem_toFinset] at ha
        rw [Finset.mem_range]
        by_contra hge
        exact hcon (hdown a ha b (by omega))
      have := Finset.card_le_card hsub
      rw [Finset.card_range] at this
      omega
  obtain ⟨k, hk⟩ : ∃ k, k = (pos.map (·.2)).dedup.length := ⟨_, rfl⟩
  rw [← hk] at hset
  have hlayer : ∀ i ∈ List.range k, layer pos i = .ok ((pos.filter fun q => q.2 = i).map (·.1)) := by
    intro i hi
    unfold layer
    split
    · rename_i hnil
      exfalso
      obtain ⟨q, hq, hqi⟩ := List.mem_map.mp ((hset i).mpr (by simpa using hi))
      have : q.1 ∈ (pos.filter fun q => q.2 = i).map (·.1) := List.mem_map.mpr ⟨q, by simp [hq, hqi], rfl⟩
      rw [hnil] at this; cases this
    · rfl
  have hmap : Prog.mapE (layer pos) (List.range k) = .ok ((List.range k).map fun i => (pos.filter fun q => q.2 = i).map (·.1)) := by
    generalize List.range k = L at hlayer
    induction L with
    | nil => rfl
    | cons i L ih =>
      simp only [Prog.mapE, List.map_cons]
      rw [hlayer i (by simp), ih fun j hj => hlayer j (by simp [hj])]
  obtain ⟨fl, hfl⟩ : ∃ fl : List ℕ, fl = ((List.range k).map fun i => (pos.filter fun q => q.2 = i).map (·.1)).flatten := ⟨_, rfl⟩
  have hmem : ∀ n, n ∈ fl ↔ Reach p root n := by
    intro n
    rw [← h.keys, hfl]
    simp only [List.mem_flatten, List.mem_map, List.mem_range]
    constructor
    · rintro ⟨_, ⟨i, -, rfl⟩, hn⟩
      obtain ⟨q, hq, rfl⟩ := List.mem_map.mp hn
      exact ⟨q, List.mem_of_mem_filter hq, rfl⟩
    · rintro ⟨q, hq, rfl⟩
      refine ⟨_, ⟨q.2, (hset q.2).mp (List.mem_map.mpr ⟨q, hq, rfl⟩), rfl⟩, List.mem_map.mpr ⟨q, ?_, rfl⟩⟩
      simp [hq]
  -- order: positions do not decrease
  have hpw : fl.Pairwise fun a b => a ≠ b ∧ ∀ i j, (a, i) ∈ pos → (b, j) ∈ pos → i ≤ j := by
    rw [hfl, List.pairwise_flatten]
    constructor
    · intro l hl
      obtain ⟨i, -, rfl⟩ := List.mem_map.mp hl
      rw [List.pairwise_map]
      have hnd := h.nodup
      rw [List.Nodup, List.pairwise_map] at hnd
      refine (hnd.filter _).imp_of_mem ?_
      intro a b ha hb hab
      refine ⟨hab, fun i' j' ha' hb' => ?_⟩
      have h1 : a.2 = i := by simpa using (List.mem_filter.mp ha).2
      have h2 : b.2 = i := by simpa using (List.mem_filter.mp hb).2
      have h3 := lookup_of_mem_nat h.nodup ha'
      have h4 := lookup_of_mem_nat h.nodup hb'
      rw [lookup_of_mem_nat h.nodup (v := a.2) (List.mem_of_mem_filter ha)] at h3
      rw [lookup_of_mem_nat h.nodup (v := b.2) (List.mem_of_mem_filter hb)] at h4
      cases h3; cases h4; omega
    · rw [List.pairwise_map]
      refine (List.pairwise_lt_range (n := k)).imp ?_
      intro i j hij a ha b hb
      obtain ⟨a, ha2, rfl⟩ := List.mem_map.mp ha
      obtain ⟨b, hb2, rfl⟩ := List.mem_map.mp hb
      clear ha hb
      rename' ha2 => ha, hb2 => hb
      have h1 : a.2 = i := by simpa using (List.mem_filter.mp ha).2
      have h2 : b.2 = j := by simpa using (List.mem_filter.mp hb).2
      have e1 := lookup_of_mem_nat h.nodup (k := a.1) (v := a.2) (List.mem_of_mem_filter ha)
      have e2 := lookup_of_mem_nat h.nodup (k := b.1) (v := b.2) (List.mem_of_mem_filter hb)
      refine ⟨fun he => ?_, fun i' j' ha' hb' => ?_⟩
      · rw [he, e2] at e1
        simp only [Option.some.injEq] at e1; omega
      · have h3 := lookup_of_mem_nat h.nodup ha'
        have h4 := lookup_of_mem_nat h.nodup hb'
        rw [e1] at h3
        rw [e2] at h4
        cases h3; cases h4; omega
  refine ⟨fl.reverse, ?_, ?_, ?_, ?_⟩
  · unfold layerNodes
    rw [← hk, hmap, hfl]
  · rw [List.nodup_reverse]
    exact hpw.imp fun hab => hab.1
  · intro n; rw [List.mem_reverse, hmem]
  · intro l1 m l2 heq c hc
    have rm : Reach p root m := by rw [← hmem, ← List.mem_reverse, heq]; simp
    have rc : Reach p root c := .step rm hc
    have hcm : c ∈ fl.reverse := by rw [List.mem_reverse, hmem]; exact rc
    obtain ⟨⟨m', a⟩, ha, e1⟩ := List.mem_map.mp ((h.keys m).mpr rm)
    obtain ⟨⟨c', b⟩, hb, e2⟩ := List.mem_map.mp ((h.keys c).mpr rc)
    simp only at e1 e2
    subst e1 e2
    have hlt := h.edge m' c' a b hc ha hb
    rw [heq] at hcm
    rcases List.mem_append.mp hcm with hcm | hcm
    · exact hcm
    · exfalso
      rcases List.mem_cons.mp hcm with rfl | hcm
      · have h3 := lookup_of_mem_nat h.nodup ha
        rw [lookup_of_mem_nat h.nodup hb] at h3
        cases h3; omega
      · have hrev : (l1 ++ m' :: l2).Pairwise fun a b => b ≠ a ∧ ∀ i j, (b, i) ∈ pos → (a, j) ∈ pos → i ≤ j := by
          rw [← heq, List.pairwise_reverse]; exact hpw
        have h2 := (List.pairwise_append.mp hrev).2.1
        rw [List.pairwise_cons] at h2
        have := (h2.1 c' hcm).2 b a hb ha
        omega

/-- SPEC: the nodes of the diagram in an order with children before parents. -/
structure WalkOrder (p : Pool E) (root : ℕ) (ns : List ℕ) : Prop where
  nodup : ns.Nodup
  mem : ∀ n, n ∈ ns ↔ Reach p root n
  order : ∀ l1 m l2, ns = l1 ++ m :: l2 → ∀ c, Child p m c → c ∈ l1

/-- SPEC: the first component of the counts is the number of parents. -/
def CountsOf (p : Pool E) (pr : Profile) (root : ℕ) : Prop :=
  ∀ n, Reach p root n → ∃ par : List ℕ, ∃ i, par.Nodup ∧ (∀ m, m ∈ par ↔ Reach p root m ∧ Child p m n) ∧
    pr.counts.lookup n = some (par.length, i)

theorem newProfile_ok {X : XCtx E} {p : Pool E} (hp : Core X p) {root : ℕ} (hr : (p.node root).isSome) :
    ∃ pr, newProfile p root = .ok pr ∧ WalkOrder p root pr.nodes ∧ CountsOf p pr root ∧ pr.next = 0 ∧
      (pr.counts.map (·.1)).Nodup ∧ ∀ q ∈ pr.counts, q.2.2 = 0 := by
  obtain ⟨par, h1, h2, h3, h4⟩ := parentsOf_ok hp hr
  have hP : Parents p root par := ⟨h2, h3, h4⟩
  obtain ⟨s, h5, h6⟩ := layers_ok hp hr hP
  obtain ⟨ns, h7, h8, h9, h10⟩ := layerNodes_ok h6
  have hmap : ∀ L : List ℕ, (∀ n ∈ L, Reach p root n) → Prog.mapE (startCount par) L =
      .ok (L.map fun n => (n, (((par.lookup n).getD []).length, 0))) := by
    intro L
    induction L with
    | nil => intro _; rfl
    | cons n L ih =>
      intro hL
      obtain ⟨l, hl⟩ := Option.isSome_iff_exists.mp ((h4 n).mpr (hL n (by simp)))
      simp only [Prog.mapE, List.map_cons]
      rw [ih fun m hm => hL m (by simp [hm])]
      simp [startCount, hl]
  have hm := hmap ns fun n hn => (h9 n).mp hn
  have hkeys : (ns.map fun n => (n, (((par.lookup n).getD []).length, 0))).map (·.1) = ns := by
    rw [List.map_map]
    conv => rhs; rw [← List.map_id ns]
    rfl
  refine ⟨⟨ns, ns.map fun n => (n, (((par.lookup n).getD []).length, 0)), 0⟩, ?_, ⟨h8, h9, h10⟩, ?_, rfl, ?_, ?_⟩
  · unfold newProfile
    rw [h1]
    simp only
    rw [h5]
    simp only
    rw [h7]
    simp only
    rw [hm]
  · intro n hn
    obtain ⟨l, hl⟩ := Option.isSome_iff_exists.mp ((h4 n).mpr hn)
    refine ⟨l, 0, h2 n l hl, fun m => ?_, ?_⟩
    · rw [← h3]
      constructor
      · exact fun hm => ⟨l, hl, hm⟩
      · rintro ⟨l', h, hm⟩
        rw [hl] at h; cases h; exact hm
    · apply lookup_of_mem_nat
      · rw [hkeys]; exact h8
      · exact List.mem_map.mpr ⟨n, (h9 n).mpr hn, by rw [hl]; rfl⟩
  · simp only; rw [hkeys]; exact h8
  · intro q hq
    obtain ⟨n, -, rfl⟩ := List.mem_map.mp hq
    rfl

end
end Pywmi
