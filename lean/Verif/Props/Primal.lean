import Verif.Xsdd.Primal
import Verif.Props.Literals
import Mathlib.Tactic.Linarith

set_option linter.unusedSectionVars false
set_option linter.unusedSimpArgs false

/-!
# Properties of primal graphs (C52)
-/

namespace Pywmi

section Assoc
variable {κ ν : Type} [DecidableEq κ]

theorem lookup_assocSet (d : List (κ × ν)) (k : κ) (v : ν) (x : κ) :
    (assocSet d k v).lookup x = if x = k then some v else d.lookup x := by
  induction d with
  | nil =>
    by_cases h : x = k
    · subst h; simp [assocSet, List.lookup]
    · have : (x == k) = false := beq_eq_false_iff_ne.mpr h
      simp [assocSet, List.lookup, this, h]
  | cons p d ih =>
    obtain ⟨k', w⟩ := p
    simp only [assocSet]
    by_cases h : k' = k
    · subst h
      by_cases hx : x = k'
      · subst hx; simp [List.lookup]
      · have : (x == k') = false := beq_eq_false_iff_ne.mpr hx
        simp [List.lookup, this, hx]
    · rw [if_neg h]
      by_cases hx : x = k'
      · subst hx; simp [List.lookup, h]
      · have : (x == k') = false := beq_eq_false_iff_ne.mpr hx
        simp [List.lookup, this, ih]

theorem lookup_isSome_iff (d : List (κ × ν)) (k : κ) : (∃ v, d.lookup k = some v) ↔ k ∈ d.map (·.1) := by
  induction d with
  | nil => simp
  | cons p d ih =>
    obtain ⟨k', w⟩ := p
    by_cases hx : k = k'
    · subst hx; simp [List.lookup]
    · have : (k == k') = false := beq_eq_false_iff_ne.mpr hx
      simp [List.lookup, this, hx] at ih ⊢
      exact ih

theorem lookup_eq_none (d : List (κ × ν)) (k : κ) : d.lookup k = none ↔ k ∉ d.map (·.1) := by
  rw [← lookup_isSome_iff]
  cases d.lookup k <;> simp

theorem lookup_assocDel {d : List (κ × ν)} (hn : (d.map (·.1)).Nodup) (k x : κ) :
    (assocDel d k).lookup x = if x = k then none else d.lookup x := by
  induction d with
  | nil => simp [assocDel]
  | cons p d ih =>
    obtain ⟨k', w⟩ := p
    simp only [List.map_cons, List.nodup_cons] at hn
    simp only [assocDel]
    by_cases h : k' = k
    · subst h
      rw [if_pos rfl]
      by_cases hx : x = k'
      · subst hx; rw [if_pos rfl]; exact (lookup_eq_none d x).mpr hn.1
      · have : (x == k') = false := beq_eq_false_iff_ne.mpr hx
        simp [List.lookup, this, hx]
    · rw [if_neg h]
      by_cases hx : x = k'
      · subst hx; simp [List.lookup, h]
      · have : (x == k') = false := beq_eq_false_iff_ne.mpr hx
        simp [List.lookup, this, ih hn.2]

theorem mem_of_assoc {d : List (κ × ν)} {k : κ} {v : ν} (h : d.lookup k = some v) : (k, v) ∈ d := by
  induction d with
  | nil => simp at h
  | cons p d ih =>
    obtain ⟨k', w⟩ := p
    by_cases hx : k = k'
    · subst hx; simp [List.lookup] at h; subst h; exact List.mem_cons_self ..
    · have : (k == k') = false := beq_eq_false_iff_ne.mpr hx
      simp [List.lookup, this] at h
      exact List.mem_cons_of_mem _ (ih h)

theorem assoc_of_mem {d : List (κ × ν)} (hn : (d.map (·.1)).Nodup) {k : κ} {v : ν} (h : (k, v) ∈ d) :
    d.lookup k = some v := by
  induction d with
  | nil => simp at h
  | cons p d ih =>
    obtain ⟨k', w⟩ := p
    simp only [List.map_cons, List.nodup_cons] at hn
    rcases List.mem_cons.mp h with h | h
    · simp only [Prod.mk.injEq] at h; obtain ⟨rfl, rfl⟩ := h; simp [List.lookup]
    · have hx : k ≠ k' := fun e => hn.1 (e ▸ List.mem_map_of_mem (f := (·.1)) h)
      have : (k == k') = false := beq_eq_false_iff_ne.mpr hx
      simp [List.lookup, this, ih hn.2 h]

/-- Two dictionaries with the same content, whatever their insertion order. -/
def SameDict (d e : List (κ × ν)) : Prop := ∀ x, d.lookup x = e.lookup x

theorem SameDict.keys {d e : List (κ × ν)} (h : SameDict d e) (k : κ) : k ∈ d.map (·.1) ↔ k ∈ e.map (·.1) := by
  rw [← lookup_isSome_iff, ← lookup_isSome_iff, h k]

theorem assocUpdate_lookup (d e : List (κ × ν)) (hn : (e.map (·.1)).Nodup) (x : κ) :
    (assocUpdate d e).lookup x = match e.lookup x with | some v => some v | none => d.lookup x := by
  unfold assocUpdate
  induction e generalizing d with
  | nil => simp
  | cons p e ih =>
    obtain ⟨k, v⟩ := p
    simp only [List.map_cons, List.nodup_cons] at hn
    rw [List.foldl_cons, ih _ hn.2, lookup_assocSet]
    by_cases hx : x = k
    · subst hx
      rw [(lookup_eq_none e x).mpr hn.1]
      simp [List.lookup]
    · have : (x == k) = false := beq_eq_false_iff_ne.mpr hx
      simp [List.lookup, this, hx]

theorem assocUpdate_nodup (d e : List (κ × ν)) (hn : (d.map (·.1)).Nodup) : ((assocUpdate d e).map (·.1)).Nodup := by
  unfold assocUpdate
  induction e generalizing d with
  | nil => exact hn
  | cons p e ih => exact ih _ (assocSet_nodup hn _ _)

theorem assocModifyAll_spec {β : Type} (key : β → κ) (f : β → ν → ν) (xs : List β) (d : List (κ × ν))
    (hk : ∀ x ∈ xs, key x ∈ d.map (·.1)) (hn : (xs.map key).Nodup) :
    ∃ d', assocModifyAll key f xs d = .ok d' ∧ d'.map (·.1) = d.map (·.1) ∧
      (∀ k, k ∉ xs.map key → d'.lookup k = d.lookup k) ∧
      (∀ x ∈ xs, ∀ v, d.lookup (key x) = some v → d'.lookup (key x) = some (f x v)) := by
  induction xs generalizing d with
  | nil => exact ⟨d, rfl, rfl, fun _ _ => rfl, by simp⟩
  | cons x xs ih =>
    simp only [List.map_cons, List.nodup_cons] at hn
    obtain ⟨v, hv⟩ := (lookup_isSome_iff d (key x)).mpr (hk x (List.mem_cons_self ..))
    have hkeys : (assocSet d (key x) (f x v)).map (·.1) = d.map (·.1) := by
      rw [assocSet_keys, if_pos (hk x (List.mem_cons_self ..))]
    obtain ⟨d', h1, h2, h3, h4⟩ := ih (assocSet d (key x) (f x v))
      (fun y hy => by rw [hkeys]; exact hk y (List.mem_cons_of_mem _ hy)) hn.2
    refine ⟨d', ?_, h2.trans hkeys, ?_, ?_⟩
    · simp only [assocModifyAll, assocModify, hv, h1]
    · intro k hkx
      simp only [List.map_cons, List.mem_cons, not_or] at hkx
      rw [h3 k hkx.2, lookup_assocSet, if_neg hkx.1]
    · intro y hy w hw
      rcases List.mem_cons.mp hy with rfl | hy
      · rw [h3 _ hn.1, lookup_assocSet, if_pos rfl]
        rw [hv] at hw; cases hw; rfl
      · refine h4 y hy w ?_
        rw [lookup_assocSet, if_neg, hw]
        exact fun e => hn.1 (e ▸ List.mem_map_of_mem hy)

end Assoc

namespace PrimalGraph
variable {α : Type} [DecidableEq α]

/-! ## Specification: simple undirected graphs -/

/-- `v` is a neighbour of `u`. -/
def Adj (c : List (α × List α)) (u v : α) : Prop := ∃ s, c.lookup u = some s ∧ v ∈ s

/-- A simple graph: symmetric, no loops, every vertex and every neighbour listed once. -/
structure Simple (c : List (α × List α)) : Prop where
  keys : (c.map (·.1)).Nodup
  nodup : ∀ u s, c.lookup u = some s → s.Nodup
  loopless : ∀ u, ¬ Adj c u u
  symm : ∀ u v, Adj c u v → Adj c v u

theorem Adj.key {c : List (α × List α)} {u v : α} (h : Adj c u v) : u ∈ c.map (·.1) := by
  obtain ⟨s, hs, _⟩ := h
  exact (lookup_isSome_iff c u).mp ⟨s, hs⟩

/-- The ordered pairs of distinct neighbours of a vertex that are not themselves adjacent: the edges that eliminating
the vertex creates. -/
def missingPairs (c : List (α × List α)) (s : List α) : List (α × α) :=
  (s.product s).filter fun p => p.1 ≠ p.2 ∧ p.2 ∉ (c.lookup p.1).getD []

/-- The stored fill of a vertex covers every missing pair among its neighbours, and only relates neighbours. -/
structure Covers (c : List (α × List α)) (s : List α) (f : Fill α) : Prop where
  count : f.1 = (f.2.map fun p => p.2.length).sum
  sources : (f.2.map (·.1)).Nodup
  within : ∀ p ∈ f.2, p.1 ∈ s ∧ p.1 ∉ p.2 ∧ p.2.Nodup ∧ ∀ v ∈ p.2, v ∈ s
  complete : ∀ u ∈ s, ∀ v ∈ s, u ≠ v → Adj c u v ∨ ∃ p ∈ f.2, p.1 = u ∧ v ∈ p.2

/-- The invariant of a graph with stored fills. -/
structure Inv (G : PrimalGraph α) : Prop where
  simple : Simple G.connected
  fills : ∀ fs, G.fills = some fs → (fs.map (·.1)).Nodup ∧ (∀ v, v ∈ fs.map (·.1) ↔ v ∈ G.connected.map (·.1)) ∧
    ∀ w f s, fs.lookup w = some f → G.connected.lookup w = some s → Covers G.connected s f

/-! ## Building the graph -/

theorem make_lookup (vs : List α) (v : α) :
    (vs.foldl (fun d v => assocSet d v ([] : List α)) []).lookup v = if v ∈ vs then some [] else none := by
  have h : ∀ (d : List (α × List α)), (vs.foldl (fun d v => assocSet d v []) d).lookup v
      = if v ∈ vs then some [] else d.lookup v := by
    induction vs with
    | nil => simp
    | cons a vs ih =>
      intro d
      rw [List.foldl_cons, ih, lookup_assocSet]
      by_cases hv : v ∈ vs
      · simp [hv]
      · by_cases hva : v = a <;> simp [hv, hva]
  simpa using h []

theorem make_keys_nodup (vs : List α) (d : List (α × List α)) (hd : (d.map (·.1)).Nodup) :
    ((vs.foldl (fun d v => assocSet d v ([] : List α)) d).map (·.1)).Nodup := by
  induction vs generalizing d with
  | nil => exact hd
  | cons a vs ih => exact ih _ (assocSet_nodup hd _ _)

theorem make_simple (vs : List α) (fills degrees : Bool) : Simple (make vs fills degrees).connected := by
  have hl : ∀ v s, (make vs fills degrees).connected.lookup v = some s → s = [] := by
    intro v s hs
    simp only [make, make_lookup] at hs
    split at hs <;> simp_all
  refine ⟨make_keys_nodup vs [] (by simp), ?_, ?_, ?_⟩
  · intro u s hs; rw [hl u s hs]; simp
  · rintro u ⟨s, hs, h⟩; rw [hl u s hs] at h; simp at h
  · rintro u v ⟨s, hs, h⟩; rw [hl u s hs] at h; simp at h

theorem make_vertices (vs : List α) (fills degrees : Bool) (v : α) :
    v ∈ (make vs fills degrees).connected.map (·.1) ↔ v ∈ vs := by
  rw [← lookup_isSome_iff]
  simp only [make, make_lookup]
  split <;> simp_all

/-- `add_edges` connects the vertices of the group pairwise and nothing else. -/
theorem addEdges_spec {G : PrimalGraph α} (hG : Simple G.connected) {g : List α} (hg : g.Nodup)
    (hv : ∀ v ∈ g, v ∈ G.connected.map (·.1)) :
    ∃ G', G.addEdges g = .ok G' ∧ G'.fills = G.fills ∧ G'.degrees = G.degrees ∧
      G'.connected.map (·.1) = G.connected.map (·.1) ∧ Simple G'.connected ∧
      ∀ u v, Adj G'.connected u v ↔ Adj G.connected u v ∨ (u ∈ g ∧ v ∈ g ∧ u ≠ v) := by
  obtain ⟨d, h1, h2, h3, h4⟩ := assocModifyAll_spec (id : α → α) (fun v s => (s ∪ g).filter (· ≠ v)) g G.connected hv
    (by simpa using hg)
  have hadj : ∀ u v, Adj d u v ↔ Adj G.connected u v ∨ (u ∈ g ∧ v ∈ g ∧ u ≠ v) := by
    intro u v
    by_cases hu : u ∈ g
    · obtain ⟨s, hs⟩ := (lookup_isSome_iff _ u).mpr (hv u hu)
      have h := h4 u hu s hs
      simp only [id_eq] at h
      have hloop : u ∉ s := fun h => hG.loopless u ⟨s, hs, h⟩
      constructor
      · rintro ⟨s', hs', hm⟩
        rw [h] at hs'; cases hs'
        simp only [List.mem_filter, List.mem_union_iff, decide_eq_true_eq] at hm
        rcases hm.1 with h | h
        · exact .inl ⟨s, hs, h⟩
        · exact .inr ⟨hu, h, fun e => hm.2 e.symm⟩
      · intro h'
        refine ⟨_, h, ?_⟩
        simp only [List.mem_filter, List.mem_union_iff, decide_eq_true_eq]
        rcases h' with ⟨s', hs', hm⟩ | ⟨_, hm, hne⟩
        · rw [hs] at hs'; cases hs'
          exact ⟨.inl hm, fun e => hloop (e ▸ hm)⟩
        · exact ⟨.inr hm, fun e => hne e.symm⟩
    · have h := h3 u (by simpa using hu)
      simp only [Adj, h, hu, false_and, or_false]
  refine ⟨{ G with connected := d }, by simp only [addEdges, h1], rfl, rfl, h2, ?_, hadj⟩
  refine ⟨h2 ▸ hG.keys, ?_, ?_, ?_⟩
  · intro u s hs
    by_cases hu : u ∈ g
    · obtain ⟨s0, hs0⟩ := (lookup_isSome_iff _ u).mpr (hv u hu)
      have h := h4 u hu s0 hs0
      simp only [id_eq] at h
      change d.lookup u = some s at hs
      rw [h] at hs; cases hs
      exact (List.Nodup.union _ hg).filter _
    · change d.lookup u = some s at hs
      rw [h3 u (by simpa using hu)] at hs
      exact hG.nodup u s hs
  · intro u h
    rcases (hadj u u).mp h with h | h
    · exact hG.loopless u h
    · exact h.2.2 rfl
  · intro u v h
    rw [hadj] at h ⊢
    rcases h with h | h
    · exact .inl (hG.symm u v h)
    · exact .inr ⟨h.2.1, h.1, Ne.symm h.2.2⟩

/-- `add_edge` adds one edge. -/
theorem addEdge_spec {G : PrimalGraph α} (hG : Simple G.connected) {a b : α} (hab : a ≠ b)
    (ha : a ∈ G.connected.map (·.1)) (hb : b ∈ G.connected.map (·.1)) :
    ∃ G', G.addEdge a b = .ok G' ∧ G'.connected.map (·.1) = G.connected.map (·.1) ∧ Simple G'.connected ∧
      ∀ u v, Adj G'.connected u v ↔ Adj G.connected u v ∨ (u = a ∧ v = b) ∨ (u = b ∧ v = a) := by
  obtain ⟨s, hs⟩ := (lookup_isSome_iff _ a).mpr ha
  obtain ⟨t, ht⟩ := (lookup_isSome_iff _ b).mpr hb
  have hl : ∀ x, (assocSet (assocSet G.connected a (s ∪ [b])) b (t ∪ [a])).lookup x
      = if x = b then some (t ∪ [a]) else if x = a then some (s ∪ [b]) else G.connected.lookup x := by
    intro x; rw [lookup_assocSet, lookup_assocSet]
  have hk : (assocSet (assocSet G.connected a (s ∪ [b])) b (t ∪ [a])).map (·.1) = G.connected.map (·.1) := by
    rw [assocSet_keys, assocSet_keys, if_pos ha, if_pos hb]
  have hadj : ∀ u v, Adj (assocSet (assocSet G.connected a (s ∪ [b])) b (t ∪ [a])) u v ↔
      Adj G.connected u v ∨ (u = a ∧ v = b) ∨ (u = b ∧ v = a) := by
    intro u v
    simp only [Adj, hl]
    by_cases hub : u = b
    · subst hub
      simp [ht, List.mem_union_iff, Ne.symm hab]
    · by_cases hua : u = a
      · subst hua
        simp [hs, hub, List.mem_union_iff]
      · simp [hub, hua]
  refine ⟨{ G with connected := _ }, ?_, hk, ?_, hadj⟩
  · simp only [addEdge, if_neg hab, assocModify, hs]
    rw [lookup_assocSet, if_neg (Ne.symm hab), ht]
  · refine ⟨hk ▸ hG.keys, ?_, ?_, ?_⟩
    · intro u r hr
      change List.lookup u (assocSet _ _ _) = some r at hr
      rw [hl] at hr
      split at hr
      · cases hr; exact List.Nodup.union _ (by simp)
      · split at hr
        · cases hr; exact List.Nodup.union _ (by simp)
        · exact hG.nodup u r hr
    · intro u h
      rcases (hadj u u).mp h with h | h | h
      · exact hG.loopless u h
      · exact hab (h.1.symm.trans h.2)
      · exact hab (h.2.symm.trans h.1)
    · intro u v h
      rw [hadj] at h ⊢
      rcases h with h | h | h
      · exact .inl (hG.symm u v h)
      · exact .inr (.inr ⟨h.2, h.1⟩)
      · exact .inr (.inl ⟨h.2, h.1⟩)

theorem addAllEdges_spec (gs : List (List α)) {G : PrimalGraph α} (hG : Simple G.connected)
    (hg : ∀ g ∈ gs, g.Nodup ∧ ∀ v ∈ g, v ∈ G.connected.map (·.1)) :
    ∃ G', addAllEdges gs G = .ok G' ∧ G'.fills = G.fills ∧ G'.degrees = G.degrees ∧
      G'.connected.map (·.1) = G.connected.map (·.1) ∧ Simple G'.connected ∧
      ∀ u v, Adj G'.connected u v ↔ Adj G.connected u v ∨ (u ≠ v ∧ ∃ g ∈ gs, u ∈ g ∧ v ∈ g) := by
  induction gs generalizing G with
  | nil => exact ⟨G, rfl, rfl, rfl, rfl, hG, by simp⟩
  | cons g gs ih =>
    obtain ⟨G1, h1, h2, h3, h4, h5, h6⟩ := addEdges_spec hG (hg g (List.mem_cons_self ..)).1
      (hg g (List.mem_cons_self ..)).2
    obtain ⟨G2, k1, k2, k3, k4, k5, k6⟩ := ih h5 (fun g' hg' => by
      rw [h4]; exact hg g' (List.mem_cons_of_mem _ hg'))
    refine ⟨G2, by simp only [addAllEdges, h1, k1], k2.trans h2, k3.trans h3, k4.trans h4, k5, fun u v => ?_⟩
    rw [k6, h6]
    simp only [List.mem_cons, exists_eq_or_imp]
    tauto

/-- The interaction graph: simple, on the given vertices, and two vertices are connected exactly when they occur
together in a group. -/
theorem interaction_spec (vs : List α) (gs : List (List α)) (fills degrees : Bool)
    (hg : ∀ g ∈ gs, g.Nodup ∧ ∀ v ∈ g, v ∈ vs) :
    ∃ G, interaction vs gs fills degrees = .ok G ∧ (∀ v, v ∈ G.connected.map (·.1) ↔ v ∈ vs) ∧ Simple G.connected ∧
      ∀ u v, Adj G.connected u v ↔ u ≠ v ∧ ∃ g ∈ gs, u ∈ g ∧ v ∈ g := by
  obtain ⟨G, h1, _, _, h4, h5, h6⟩ := addAllEdges_spec gs (make_simple vs fills degrees)
    (fun g h => ⟨(hg g h).1, fun v hv => (make_vertices vs fills degrees v).mpr ((hg g h).2 v hv)⟩)
  refine ⟨G, h1, fun v => by rw [h4]; exact make_vertices vs fills degrees v, h5, fun u v => ?_⟩
  rw [h6]
  constructor
  · rintro (⟨s, hs, h⟩ | h)
    · simp only [make, make_lookup] at hs
      split at hs
      · cases hs; simp at h
      · cases hs
    · exact h
  · exact .inr

/-! ## Fills -/

/-- The neighbours of a vertex, empty for an unknown vertex. -/
def nbrs (c : List (α × List α)) (u : α) : List α := (c.lookup u).getD []

theorem adj_iff_nbrs (c : List (α × List α)) (u v : α) : Adj c u v ↔ v ∈ nbrs c u := by
  unfold Adj nbrs
  cases c.lookup u <;> simp

/-- The neighbours in `s` that `u` still has to be connected to. -/
def unconn (c : List (α × List α)) (s : List α) (u : α) : List α := (s.filter (· ∉ nbrs c u)).filter (· ≠ u)

theorem mem_unconn (c : List (α × List α)) (s : List α) (u v : α) :
    v ∈ unconn c s u ↔ v ∈ s ∧ ¬ Adj c u v ∧ v ≠ u := by
  simp only [unconn, adj_iff_nbrs, List.mem_filter, decide_eq_true_eq, and_assoc]

theorem fillEdges_eq (c : List (α × List α)) (s cs : List α) (h : ∀ u ∈ cs, u ∈ c.map (·.1)) :
    fillEdges c s cs = .ok ((cs.map fun u => (u, unconn c s u)).filter fun p => 0 < p.2.length) := by
  induction cs with
  | nil => rfl
  | cons u cs ih =>
    obtain ⟨t, ht⟩ := (lookup_isSome_iff c u).mpr (h u (List.mem_cons_self ..))
    simp only [fillEdges, assocGet, ht, ih (fun w hw => h w (List.mem_cons_of_mem _ hw))]
    have hn : nbrs c u = t := by simp [nbrs, ht]
    simp only [List.map_cons, List.filter_cons, unconn, hn, decide_eq_true_eq]

theorem sum_filter_pos {β : Type} (l : List (β × List α)) :
    ((l.filter fun p => 0 < p.2.length).map fun p => p.2.length).sum = (l.map fun p => p.2.length).sum := by
  induction l with
  | nil => rfl
  | cons p l ih =>
    rw [List.filter_cons]
    split
    · simp only [List.map_cons, List.sum_cons, ih]
    · rename_i h
      simp only [decide_eq_true_eq, not_lt, Nat.le_zero] at h
      simp only [List.map_cons, List.sum_cons, ih, h, zero_add]

theorem length_missingPairs (c : List (α × List α)) (s : List α) :
    (missingPairs c s).length = (s.map fun u => (unconn c s u).length).sum := by
  unfold missingPairs
  have hp : s.product s = s.flatMap fun a => s.map (Prod.mk a) := rfl
  rw [hp, List.filter_flatMap, List.length_flatMap]
  congr 1
  apply List.map_congr_left
  intro u _
  rw [List.filter_map, List.length_map]
  simp only [unconn, List.filter_filter]
  congr 1
  apply List.filter_congr
  intro v _
  simp only [Function.comp, nbrs]
  by_cases huv : u = v
  · subst huv; simp
  · by_cases hm : v ∈ (c.lookup u).getD [] <;> simp [huv, Ne.symm huv, hm]

/-- The fill computed for a vertex: exactly the missing pairs among its neighbours, and their number. -/
theorem fillOf_spec {c : List (α × List α)} (hc : Simple c) {v : α} {s : List α} (hs : c.lookup v = some s) :
    ∃ f, fillOf c v = .ok f ∧ Covers c s f ∧ f.1 = (missingPairs c s).length ∧
      ∀ p ∈ f.2, ∀ w ∈ p.2, ¬ Adj c p.1 w := by
  have hk : ∀ u ∈ s, u ∈ c.map (·.1) := fun u hu => (hc.symm v u ⟨s, hs, hu⟩).key
  have hsn := hc.nodup v s hs
  refine ⟨((((s.map fun u => (u, unconn c s u)).filter fun p => 0 < p.2.length).map fun p => p.2.length).sum,
    (s.map fun u => (u, unconn c s u)).filter fun p => 0 < p.2.length), ?_, ⟨rfl, ?_, ?_, ?_⟩, ?_, ?_⟩
  · simp only [fillOf, hs, fillEdges_eq c s s hk]
  · refine List.Nodup.sublist ((List.filter_sublist).map _) ?_
    rw [List.map_map]
    simpa [Function.comp_def] using hsn
  · intro p hp
    simp only [List.mem_filter, List.mem_map] at hp
    obtain ⟨⟨u, hu, rfl⟩, _⟩ := hp
    refine ⟨hu, fun h => ((mem_unconn ..).mp h).2.2 rfl, ?_, fun w hw => ((mem_unconn ..).mp hw).1⟩
    exact (hsn.filter _).filter _
  · intro u hu w hw hne
    by_cases ha : Adj c u w
    · exact .inl ha
    · have hm : w ∈ unconn c s u := (mem_unconn ..).mpr ⟨hw, ha, Ne.symm hne⟩
      refine .inr ⟨(u, unconn c s u), ?_, rfl, hm⟩
      simp only [List.mem_filter, List.mem_map, decide_eq_true_eq]
      exact ⟨⟨u, hu, rfl⟩, List.length_pos_of_mem hm⟩
  · simp only
    rw [sum_filter_pos, length_missingPairs, List.map_map]
    rfl
  · intro p hp w hw
    simp only [List.mem_filter, List.mem_map] at hp
    obtain ⟨⟨u, hu, rfl⟩, _⟩ := hp
    exact ((mem_unconn ..).mp hw).2.1

/-- A stored fill is never smaller than the number of edges that eliminating the vertex would create. -/
theorem Covers.upper {c : List (α × List α)} {s : List α} {f : Fill α} (h : Covers c s f) (hs : s.Nodup) :
    (missingPairs c s).length ≤ f.1 := by
  have hsub : missingPairs c s ⊆ f.2.flatMap fun p => p.2.map (Prod.mk p.1) := by
    rintro ⟨u, v⟩ hp
    simp only [missingPairs, List.mem_filter, List.pair_mem_product, decide_eq_true_eq, List.mem_product] at hp
    obtain ⟨⟨hu, hv⟩, hne, hna⟩ := hp
    rcases h.complete u hu v hv hne with ha | ⟨p, hp, rfl, hv⟩
    · rw [adj_iff_nbrs] at ha
      exact absurd ha hna
    · simp only [List.mem_flatMap, List.mem_map]
      exact ⟨p, hp, v, hv, rfl⟩
  have hnd : (missingPairs c s).Nodup := (hs.product hs).filter _
  have hle := (List.subperm_of_subset hnd hsub).length_le
  rw [List.length_flatMap] at hle
  rw [h.count]
  simpa using hle

theorem fillEdges_congr {c d : List (α × List α)} (h : SameDict c d) (s cs : List α) :
    fillEdges c s cs = fillEdges d s cs := by
  induction cs with
  | nil => rfl
  | cons u cs ih => simp only [fillEdges, assocGet, h u, ih]

theorem fillOf_congr {c d : List (α × List α)} (h : SameDict c d) (v : α) : fillOf c v = fillOf d v := by
  simp only [fillOf, h v, fillEdges_congr h]

theorem fillLoop_spec {c : List (α × List α)} (hc : Simple c) (vs : List α) (fs : List (α × Fill α))
    (hv : ∀ v ∈ vs, v ∈ c.map (·.1)) (hn : (fs.map (·.1)).Nodup) :
    ∃ fs', fillLoop c vs fs = .ok fs' ∧ (fs'.map (·.1)).Nodup ∧
      (∀ x, x ∉ vs → fs'.lookup x = fs.lookup x) ∧
      ∀ x ∈ vs, ∃ f, fillOf c x = .ok f ∧ fs'.lookup x = some f := by
  induction vs generalizing fs with
  | nil => exact ⟨fs, rfl, hn, fun _ _ => rfl, by simp⟩
  | cons v vs ih =>
    obtain ⟨s, hs⟩ := (lookup_isSome_iff c v).mpr (hv v (List.mem_cons_self ..))
    obtain ⟨f, hf, _⟩ := fillOf_spec hc hs
    obtain ⟨fs', h1, h2, h3, h4⟩ := ih (assocSet fs v f) (fun w hw => hv w (List.mem_cons_of_mem _ hw))
      (assocSet_nodup hn _ _)
    refine ⟨fs', by simp only [fillLoop, hf, h1], h2, ?_, ?_⟩
    · intro x hx
      simp only [List.mem_cons, not_or] at hx
      rw [h3 x hx.2, lookup_assocSet, if_neg hx.1]
    · intro x hx
      by_cases hxv : x ∈ vs
      · exact h4 x hxv
      · rcases List.mem_cons.mp hx with rfl | hx
        · exact ⟨f, hf, by rw [h3 x hxv, lookup_assocSet, if_pos rfl]⟩
        · exact absurd hx hxv

/-- Computing all fills of a simple graph establishes the invariant, with every fill exact. -/
theorem computeAllFills_spec {G : PrimalGraph α} (hc : Simple G.connected) (hf : G.fills = some []) :
    ∃ G' fs, G.computeAllFills = .ok G' ∧ G'.fills = some fs ∧ G'.connected = G.connected ∧ Inv G' ∧
      ∀ w f s, fs.lookup w = some f → G.connected.lookup w = some s → f.1 = (missingPairs G.connected s).length := by
  obtain ⟨fs, h1, h2, h3, h4⟩ := fillLoop_spec hc (G.connected.map (·.1)) [] (fun _ h => h) (by simp)
  have hkeys : ∀ v, v ∈ fs.map (·.1) ↔ v ∈ G.connected.map (·.1) := by
    intro v
    rw [← lookup_isSome_iff]
    constructor
    · rintro ⟨f, hf⟩
      by_contra hv
      rw [h3 v hv] at hf
      simp at hf
    · intro hv
      obtain ⟨f, _, hf⟩ := h4 v hv
      exact ⟨f, hf⟩
  refine ⟨{ G with fills := some fs }, fs, by simp only [computeAllFills, computeFills, hf, h1], rfl, rfl,
    ⟨hc, ?_⟩, ?_⟩
  · rintro fs' hfs'
    cases hfs'
    refine ⟨h2, hkeys, fun w f s hw hs => ?_⟩
    obtain ⟨f', hf', hl⟩ := h4 w ((lookup_isSome_iff _ w).mp ⟨s, hs⟩)
    obtain ⟨f'', hf'', hcov, _⟩ := fillOf_spec hc hs
    rw [hl] at hw; cases hw
    rw [hf'] at hf''; cases hf''
    exact hcov
  · intro w f s hw hs
    obtain ⟨f', hf', hl⟩ := h4 w ((lookup_isSome_iff _ w).mp ⟨s, hs⟩)
    obtain ⟨f'', hf'', _, hex, _⟩ := fillOf_spec hc hs
    rw [hl] at hw; cases hw
    rw [hf'] at hf''; cases hf''
    exact hex

theorem degreeLoop_total {c : List (α × List α)} (vs : List α) (ds : List (α × ℕ)) (hv : ∀ v ∈ vs, v ∈ c.map (·.1)) :
    ∃ ds', degreeLoop c vs ds = .ok ds' ∧ (∀ x, x ∉ vs → ds'.lookup x = ds.lookup x) ∧
      ∀ x ∈ vs, ds'.lookup x = some (nbrs c x).length := by
  induction vs generalizing ds with
  | nil => exact ⟨ds, rfl, fun _ _ => rfl, by simp⟩
  | cons v vs ih =>
    obtain ⟨s, hs⟩ := (lookup_isSome_iff c v).mpr (hv v (List.mem_cons_self ..))
    obtain ⟨ds', h1, h2, h3⟩ := ih (assocSet ds v s.length) (fun w hw => hv w (List.mem_cons_of_mem _ hw))
    refine ⟨ds', by simp only [degreeLoop, assocGet, hs, h1], ?_, ?_⟩
    · intro x hx
      simp only [List.mem_cons, not_or] at hx
      rw [h2 x hx.2, lookup_assocSet, if_neg hx.1]
    · intro x hx
      by_cases hxv : x ∈ vs
      · exact h3 x hxv
      · rcases List.mem_cons.mp hx with rfl | hx
        · rw [h2 x hxv, lookup_assocSet, if_pos rfl, nbrs, hs]; rfl
        · exact absurd hx hxv

theorem refreshDegrees_spec (G : PrimalGraph α) (vs : List α) (hv : ∀ v ∈ vs, v ∈ G.connected.map (·.1)) :
    ∃ G', G.refreshDegrees vs = .ok G' ∧ G'.connected = G.connected ∧ G'.fills = G.fills ∧
      G'.degrees.isSome = G.degrees.isSome ∧
      ∀ ds, G'.degrees = some ds → ∀ v ∈ vs, ds.lookup v = some (nbrs G.connected v).length := by
  unfold refreshDegrees
  cases hd : G.degrees with
  | none => exact ⟨G, rfl, rfl, rfl, by rw [hd], fun ds h => by rw [hd] at h; cases h⟩
  | some ds =>
    obtain ⟨ds', h1, _, h3⟩ := degreeLoop_total vs ds hv
    refine ⟨{ G with degrees := some ds' }, by simp only [computeDegrees, hd, h1], rfl, rfl, rfl, ?_⟩
    intro ds'' h v hvv
    cases h
    exact h3 v hvv

/-! ## Elimination -/

/-- What eliminating `a` stores, key by key. -/
structure Eliminated (G G' : PrimalGraph α) (fs fs' : List (α × Fill α)) (a : α) : Prop where
  keys : (G'.connected.map (·.1)).Nodup
  fkeys : (fs'.map (·.1)).Nodup
  conn : ∀ x, G'.connected.lookup x = if x = a then none else if x ∈ nbrs G.connected a then
    some ((nbrs G.connected x).filter (· ≠ a) ∪ ((fs.lookup a).bind fun f => f.2.lookup x).getD [])
    else G.connected.lookup x
  fills : ∀ x, fs'.lookup x = if x = a then none else if x ∈ nbrs G.connected a then
    (fillOf G'.connected x).toOption else fs.lookup x
  some_fills : G'.fills = some fs'
  degs : G'.degrees.isSome = G.degrees.isSome

theorem filter_ne_eq_self {s : List α} {a : α} (h : a ∉ s) : s.filter (· ≠ a) = s :=
  List.filter_eq_self.mpr fun x hx => by simpa using fun e : x = a => h (e ▸ hx)

theorem union_nil_eq {s : List α} (h : s.Nodup) : s ∪ [] = s := by
  induction s with
  | nil => rfl
  | cons x s ih =>
    rw [List.nodup_cons] at h
    rw [List.cons_union, ih h.2, List.insert_of_not_mem h.1]

/-- The graph after eliminating a vertex: its neighbours are pairwise connected, nothing else changes. -/
def ElimAdj (R : α → α → Prop) (a u v : α) : Prop := u ≠ v ∧ u ≠ a ∧ v ≠ a ∧ (R u v ∨ (R u a ∧ R a v))

theorem remove_raw {G : PrimalGraph α} (hI : Inv G) {fs : List (α × Fill α)} (hf : G.fills = some fs) {a : α}
    (ha : a ∈ G.connected.map (·.1)) :
    ∃ G' fs', G.removeAndProcess a = .ok G' ∧ Eliminated G G' fs fs' a ∧ Inv G' ∧
      (∀ u v, Adj G'.connected u v ↔ ElimAdj (Adj G.connected) a u v) ∧
      (∀ v, v ∈ G'.connected.map (·.1) ↔ v ∈ G.connected.map (·.1) ∧ v ≠ a) ∧
      (∀ w, Adj G.connected a w → ∃ f s, fs'.lookup w = some f ∧ G'.connected.lookup w = some s ∧
        f.1 = (missingPairs G'.connected s).length) ∧
      ∀ ds, G'.degrees = some ds → ∀ w, Adj G.connected a w → ds.lookup w = some (nbrs G'.connected w).length := by
  have hc := hI.simple
  obtain ⟨hfn, hfk, hcov⟩ := hI.fills fs hf
  obtain ⟨s, hs⟩ := (lookup_isSome_iff _ a).mpr ha
  obtain ⟨⟨n, edges⟩, he⟩ := (lookup_isSome_iff _ a).mpr ((hfk a).mpr ha)
  have hC := hcov a _ s he hs
  have hsn := hc.nodup a s hs
  have has : a ∉ s := fun h => hc.loopless a ⟨s, hs, h⟩
  have hnb : nbrs G.connected a = s := by simp [nbrs, hs]
  have hl0 : ∀ x, (assocDel G.connected a).lookup x = if x = a then none else G.connected.lookup x :=
    lookup_assocDel hc.keys a
  have hk0 : ∀ u ∈ s, u ∈ (assocDel G.connected a).map (·.1) := by
    intro u hu
    rw [← lookup_isSome_iff]
    rw [hl0, if_neg (fun e : u = a => has (e ▸ hu))]
    exact (lookup_isSome_iff _ u).mpr (hc.symm a u ⟨s, hs, hu⟩).key
  -- drop the vertex from its neighbours
  obtain ⟨c1, h1, k1, l1, m1⟩ := assocModifyAll_spec (id : α → α) (fun _ t => t.filter (· ≠ a)) s
    (assocDel G.connected a) hk0 (by simpa using hsn)
  -- connect the neighbours
  have hke : ∀ p ∈ edges, p.1 ∈ s := fun p hp => (hC.within p hp).1
  obtain ⟨c2, h2, k2, l2, m2⟩ := assocModifyAll_spec (fun p : α × List α => p.1) (fun p t => t ∪ p.2) edges c1
    (fun p hp => by rw [k1]; exact hk0 _ (hke p hp)) hC.sources
  have hlook : ∀ x, c2.lookup x = if x = a then none else if x ∈ s then
      some ((nbrs G.connected x).filter (· ≠ a) ∪ (edges.lookup x).getD []) else G.connected.lookup x := by
    intro x
    by_cases hxa : x = a
    · subst hxa
      rw [l2 x (fun h => by
        obtain ⟨p, hp, e⟩ := List.mem_map.mp h
        exact has (e ▸ hke p hp)), l1 x (by simpa using has), hl0, if_pos rfl, if_pos rfl]
    · rw [if_neg hxa]
      by_cases hxs : x ∈ s
      · rw [if_pos hxs]
        obtain ⟨t, ht⟩ := (lookup_isSome_iff _ x).mpr (hc.symm a x ⟨s, hs, hxs⟩).key
        have hx1 := m1 x hxs t (by rw [id, hl0, if_neg hxa, ht])
        simp only [id_eq] at hx1
        have htx : nbrs G.connected x = t := by simp [nbrs, ht]
        rw [htx]
        by_cases hxe : x ∈ edges.map (·.1)
        · obtain ⟨p, hp, rfl⟩ := List.mem_map.mp hxe
          rw [m2 p hp _ hx1, assoc_of_mem hC.sources (k := p.1) (v := p.2) hp]
          rfl
        · rw [l2 x hxe, hx1, (lookup_eq_none edges x).mpr hxe, Option.getD_none,
            union_nil_eq ((hc.nodup x t ht).filter _)]
      · rw [if_neg hxs, l2 x (fun h => by
          obtain ⟨p, hp, e⟩ := List.mem_map.mp h
          exact hxs (e ▸ hke p hp)), l1 x (by simpa using hxs), hl0, if_neg hxa]
  have hk2 : (c2.map (·.1)).Nodup := by rw [k2, k1]; exact assocDel_nodup hc.keys a
  have hadj : ∀ u v, Adj c2 u v ↔ ElimAdj (Adj G.connected) a u v := by
    intro u v
    unfold ElimAdj
    by_cases hua : u = a
    · subst hua
      have : ¬ Adj c2 u v := by rintro ⟨t, ht, _⟩; rw [hlook, if_pos rfl] at ht; cases ht
      simp [this]
    · by_cases hus : u ∈ s
      · have hRua : Adj G.connected u a := hc.symm a u ⟨s, hs, hus⟩
        have hmem : Adj c2 u v ↔ (Adj G.connected u v ∧ v ≠ a) ∨ ∃ p ∈ edges, p.1 = u ∧ v ∈ p.2 := by
          unfold Adj
          rw [hlook, if_neg hua, if_pos hus]
          simp only [Option.some.injEq, exists_eq_left', List.mem_union_iff, List.mem_filter, decide_eq_true_eq]
          constructor
          · rintro (⟨h, hne⟩ | h)
            · exact .inl ⟨(adj_iff_nbrs _ _ _).mpr h, hne⟩
            · cases hl : edges.lookup u with
              | none => rw [hl] at h; simp at h
              | some t =>
                rw [hl] at h
                exact .inr ⟨(u, t), mem_of_assoc hl, rfl, h⟩
          · rintro (⟨h, hne⟩ | ⟨p, hp, rfl, hv⟩)
            · exact .inl ⟨(adj_iff_nbrs _ _ _).mp h, hne⟩
            · right
              rw [assoc_of_mem hC.sources (k := p.1) (v := p.2) hp]
              exact hv
        rw [hmem]
        constructor
        · rintro (⟨h, hne⟩ | ⟨p, hp, rfl, hv⟩)
          · exact ⟨fun e => hc.loopless u (e ▸ h), hua, hne, .inl h⟩
          · have hw := hC.within p hp
            have hvs := hw.2.2.2 v hv
            exact ⟨fun e => hw.2.1 (e ▸ hv), hua, fun e => has (e ▸ hvs), .inr ⟨hRua, ⟨s, hs, hvs⟩⟩⟩
        · rintro ⟨hne, _, hva, h | ⟨_, h⟩⟩
          · exact .inl ⟨h, hva⟩
          · obtain ⟨s', hs', hvs⟩ := h
            rw [hs] at hs'; cases hs'
            rcases hC.complete u hus v hvs hne with h | h
            · exact .inl ⟨h, hva⟩
            · exact .inr h
      · have hnua : ¬ Adj G.connected u a := fun h => by
          obtain ⟨s', hs', h'⟩ := hc.symm u a h
          rw [hs] at hs'; cases hs'
          exact hus h'
        have : Adj c2 u v ↔ Adj G.connected u v := by
          unfold Adj
          rw [hlook, if_neg hua, if_neg hus]
        rw [this]
        constructor
        · intro h
          exact ⟨fun e => hc.loopless u (e ▸ h), hua, fun e => hnua (e ▸ h), .inl h⟩
        · rintro ⟨_, _, _, h | ⟨h, _⟩⟩
          · exact h
          · exact absurd h hnua
  have hsimple : Simple c2 := by
    refine ⟨hk2, ?_, ?_, ?_⟩
    · intro u t ht
      rw [hlook] at ht
      split at ht
      · cases ht
      · split at ht
        · cases ht
          apply List.Nodup.union
          cases hl : edges.lookup u with
          | none => simp
          | some t => exact (hC.within _ (mem_of_assoc hl)).2.2.1
        · exact hc.nodup u t ht
    · intro u h
      exact ((hadj u u).mp h).1 rfl
    · intro u v h
      rw [hadj] at h ⊢
      obtain ⟨h1, h2, h3, h4⟩ := h
      refine ⟨Ne.symm h1, h3, h2, ?_⟩
      rcases h4 with h | ⟨h, h'⟩
      · exact .inl (hc.symm _ _ h)
      · exact .inr ⟨hc.symm _ _ h', hc.symm _ _ h⟩
  have hkeys2 : ∀ v, v ∈ c2.map (·.1) ↔ v ∈ G.connected.map (·.1) ∧ v ≠ a := by
    intro v
    rw [k2, k1, ← lookup_isSome_iff, hl0, ← lookup_isSome_iff]
    split <;> simp_all
  have hsc2 : ∀ v ∈ s, v ∈ c2.map (·.1) := fun v hv =>
    (hkeys2 v).mpr ⟨(hc.symm a v ⟨s, hs, hv⟩).key, fun e => has (e ▸ hv)⟩
  obtain ⟨fs', h3, n3, l3, m3⟩ := fillLoop_spec hsimple s (assocDel fs a) hsc2 (assocDel_nodup hfn a)
  obtain ⟨G', h4, g1, g2, g3, g4⟩ := refreshDegrees_spec
    ({ G with connected := c2, fills := some fs' } : PrimalGraph α) s hsc2
  have hfl : ∀ x, fs'.lookup x = if x = a then none else if x ∈ s then (fillOf c2 x).toOption else fs.lookup x := by
    intro x
    by_cases hxs : x ∈ s
    · rw [if_neg (fun e : x = a => has (e ▸ hxs)), if_pos hxs]
      obtain ⟨f, hf, hl⟩ := m3 x hxs
      rw [hl, hf]; rfl
    · rw [l3 x hxs, lookup_assocDel hfn, if_neg hxs]
  refine ⟨G', fs', ?_, ⟨g1 ▸ hk2, n3, ?_, ?_, g2, g3⟩, ⟨g1 ▸ hsimple, ?_⟩, ?_, ?_, ?_, ?_⟩
  · simp only [removeAndProcess, assocGet, hs, hf, he, h1, h2, computeFills, h3, h4]
  · intro x
    rw [g1, hnb, he]
    exact hlook x
  · intro x
    rw [g1, hnb]
    exact hfl x
  · intro fs'' hfs''
    rw [g2] at hfs''; cases hfs''
    rw [g1]
    refine ⟨n3, ?_, ?_⟩
    · intro v
      rw [hkeys2, ← lookup_isSome_iff, hfl]
      by_cases hva : v = a
      · simp [hva]
      · rw [if_neg hva]
        by_cases hvs : v ∈ s
        · obtain ⟨f, hf', _⟩ := m3 v hvs
          rw [if_pos hvs, hf']
          simp only [Except.toOption, Option.some.injEq, exists_eq', true_iff, ne_eq, hva, not_false_eq_true, and_true]
          exact (hc.symm a v ⟨s, hs, hvs⟩).key
        · rw [if_neg hvs, lookup_isSome_iff, hfk]
          simp [hva]
    · intro w f t hw ht
      have hwa : w ≠ a := by
        rintro rfl
        rw [hfl, if_pos rfl] at hw; cases hw
      by_cases hws : w ∈ s
      · obtain ⟨f', hf', hcov', _⟩ := fillOf_spec hsimple ht
        rw [hfl, if_neg hwa, if_pos hws, hf'] at hw
        cases hw
        exact hcov'
      · change c2.lookup w = some t at ht
        rw [hlook, if_neg hwa, if_neg hws] at ht
        rw [hfl, if_neg hwa, if_neg hws] at hw
        have hcw := hcov w f t hw ht
        refine ⟨hcw.count, hcw.sources, hcw.within, ?_⟩
        intro u hu v hv hne
        have hnota : ∀ x ∈ t, x ≠ a := by
          rintro x hx rfl
          obtain ⟨s', hs', h⟩ := hc.symm w x ⟨t, ht, hx⟩
          rw [hs] at hs'; cases hs'
          exact hws h
        rcases hcw.complete u hu v hv hne with h | h
        · exact .inl ((hadj u v).mpr ⟨hne, hnota u hu, hnota v hv, .inl h⟩)
        · exact .inr h
  · rw [g1]; exact hadj
  · rw [g1]; exact hkeys2
  · rintro w ⟨s', hs', hw⟩
    rw [hs] at hs'; cases hs'
    obtain ⟨t, ht⟩ := (lookup_isSome_iff _ w).mpr (hsc2 w hw)
    obtain ⟨f, hf', hl⟩ := m3 w hw
    obtain ⟨f', hf'', _, hex, _⟩ := fillOf_spec hsimple ht
    rw [hf'] at hf''; cases hf''
    exact ⟨f, t, hl, by rw [g1]; exact ht, by rw [g1]; exact hex⟩
  · rintro ds hds w ⟨s', hs', hw⟩
    rw [hs] at hs'; cases hs'
    rw [g1]
    exact g4 ds hds w hw

/-- Eliminating a vertex of a graph that stores fills never fails, connects exactly its neighbours pairwise, keeps the
graph simple, recomputes the fills of the neighbours exactly and never underestimates any other. -/
theorem remove_spec {G : PrimalGraph α} (hI : Inv G) (hf : G.fills.isSome) {a : α}
    (ha : a ∈ G.connected.map (·.1)) :
    ∃ G' fs', G.removeAndProcess a = .ok G' ∧ G'.fills = some fs' ∧ Inv G' ∧
      (∀ u v, Adj G'.connected u v ↔ ElimAdj (Adj G.connected) a u v) ∧
      (∀ v, v ∈ G'.connected.map (·.1) ↔ v ∈ G.connected.map (·.1) ∧ v ≠ a) ∧
      (∀ w, Adj G.connected a w → ∃ f s, fs'.lookup w = some f ∧ G'.connected.lookup w = some s ∧
        f.1 = (missingPairs G'.connected s).length) ∧
      (∀ w f s, fs'.lookup w = some f → G'.connected.lookup w = some s →
        (missingPairs G'.connected s).length ≤ f.1) ∧
      ∀ ds, G'.degrees = some ds → ∀ w, Adj G.connected a w → ds.lookup w = some (nbrs G'.connected w).length := by
  obtain ⟨fs, hfs⟩ := Option.isSome_iff_exists.mp hf
  obtain ⟨G', fs', h1, h2, h3, h4, h5, h6, h7⟩ := remove_raw hI hfs ha
  refine ⟨G', fs', h1, h2.some_fills, h3, h4, h5, h6, ?_, h7⟩
  intro w f s hw hs
  exact ((h3.fills fs' h2.some_fills).2.2 w f s hw hs).upper (h3.simple.nodup w s hs)

/-- A path all of whose inner vertices lie in `S`. -/
inductive Path (R : α → α → Prop) (S : List α) : α → α → Prop
  | step {u v} : R u v → Path R S u v
  | cons {u w v} : R u w → w ∈ S → Path R S w v → Path R S u v

theorem Path.mono {R R' : α → α → Prop} {S S' : List α} (h : ∀ u v, R u v → R' u v) (hS : ∀ x ∈ S, x ∈ S') {u v : α}
    (p : Path R S u v) : Path R' S' u v := by
  induction p with
  | step h' => exact .step (h _ _ h')
  | cons h1 h2 _ ih => exact .cons (h _ _ h1) (hS _ h2) ih

theorem Path.append {R : α → α → Prop} {S : List α} {u w v : α} (p : Path R S u w) (hw : w ∈ S) (q : Path R S w v) :
    Path R S u v := by
  induction p with
  | step h => exact .cons h hw q
  | cons h1 h2 _ ih => exact .cons h1 h2 (ih hw q)

theorem path_elim_to {R : α → α → Prop} {a : α} {S : List α} {u v : α} (p : Path (ElimAdj R a) S u v) :
    Path R (a :: S) u v := by
  have hstep : ∀ x y, ElimAdj R a x y → Path R (a :: S) x y := by
    rintro x y ⟨_, _, _, h | ⟨h, h'⟩⟩
    · exact .step h
    · exact .cons h (List.mem_cons_self ..) (.step h')
  induction p with
  | step h => exact hstep _ _ h
  | cons h1 h2 _ ih => exact (hstep _ _ h1).append (List.mem_cons_of_mem _ h2) ih

theorem path_elim_of {R : α → α → Prop} {a : α} {S : List α} {u v : α} (p : Path R (a :: S) u v) (hv : v ≠ a) :
    (u ≠ a → u = v ∨ Path (ElimAdj R a) S u v) ∧
      (u = a → ∀ x, x ≠ a → R x a → x = v ∨ Path (ElimAdj R a) S x v) := by
  induction p with
  | @step u v h =>
    constructor
    · intro hu
      by_cases huv : u = v
      · exact .inl huv
      · exact .inr (.step ⟨huv, hu, hv, .inl h⟩)
    · rintro rfl x hx hxa
      by_cases hxv : x = v
      · exact .inl hxv
      · exact .inr (.step ⟨hxv, hx, hv, .inr ⟨hxa, h⟩⟩)
  | @cons u w v h1 h2 _ ih =>
    obtain ⟨ih1, ih2⟩ := ih hv
    have extend : ∀ x, x ≠ a → w ≠ a → (R x w ∨ (R x a ∧ R a w)) → x = v ∨ Path (ElimAdj R a) S x v := by
      intro x hx hwa hR
      have hwS : w ∈ S := (List.mem_cons.mp h2).resolve_left hwa
      by_cases hxw : x = w
      · subst hxw; exact ih1 hwa
      · rcases ih1 hwa with rfl | h
        · exact .inr (.step ⟨hxw, hx, hwa, hR⟩)
        · exact .inr (.cons ⟨hxw, hx, hwa, hR⟩ hwS h)
    constructor
    · intro hu
      by_cases hwa : w = a
      · subst hwa; exact ih2 rfl u hu h1
      · exact extend u hu hwa (.inl h1)
    · rintro rfl x hx hxa
      by_cases hwa : w = u
      · subst hwa; exact ih2 rfl x hx hxa
      · exact extend x hx hwa (.inr ⟨hxa, h1⟩)

/-- Eliminating a whole sequence of vertices. -/
def removeAll : List α → PrimalGraph α → Except PyErr (PrimalGraph α)
  | [], G => .ok G
  | a :: as, G =>
    match G.removeAndProcess a with
    | .ok G' => removeAll as G'
    | .error e => .error e

/-- Along any elimination sequence of distinct vertices the graph stays simple, and two remaining vertices are connected
exactly when the original graph has a path between them through eliminated vertices only. -/
theorem removeAll_spec_partial (as : List α) {G : PrimalGraph α} (hI : Inv G) (hf : G.fills.isSome) (hn : as.Nodup)
    (ha : ∀ a ∈ as, a ∈ G.connected.map (·.1)) :
    ∃ G', removeAll as G = .ok G' ∧ Inv G' ∧ G'.fills.isSome ∧
      (∀ v, v ∈ G'.connected.map (·.1) ↔ v ∈ G.connected.map (·.1) ∧ v ∉ as) ∧
      ∀ u v, Adj G'.connected u v ↔ u ≠ v ∧ u ∉ as ∧ v ∉ as ∧ Path (Adj G.connected) as u v := by
  induction as generalizing G with
  | nil =>
    refine ⟨G, rfl, hI, hf, by simp, fun u v => ?_⟩
    constructor
    · intro h
      exact ⟨fun e => hI.simple.loopless u (e ▸ h), by simp, by simp, .step h⟩
    · rintro ⟨_, _, _, p⟩
      cases p with
      | step h => exact h
      | cons _ h _ => simp at h
  | cons a as ih =>
    rw [List.nodup_cons] at hn
    obtain ⟨G1, fs1, h1, h2, h3, h4, h5, _⟩ := remove_spec hI hf (ha a (List.mem_cons_self ..))
    obtain ⟨G', k1, k2, k3, k4, k5⟩ := ih h3 (by rw [h2]; rfl) hn.2 (fun b hb =>
      (h5 b).mpr ⟨ha b (List.mem_cons_of_mem _ hb), fun e => hn.1 (e ▸ hb)⟩)
    refine ⟨G', by simp only [removeAll, h1, k1], k2, k3, ?_, ?_⟩
    · intro v
      rw [k4, h5, List.mem_cons]
      tauto
    · intro u v
      rw [k5]
      have hR : ∀ x y, Path (Adj G1.connected) as x y ↔ Path (ElimAdj (Adj G.connected) a) as x y := fun x y =>
        ⟨fun p => p.mono (fun u v h => (h4 u v).mp h) fun _ h => h, fun p => p.mono (fun u v h => (h4 u v).mpr h) fun _ h => h⟩
      rw [hR]
      simp only [List.mem_cons, not_or]
      constructor
      · rintro ⟨hne, hu, hv, p⟩
        have hends : ∀ x y, Path (ElimAdj (Adj G.connected) a) as x y → x ≠ a ∧ y ≠ a := by
          intro x y q
          induction q with
          | step h => exact ⟨h.2.1, h.2.2.1⟩
          | cons h1 _ _ ih => exact ⟨h1.2.1, ih.2⟩
        exact ⟨hne, ⟨(hends u v p).1, hu⟩, ⟨(hends u v p).2, hv⟩, path_elim_to p⟩
      · rintro ⟨hne, ⟨hua, hu⟩, ⟨hva, hv⟩, p⟩
        exact ⟨hne, hu, hv, ((path_elim_of p hva).1 hua).resolve_left hne⟩

/-! ## Looking ahead -/

/-- The same graph with the same stored fills; only the insertion order of the dictionaries may differ. -/
structure Same (G H : PrimalGraph α) : Prop where
  conn : SameDict G.connected H.connected
  fills : ∃ fs gs, G.fills = some fs ∧ H.fills = some gs ∧ SameDict fs gs
  degrees : G.degrees.isSome = H.degrees.isSome

theorem Same.symm {G H : PrimalGraph α} (h : Same G H) : Same H G := by
  obtain ⟨fs, gs, h1, h2, h3⟩ := h.fills
  exact ⟨fun x => (h.conn x).symm, ⟨gs, fs, h2, h1, fun x => (h3 x).symm⟩, h.degrees.symm⟩

theorem Same.trans {G H K : PrimalGraph α} (h : Same G H) (k : Same H K) : Same G K := by
  obtain ⟨fs, gs, h1, h2, h3⟩ := h.fills
  obtain ⟨gs', ks, k1, k2, k3⟩ := k.fills
  rw [h2] at k1; cases k1
  exact ⟨fun x => (h.conn x).trans (k.conn x), ⟨fs, ks, h1, k2, fun x => (h3 x).trans (k3 x)⟩, h.degrees.trans k.degrees⟩

theorem Same.adj {c d : List (α × List α)} (h : SameDict c d) (u v : α) : Adj c u v ↔ Adj d u v := by
  unfold Adj; rw [h u]

theorem Inv.of_same {G H : PrimalGraph α} (hI : Inv G) (h : Same G H) (hk : (H.connected.map (·.1)).Nodup)
    (hfk : ∀ gs, H.fills = some gs → (gs.map (·.1)).Nodup) : Inv H := by
  obtain ⟨fs, gs, h1, h2, h3⟩ := h.fills
  obtain ⟨_, i2, i3⟩ := hI.fills fs h1
  refine ⟨⟨hk, ?_, ?_, ?_⟩, ?_⟩
  · intro u s hs; rw [← h.conn] at hs; exact hI.simple.nodup u s hs
  · intro u hu; exact hI.simple.loopless u ((Same.adj h.conn u u).mpr hu)
  · intro u v huv; exact (Same.adj h.conn v u).mp (hI.simple.symm u v ((Same.adj h.conn u v).mpr huv))
  · intro gs' hgs'
    rw [h2] at hgs'; cases hgs'
    refine ⟨hfk gs h2, fun v => by rw [← h3.keys, ← h.conn.keys]; exact i2 v, ?_⟩
    intro w f s hw hs
    rw [← h3] at hw
    rw [← h.conn] at hs
    have := i3 w f s hw hs
    exact ⟨this.count, this.sources, this.within, fun u hu v hv hne =>
      (this.complete u hu v hv hne).imp (Same.adj h.conn u v).mp id⟩

theorem minimum_spec (l : List ℕ) (m : ℕ) : minimum l = some m ↔ m ∈ l ∧ ∀ x ∈ l, m ≤ x := by
  have key : ∀ (l : List ℕ) (x : ℕ), l.foldl min x ∈ x :: l ∧ ∀ y ∈ x :: l, l.foldl min x ≤ y := by
    intro l
    induction l with
    | nil => intro x; simp
    | cons z l ih =>
      intro x
      rw [List.foldl_cons]
      obtain ⟨h1, h2⟩ := ih (min x z)
      refine ⟨?_, ?_⟩
      · rcases List.mem_cons.mp h1 with h | h
        · rw [h]
          rcases le_total x z with hxz | hxz
          · rw [min_eq_left hxz]; simp
          · rw [min_eq_right hxz]; simp
        · exact List.mem_cons_of_mem _ (List.mem_cons_of_mem _ h)
      · intro y hy
        have h0 := h2 (min x z) (List.mem_cons_self ..)
        rcases List.mem_cons.mp hy with rfl | hy
        · exact h0.trans (min_le_left _ _)
        · rcases List.mem_cons.mp hy with rfl | hy
          · exact h0.trans (min_le_right _ _)
          · exact h2 y (List.mem_cons_of_mem _ hy)
  cases l with
  | nil => simp [minimum]
  | cons x l =>
    obtain ⟨h1, h2⟩ := key l x
    simp only [minimum, Option.some.injEq]
    constructor
    · rintro rfl; exact ⟨h1, h2⟩
    · rintro ⟨h3, h4⟩; exact le_antisymm (h2 m h3) (h4 _ h1)

theorem minimum_total {l : List ℕ} (h : l ≠ []) : ∃ m, minimum l = some m := by
  cases l with
  | nil => exact absurd rfl h
  | cons x l => exact ⟨_, rfl⟩

/-- The least stored fill of a graph. -/
def LeastFill (G : PrimalGraph α) (m : ℕ) : Prop :=
  ∃ fs, G.fills = some fs ∧ (∃ w f, fs.lookup w = some f ∧ f.1 = m) ∧ ∀ w f, fs.lookup w = some f → m ≤ f.1

theorem LeastFill.unique {G : PrimalGraph α} {m n : ℕ} (h : LeastFill G m) (k : LeastFill G n) : m = n := by
  obtain ⟨fs, h1, ⟨w, f, h2, h3⟩, h4⟩ := h
  obtain ⟨fs', k1, ⟨w', f', k2, k3⟩, k4⟩ := k
  rw [h1] at k1; cases k1
  have := h4 w' f' k2
  have := k4 w f h2
  omega

theorem LeastFill.of_same {G H : PrimalGraph α} {m : ℕ} (h : LeastFill G m) (hs : Same G H) : LeastFill H m := by
  obtain ⟨fs, h1, ⟨w, f, h2, h3⟩, h4⟩ := h
  obtain ⟨fs', gs, k1, k2, k3⟩ := hs.fills
  rw [h1] at k1; cases k1
  exact ⟨gs, k2, ⟨w, f, (k3 w) ▸ h2, h3⟩, fun w f hw => h4 w f ((k3 w).trans hw)⟩

theorem minimum_fills {fs : List (α × Fill α)} (hn : (fs.map (·.1)).Nodup) {m : ℕ} :
    minimum (fs.map (·.2.1)) = some m ↔
      (∃ w f, fs.lookup w = some f ∧ f.1 = m) ∧ ∀ w f, fs.lookup w = some f → m ≤ f.1 := by
  rw [minimum_spec]
  constructor
  · rintro ⟨h1, h2⟩
    obtain ⟨⟨w, f⟩, hp, rfl⟩ := List.mem_map.mp h1
    exact ⟨⟨w, f, assoc_of_mem hn hp, rfl⟩, fun w' f' h => h2 _ (List.mem_map_of_mem (f := fun p => p.2.1) (mem_of_assoc h))⟩
  · rintro ⟨⟨w, f, h1, rfl⟩, h2⟩
    refine ⟨List.mem_map_of_mem (f := fun p => p.2.1) (mem_of_assoc h1), fun x hx => ?_⟩
    obtain ⟨⟨w', f'⟩, hp, rfl⟩ := List.mem_map.mp hx
    exact h2 w' f' (assoc_of_mem hn hp)

theorem Same.nbrs {c d : List (α × List α)} (h : SameDict c d) (u : α) : PrimalGraph.nbrs c u = PrimalGraph.nbrs d u := by
  unfold PrimalGraph.nbrs; rw [h u]

/-- Eliminating a vertex from two equal graphs gives equal graphs. -/
theorem remove_same {G H : PrimalGraph α} (hG : Inv G) (hH : Inv H) (h : Same G H) {a : α}
    (ha : a ∈ G.connected.map (·.1)) :
    ∃ G' H', G.removeAndProcess a = .ok G' ∧ H.removeAndProcess a = .ok H' ∧ Same G' H' := by
  obtain ⟨fs, gs, h1, h2, h3⟩ := h.fills
  obtain ⟨G', fs', g1, g2, _⟩ := remove_raw hG h1 ha
  obtain ⟨H', gs', k1, k2, _⟩ := remove_raw hH h2 ((h.conn.keys a).mp ha)
  have hc : SameDict G'.connected H'.connected := fun x => by
    rw [g2.conn, k2.conn, Same.nbrs h.conn, Same.nbrs h.conn, h3, h.conn]
  refine ⟨G', H', g1, k1, ⟨hc, ⟨fs', gs', g2.some_fills, k2.some_fills, fun x => ?_⟩, ?_⟩⟩
  · rw [g2.fills, k2.fills, Same.nbrs h.conn, fillOf_congr hc, h3]
  · rw [g2.degs, k2.degs, h.degrees]

theorem backup_spec {ν : Type} {d : List (α × ν)} (ns : List α) (h : ∀ n ∈ ns, n ∈ d.map (·.1)) :
    ∃ b, backup d ns = .ok b ∧ b.map (·.1) = ns ∧ ∀ x, x ∈ ns → b.lookup x = d.lookup x := by
  induction ns with
  | nil => exact ⟨[], rfl, rfl, by simp⟩
  | cons n ns ih =>
    obtain ⟨v, hv⟩ := (lookup_isSome_iff d n).mpr (h n (List.mem_cons_self ..))
    obtain ⟨b, h1, h2, h3⟩ := ih fun m hm => h m (List.mem_cons_of_mem _ hm)
    refine ⟨(n, v) :: b, by simp only [backup, assocGet, hv, h1], by simp [h2], ?_⟩
    intro x hx
    by_cases hxn : x = n
    · subst hxn; simp [List.lookup, hv]
    · have : (x == n) = false := beq_eq_false_iff_ne.mpr hxn
      simp only [List.lookup, this]
      exact h3 x ((List.mem_cons.mp hx).resolve_left hxn)

/-- Looking ahead at one vertex reports the least fill after eliminating it and leaves the graph as it was. -/
theorem lookAhead_spec {G : PrimalGraph α} (hI : Inv G) (hf : G.fills.isSome) {a b : α}
    (ha : a ∈ G.connected.map (·.1)) (hb : b ∈ G.connected.map (·.1)) (hab : b ≠ a) :
    ∃ m H G', G.lookAhead a = .ok (m, H) ∧ Same G H ∧ Inv H ∧ G.removeAndProcess a = .ok G' ∧ LeastFill G' m := by
  have hc := hI.simple
  obtain ⟨fs, hfs⟩ := Option.isSome_iff_exists.mp hf
  obtain ⟨hfn, hfk, _⟩ := hI.fills fs hfs
  obtain ⟨s, hs⟩ := (lookup_isSome_iff _ a).mpr ha
  obtain ⟨fa, hfa⟩ := (lookup_isSome_iff _ a).mpr ((hfk a).mpr ha)
  have hsn := hc.nodup a s hs
  have has : a ∉ s := fun h => hc.loopless a ⟨s, hs, h⟩
  have hnb : PrimalGraph.nbrs G.connected a = s := by simp [PrimalGraph.nbrs, hs]
  have hsk : ∀ u ∈ s, u ∈ G.connected.map (·.1) := fun u hu => (hc.symm a u ⟨s, hs, hu⟩).key
  obtain ⟨bc, b1, b2, b3⟩ := backup_spec (d := G.connected) s hsk
  obtain ⟨bf, d1, d2, d3⟩ := backup_spec (d := fs) s (fun u hu => (hfk u).mpr (hsk u hu))
  obtain ⟨G', fs', g1, g2, g3, _, g5, _⟩ := remove_raw hI hfs ha
  obtain ⟨e1, e2, _⟩ := g3.fills fs' g2.some_fills
  obtain ⟨m, hm⟩ : ∃ m, minimum (fs'.map (·.2.1)) = some m := minimum_total (by
    have hb' := (e2 b).mpr ((g5 b).mpr ⟨hb, hab⟩)
    intro h
    rw [List.map_eq_nil_iff] at h
    rw [h] at hb'
    simp at hb')
  have restored : ∀ {ν : Type} (D D' B : List (α × ν)) (v : ν), D.lookup a = some v → B.map (·.1) = s →
      (∀ x ∈ s, B.lookup x = D.lookup x) → (∀ x, x ≠ a → x ∉ s → D'.lookup x = D.lookup x) →
      ∀ x, (assocUpdate D' (assocSet B a v)).lookup x = D.lookup x := by
    intro ν D D' B v hv hB hBs hD x
    rw [assocUpdate_lookup _ _ (assocSet_nodup (by rw [hB]; exact hsn) _ _), lookup_assocSet]
    by_cases hxa : x = a
    · subst hxa; rw [if_pos rfl, hv]
    · rw [if_neg hxa]
      by_cases hxs : x ∈ s
      · rw [hBs x hxs]
        cases hl : D.lookup x with
        | some w => rfl
        | none =>
          exfalso
          have h1 := hBs x hxs
          rw [hl, lookup_eq_none, hB] at h1
          exact h1 hxs
      · rw [(lookup_eq_none B x).mpr (by rw [hB]; exact hxs)]
        exact hD x hxa hxs
  have hsame : Same G ({ G' with
      connected := assocUpdate G'.connected (assocSet bc a s)
      fills := some (assocUpdate fs' (assocSet bf a fa)) } : PrimalGraph α) := by
    refine ⟨fun x => (restored _ _ _ s hs b2 b3 ?_ x).symm, ⟨fs, _, hfs, rfl, fun x => (restored _ _ _ fa hfa d2 d3 ?_ x).symm⟩,
      g2.degs.symm⟩
    · intro x hxa hxs
      rw [g2.conn, hnb, if_neg hxa, if_neg hxs]
    · intro x hxa hxs
      rw [g2.fills, hnb, if_neg hxa, if_neg hxs]
  refine ⟨m, _, G', ?_, hsame, hI.of_same hsame (assocUpdate_nodup _ _ g2.keys) ?_, g1, ?_⟩
  · simp only [lookAhead, assocGet, hs, b1, hfs, d1, hfa, g1, g2.some_fills, hm]
  · rintro gs hgs
    cases hgs
    exact assocUpdate_nodup _ _ g2.fkeys
  · exact ⟨fs', g2.some_fills, (minimum_fills g2.fkeys).mp hm⟩

theorem lowestLoop_spec (vs : List α) {G G0 : PrimalGraph α} (hI0 : Inv G0) (hI : Inv G) (hs : Same G0 G) {b c : α}
    (hb : b ∈ G0.connected.map (·.1)) (hc : c ∈ G0.connected.map (·.1)) (hbc : b ≠ c)
    (hv : ∀ v ∈ vs, v ∈ G0.connected.map (·.1)) (done best : List α) (low : Option ℕ) (μ : α → ℕ)
    (hμ : ∀ v ∈ done ++ vs, ∃ G', G0.removeAndProcess v = .ok G' ∧ LeastFill G' (μ v))
    (hlow : match low with | none => done = [] | some l => (∃ v ∈ done, μ v = l) ∧ ∀ v ∈ done, l ≤ μ v)
    (hbest : ∀ v, v ∈ best ↔ v ∈ done ∧ ∀ w ∈ done, μ v ≤ μ w) :
    ∃ best' H, lowestLoop vs G low best = .ok (best', H) ∧ Same G0 H ∧ Inv H ∧
      ∀ v, v ∈ best' ↔ v ∈ done ++ vs ∧ ∀ w ∈ done ++ vs, μ v ≤ μ w := by
  induction vs generalizing G done best low with
  | nil => exact ⟨best, G, rfl, hs, hI, by simpa using hbest⟩
  | cons v vs ih =>
    have hvk := (hs.conn.keys v).mp (hv v (List.mem_cons_self ..))
    obtain ⟨d, hd, hdv⟩ : ∃ d ∈ G.connected.map (·.1), d ≠ v := by
      by_cases hbv : b = v
      · exact ⟨c, (hs.conn.keys c).mp hc, fun e => hbc (hbv.trans e.symm)⟩
      · exact ⟨b, (hs.conn.keys b).mp hb, hbv⟩
    obtain ⟨_, gs, _, hgs, _⟩ := hs.fills
    obtain ⟨m, H, G', h1, h2, h3, h4, h5⟩ := lookAhead_spec hI (by rw [hgs]; rfl) hvk hd hdv
    have hm : m = μ v := by
      obtain ⟨G0', k1, k2⟩ := hμ v (by simp)
      obtain ⟨A, B, a1, a2, a3⟩ := remove_same hI0 hI hs (hv v (List.mem_cons_self ..))
      rw [k1] at a1; cases a1
      rw [h4] at a2; cases a2
      exact h5.unique (k2.of_same a3)
    subst hm
    have key := fun low' best' hl hb => ih h3 (hs.trans h2) (fun w hw => hv w (List.mem_cons_of_mem _ hw)) (done ++ [v])
      best' low' (by simpa using hμ) hl hb
    simp only [List.append_assoc, List.cons_append, List.nil_append] at key
    simp only [lowestLoop, h1]
    cases low with
    | none =>
      simp only at hlow
      subst hlow
      exact key (some (μ v)) [v] (by simp) (by simp)
    | some l =>
      simp only at hlow ⊢
      obtain ⟨⟨w0, hw0, hw0l⟩, hle⟩ := hlow
      split
      · rename_i hlt
        refine key (some (μ v)) [v] ?_ ?_
        · refine ⟨⟨v, by simp, rfl⟩, fun w hw => ?_⟩
          rcases List.mem_append.mp hw with h | h
          · exact hlt.le.trans (hle w h)
          · rw [List.mem_singleton.mp h]
        · intro x
          simp only [List.mem_singleton, List.mem_append]
          constructor
          · rintro rfl
            refine ⟨.inr rfl, ?_⟩
            rintro w (h | rfl)
            · exact hlt.le.trans (hle w h)
            · exact le_rfl
          · rintro ⟨h | rfl, hmin⟩
            · have := hmin v (.inr rfl)
              have := hle x h
              omega
            · rfl
      · rename_i hlt
        split
        · rename_i heq
          refine key (some l) (best ++ [v]) ?_ ?_
          · refine ⟨⟨w0, by simp [hw0], hw0l⟩, fun w hw => ?_⟩
            rcases List.mem_append.mp hw with h | h
            · exact hle w h
            · rw [List.mem_singleton.mp h]; omega
          · intro x
            simp only [List.mem_append, List.mem_singleton, hbest]
            constructor
            · rintro (⟨h, hmin⟩ | rfl)
              · refine ⟨.inl h, ?_⟩
                rintro w (hw | rfl)
                · exact hmin w hw
                · have := hmin w0 hw0; omega
              · refine ⟨.inr rfl, ?_⟩
                rintro w (hw | rfl)
                · have := hle w hw; omega
                · exact le_rfl
            · rintro ⟨h | rfl, hmin⟩
              · exact .inl ⟨h, fun w hw => hmin w (.inl hw)⟩
              · exact .inr rfl
        · rename_i hne
          refine key (some l) best ?_ ?_
          · refine ⟨⟨w0, by simp [hw0], hw0l⟩, fun w hw => ?_⟩
            rcases List.mem_append.mp hw with h | h
            · exact hle w h
            · rw [List.mem_singleton.mp h]; omega
          · intro x
            simp only [List.mem_append, List.mem_singleton, hbest]
            constructor
            · rintro ⟨h, hmin⟩
              refine ⟨.inl h, ?_⟩
              rintro w (hw | rfl)
              · exact hmin w hw
              · have := hmin w0 hw0; omega
            · rintro ⟨h | rfl, hmin⟩
              · exact ⟨h, fun w hw => hmin w (.inl hw)⟩
              · have := hmin w0 (.inl hw0); omega

/-- Looking ahead never fails on two or more vertices, leaves the graph unchanged, and returns exactly the vertices
whose elimination leads to the least next fill. -/
theorem getLowestFutureMinfill_spec {G : PrimalGraph α} (hI : Inv G) (hf : G.fills.isSome) {vs : List α}
    (hv : ∀ v ∈ vs, v ∈ G.connected.map (·.1)) (hn : vs.Nodup) (h2 : 2 ≤ vs.length) :
    ∃ (μ : α → ℕ) (best : List α) (H : PrimalGraph α),
      (∀ v ∈ vs, ∃ G', G.removeAndProcess v = .ok G' ∧ LeastFill G' (μ v)) ∧
      G.getLowestFutureMinfill vs = .ok (best, H) ∧ Same G H ∧ Inv H ∧
      ∀ v, v ∈ best ↔ v ∈ vs ∧ ∀ w ∈ vs, μ v ≤ μ w := by
  obtain ⟨b, c, rest, rfl⟩ : ∃ b c rest, vs = b :: c :: rest := by
    match vs, h2 with
    | b :: c :: rest, _ => exact ⟨b, c, rest, rfl⟩
  have hbc : b ≠ c := fun e => by rw [e] at hn; simp at hn
  have hb := hv b (by simp)
  have hc := hv c (by simp)
  have hex : ∀ v, ∃ m, v ∈ b :: c :: rest → ∃ G', G.removeAndProcess v = .ok G' ∧ LeastFill G' m := by
    intro v
    by_cases hvm : v ∈ b :: c :: rest
    · obtain ⟨d, hd, hdv⟩ : ∃ d ∈ G.connected.map (·.1), d ≠ v := by
        by_cases hbv : b = v
        · exact ⟨c, hc, fun e => hbc (hbv.trans e.symm)⟩
        · exact ⟨b, hb, hbv⟩
      obtain ⟨m, H, G', _, _, _, h4, h5⟩ := lookAhead_spec hI hf (hv v hvm) hd hdv
      exact ⟨m, fun _ => ⟨G', h4, h5⟩⟩
    · exact ⟨0, fun h => absurd h hvm⟩
  choose μ hμ using hex
  obtain ⟨fs, hfs⟩ := Option.isSome_iff_exists.mp hf
  obtain ⟨best, H, k1, k2, k3, k4⟩ := lowestLoop_spec (b :: c :: rest) hI hI
    ⟨fun _ => rfl, ⟨fs, fs, hfs, hfs, fun _ => rfl⟩, rfl⟩ hb hc hbc hv [] [] none μ (by simpa using hμ) rfl (by simp)
  refine ⟨μ, best, H, hμ, ?_, k2, k3, by simpa using k4⟩
  rw [getLowestFutureMinfill, if_neg (by simp), k1]

/-- `get_minfills` returns exactly the vertices with the least stored fill. -/
theorem getMinfills_spec {G : PrimalGraph α} (hI : Inv G) (hf : G.fills.isSome) (hne : G.connected ≠ []) :
    ∃ vs m, G.getMinfills = .ok vs ∧ LeastFill G m ∧
      ∀ fs, G.fills = some fs → ∀ v, v ∈ vs ↔ ∃ f, fs.lookup v = some f ∧ f.1 = m := by
  obtain ⟨fs, hfs⟩ := Option.isSome_iff_exists.mp hf
  obtain ⟨i1, i2, _⟩ := hI.fills fs hfs
  obtain ⟨m, hm⟩ : ∃ m, minimum (fs.map (·.2.1)) = some m := minimum_total (by
    obtain ⟨p, hp⟩ := List.exists_mem_of_ne_nil _ hne
    have := (i2 p.1).mpr (List.mem_map_of_mem (f := (·.1)) hp)
    intro h
    rw [List.map_eq_nil_iff] at h
    rw [h] at this
    simp at this)
  refine ⟨_, m, by simp only [getMinfills, hfs, hm]; rfl, ⟨fs, hfs, (minimum_fills i1).mp hm⟩, ?_⟩
  intro fs' hfs' v
  rw [hfs] at hfs'; cases hfs'
  simp only [List.mem_map, List.mem_filter, decide_eq_true_eq]
  constructor
  · rintro ⟨⟨w, f⟩, ⟨hp, hfm⟩, rfl⟩
    exact ⟨f, assoc_of_mem i1 hp, hfm⟩
  · rintro ⟨f, h1, h2⟩
    exact ⟨(v, f), ⟨mem_of_assoc h1, h2⟩, rfl⟩

/-- `remove_node` deletes the vertex and its edges and nothing else, with or without stored fills. -/
theorem removeNode_spec {G : PrimalGraph α} (hI : Inv G) {a : α} (ha : a ∈ G.connected.map (·.1)) :
    ∃ G', G.removeNode a = .ok G' ∧ Inv G' ∧ G'.fills.isSome = G.fills.isSome ∧
      (∀ u v, Adj G'.connected u v ↔ u ≠ a ∧ v ≠ a ∧ Adj G.connected u v) ∧
      ∀ v, v ∈ G'.connected.map (·.1) ↔ v ∈ G.connected.map (·.1) ∧ v ≠ a := by
  have hc := hI.simple
  obtain ⟨s, hs⟩ := (lookup_isSome_iff _ a).mpr ha
  have hsn := hc.nodup a s hs
  have has : a ∉ s := fun h => hc.loopless a ⟨s, hs, h⟩
  have hl0 : ∀ x, (assocDel G.connected a).lookup x = if x = a then none else G.connected.lookup x :=
    lookup_assocDel hc.keys a
  have hk0 : ∀ u ∈ s, u ∈ (assocDel G.connected a).map (·.1) := by
    intro u hu
    rw [← lookup_isSome_iff]
    rw [hl0, if_neg (fun e : u = a => has (e ▸ hu))]
    exact (lookup_isSome_iff _ u).mpr (hc.symm a u ⟨s, hs, hu⟩).key
  obtain ⟨c1, h1, k1, l1, m1⟩ := assocModifyAll_spec (id : α → α) (fun _ t => t.filter (· ≠ a)) s
    (assocDel G.connected a) hk0 (by simpa using hsn)
  have hsk : ∀ v ∈ s, v ∈ c1.map (·.1) := fun v hv => by rw [k1]; exact hk0 v hv
  have hlook : ∀ x, c1.lookup x = if x = a then none else (G.connected.lookup x).map fun t => t.filter (· ≠ a) := by
    intro x
    by_cases hxa : x = a
    · subst hxa
      rw [l1 x (by simpa using has), hl0, if_pos rfl, if_pos rfl]
    · rw [if_neg hxa]
      by_cases hxs : x ∈ s
      · obtain ⟨t, ht⟩ := (lookup_isSome_iff _ x).mpr (hc.symm a x ⟨s, hs, hxs⟩).key
        have hx1 := m1 x hxs t (by rw [id, hl0, if_neg hxa, ht])
        simp only [id_eq] at hx1
        rw [hx1, ht]; rfl
      · rw [l1 x (by simpa using hxs), hl0, if_neg hxa]
        cases ht : G.connected.lookup x with
        | none => rfl
        | some t =>
          rw [Option.map_some, filter_ne_eq_self]
          intro hat
          obtain ⟨s', hs', h⟩ := hc.symm x a ⟨t, ht, hat⟩
          rw [hs] at hs'; cases hs'
          exact hxs h
  have hadj : ∀ u v, Adj c1 u v ↔ u ≠ a ∧ v ≠ a ∧ Adj G.connected u v := by
    intro u v
    unfold Adj
    rw [hlook]
    by_cases hua : u = a
    · simp [hua]
    · rw [if_neg hua]
      cases G.connected.lookup u with
      | none => simp
      | some t => simp [hua, and_comm]
  have hkeys : ∀ v, v ∈ c1.map (·.1) ↔ v ∈ G.connected.map (·.1) ∧ v ≠ a := by
    intro v
    rw [k1, ← lookup_isSome_iff, hl0, ← lookup_isSome_iff]
    split <;> simp_all
  have hsimple : Simple c1 := by
    refine ⟨by rw [k1]; exact assocDel_nodup hc.keys a, ?_, ?_, ?_⟩
    · intro u t ht
      rw [hlook] at ht
      split at ht
      · cases ht
      · obtain ⟨t0, ht0, rfl⟩ := Option.map_eq_some_iff.mp ht
        exact (hc.nodup u t0 ht0).filter _
    · intro u h
      exact hc.loopless u ((hadj u u).mp h).2.2
    · intro u v h
      rw [hadj] at h ⊢
      exact ⟨h.2.1, h.1, hc.symm u v h.2.2⟩
  obtain ⟨G1, h2, g1, g2, _⟩ := refreshDegrees_spec ({ G with connected := c1 } : PrimalGraph α) s hsk
  cases hf : G.fills with
  | none =>
    rw [hf] at h2 g2
    refine ⟨G1, ?_, ⟨by rw [g1]; exact hsimple, fun fs hfs => by rw [g2] at hfs; cases hfs⟩, by rw [g2],
      by rw [g1]; exact hadj, by rw [g1]; exact hkeys⟩
    simp only [removeNode, assocGet, hs, h1, hf, h2, g2]
  | some fs =>
    obtain ⟨hfn, hfk, hcov⟩ := hI.fills fs hf
    obtain ⟨fa, hfa⟩ := (lookup_isSome_iff _ a).mpr ((hfk a).mpr ha)
    obtain ⟨fs', h3, n3, l3, m3⟩ := fillLoop_spec hsimple s (assocDel fs a) hsk (assocDel_nodup hfn a)
    rw [hf] at h2 g2
    refine ⟨{ G1 with fills := some fs' }, ?_, ⟨by rw [g1]; exact hsimple, ?_⟩, rfl, by rw [g1]; exact hadj,
      by rw [g1]; exact hkeys⟩
    · simp only [removeNode, assocGet, hs, h1, hf, h2, g2, hfa, computeFills, g1, h3]
    · rintro fs'' hfs''
      cases hfs''
      simp only [g1]
      refine ⟨n3, ?_, ?_⟩
      · intro v
        rw [hkeys, ← lookup_isSome_iff]
        by_cases hvs : v ∈ s
        · obtain ⟨f, _, hl⟩ := m3 v hvs
          rw [hl]
          simp only [Option.some.injEq, exists_eq', true_iff]
          exact ⟨(hc.symm a v ⟨s, hs, hvs⟩).key, fun e => has (e ▸ hvs)⟩
        · rw [l3 v hvs, lookup_assocDel hfn]
          by_cases hva : v = a
          · simp [hva]
          · rw [if_neg hva, lookup_isSome_iff, hfk]
            simp [hva]
      · intro w f t hw ht
        by_cases hws : w ∈ s
        · obtain ⟨f', hf', hcov', _⟩ := fillOf_spec hsimple ht
          obtain ⟨f'', hf'', hl⟩ := m3 w hws
          rw [hl] at hw; cases hw
          rw [hf''] at hf'; cases hf'
          exact hcov'
        · rw [l3 w hws, lookup_assocDel hfn] at hw
          by_cases hwa : w = a
          · rw [if_pos hwa] at hw; cases hw
          · rw [if_neg hwa] at hw
            rw [l1 w (by simpa using hws), hl0, if_neg hwa] at ht
            have hcw := hcov w f t hw ht
            refine ⟨hcw.count, hcw.sources, hcw.within, ?_⟩
            intro u hu v hv hne
            have hnota : ∀ x ∈ t, x ≠ a := by
              rintro x hx rfl
              obtain ⟨s', hs', h⟩ := hc.symm w x ⟨t, ht, hx⟩
              rw [hs] at hs'; cases hs'
              exact hws h
            exact (hcw.complete u hu v hv hne).imp (fun h => (hadj u v).mpr ⟨hnota u hu, hnota v hv, h⟩) id

/-! ## What goes wrong without stored fills, and with degrees -/

/-- Without stored fills, eliminating a vertex also connects every neighbour to itself. -/
theorem remove_without_fills {G : PrimalGraph α} (hc : Simple G.connected) (hf : G.fills = none) {a : α}
    (ha : a ∈ G.connected.map (·.1)) :
    ∃ G', G.removeAndProcess a = .ok G' ∧
      ∀ u v, Adj G'.connected u v ↔ u ≠ a ∧ v ≠ a ∧ (Adj G.connected u v ∨ (Adj G.connected u a ∧ Adj G.connected a v)) := by
  obtain ⟨s, hs⟩ := (lookup_isSome_iff _ a).mpr ha
  have hsn := hc.nodup a s hs
  have has : a ∉ s := fun h => hc.loopless a ⟨s, hs, h⟩
  have hl0 : ∀ x, (assocDel G.connected a).lookup x = if x = a then none else G.connected.lookup x :=
    lookup_assocDel hc.keys a
  have hk0 : ∀ u ∈ s, u ∈ (assocDel G.connected a).map (·.1) := by
    intro u hu
    rw [← lookup_isSome_iff]
    rw [hl0, if_neg (fun e : u = a => has (e ▸ hu))]
    exact (lookup_isSome_iff _ u).mpr (hc.symm a u ⟨s, hs, hu⟩).key
  obtain ⟨c1, h1, k1, l1, m1⟩ := assocModifyAll_spec (id : α → α) (fun _ t => (t ∪ s).filter (· ≠ a)) s
    (assocDel G.connected a) hk0 (by simpa using hsn)
  obtain ⟨G', h2, g1, _⟩ := refreshDegrees_spec ({ G with connected := c1 } : PrimalGraph α) s (fun v hv => by
    change v ∈ c1.map (·.1); rw [k1]; exact hk0 v hv)
  rw [hf] at h2
  refine ⟨G', by simp only [removeAndProcess, assocGet, hs, hf, h1, h2], fun u v => ?_⟩
  rw [g1]
  change Adj c1 u v ↔ _
  by_cases hua : u = a
  · subst hua
    have : ¬ Adj c1 u v := by
      rintro ⟨t, ht, _⟩
      rw [l1 u (by simpa using has), hl0, if_pos rfl] at ht
      cases ht
    simp [this]
  · by_cases hus : u ∈ s
    · have hRua : Adj G.connected u a := hc.symm a u ⟨s, hs, hus⟩
      obtain ⟨t, ht⟩ := (lookup_isSome_iff _ u).mpr hRua.key
      have hx := m1 u hus t (by rw [id, hl0, if_neg hua, ht])
      simp only [id_eq] at hx
      have e1 : Adj c1 u v ↔ (v ∈ t ∨ v ∈ s) ∧ v ≠ a := by
        unfold Adj; rw [hx]; simp [List.mem_union_iff]
      have e2 : Adj G.connected u v ↔ v ∈ t := by unfold Adj; rw [ht]; simp
      have e3 : Adj G.connected a v ↔ v ∈ s := by unfold Adj; rw [hs]; simp
      rw [e1, e2, e3]
      tauto
    · have hnua : ¬ Adj G.connected u a := fun h => by
        obtain ⟨s', hs', h'⟩ := hc.symm u a h
        rw [hs] at hs'; cases hs'
        exact hus h'
      have e1 : Adj c1 u v ↔ Adj G.connected u v := by
        unfold Adj; rw [l1 u (by simpa using hus), hl0, if_neg hua]
      rw [e1]
      constructor
      · intro h; exact ⟨hua, fun e => hnua (e ▸ h), .inl h⟩
      · rintro ⟨_, _, h | ⟨h, _⟩⟩
        · exact h
        · exact absurd h hnua

/-- So the claim fails for graphs that do not store fills: every neighbour of the eliminated vertex gets a loop … -/
theorem remove_without_fills_loops {G : PrimalGraph α} (hc : Simple G.connected) (hf : G.fills = none) {a b : α}
    (hab : Adj G.connected a b) : ∃ G', G.removeAndProcess a = .ok G' ∧ ¬ Simple G'.connected := by
  obtain ⟨G', h1, h2⟩ := remove_without_fills hc hf hab.key
  refine ⟨G', h1, fun h => h.loopless b ((h2 b b).mpr ?_)⟩
  have : b ≠ a := fun e => hc.loopless a (e ▸ hab)
  exact ⟨this, this, .inr ⟨hc.symm a b hab, hab⟩⟩

/-- … and eliminating the two ends of an edge raises KeyError (here on the path 1 – 2). -/
theorem remove_without_fills_raises :
    (do let G ← interaction [1, 2] [[1, 2]] false false; removeAll [1, 2] G : Except PyErr (PrimalGraph ℕ)) = .error .keyError := by
  rfl

/-- Eliminated vertices stay among the vertices of least degree: on the path 1 – 2 – 3, after eliminating vertex 1 the
eliminated vertex 1 is still reported … -/
theorem mindegrees_keeps_removed :
    (do let G ← interaction [1, 2, 3] [[1, 2], [2, 3]] true true
        let G ← G.computeAllFills
        let G ← G.computeDegrees [1, 2, 3]
        let G ← G.removeAndProcess 1
        G.getMindegrees : Except PyErr (List ℕ)) = .ok [1, 2, 3] := by
  rfl

/-- … and looking ahead does not restore the degrees. -/
theorem lookAhead_degrees :
    (do let G ← interaction [1, 2, 3] [[1, 2], [2, 3]] true true
        let G ← G.computeAllFills
        let G ← G.computeDegrees [1, 2, 3]
        let (_, H) ← G.lookAhead 1
        pure (G.degrees, H.degrees) : Except PyErr (Option (List (ℕ × ℕ)) × Option (List (ℕ × ℕ)))) =
      .ok (some [(1, 1), (2, 2), (3, 1)], some [(1, 1), (2, 1), (3, 1)]) := by
  rfl

/-- Fills of vertices that are not neighbours of the eliminated vertex are not updated: on the 4-cycle 1-2-3-4, after
eliminating 1 nothing is missing at 3, but its stored fill is still 2. -/
theorem stale_fill :
    (do let G ← interaction [1, 2, 3, 4] [[1, 2], [2, 3], [3, 4], [4, 1]] true false
        let G ← G.computeAllFills
        let G ← G.removeAndProcess 1
        pure ((G.fills.bind (·.lookup 3)).map (·.1), (missingPairs G.connected (nbrs G.connected 3)).length) :
          Except PyErr (Option ℕ × ℕ)) = .ok (some 2, 0) := by
  rfl

/-- A concrete graph meeting the hypotheses: the 4-cycle with its fills. -/
theorem sampleGraph : ∃ G : PrimalGraph ℕ,
      (interaction [1, 2, 3, 4] [[1, 2], [2, 3], [3, 4], [4, 1]] true false >>= computeAllFills) = .ok G ∧ Inv G ∧ G.fills.isSome ∧ (∀ v ∈ [1, 2, 3, 4], v ∈ G.connected.map (·.1)) ∧
      Adj G.connected 1 2 ∧ ¬ Adj G.connected 1 3 := by
  obtain ⟨G, h1, h2, h3, h4⟩ := interaction_spec [1, 2, 3, 4] [[1, 2], [2, 3], [3, 4], [4, 1]] true false (by decide)
  have hf : G.fills = some [] := by
    have : interaction [1, 2, 3, 4] [[1, 2], [2, 3], [3, 4], [4, 1]] true false =
        .ok ⟨[(1, [2, 4]), (2, [1, 3]), (3, [2, 4]), (4, [3, 1])], some [], none⟩ := rfl
    rw [this] at h1; cases h1; rfl
  obtain ⟨G', fs, k1, k2, k3, k4, _⟩ := computeAllFills_spec h3 hf
  refine ⟨G', ?_, k4, by rw [k2]; rfl, fun v hv => by rw [k3]; exact (h2 v).mpr hv, ?_, ?_⟩
  · rw [h1]; exact k1
  · rw [k3, h4]; decide
  · rw [k3, h4]; decide

end PrimalGraph
end Pywmi
