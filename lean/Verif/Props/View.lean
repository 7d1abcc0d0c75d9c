import Verif.Xadd.View
import Verif.Props.XaddExamples

set_option linter.unusedSectionVars false
set_option linter.unusedSimpArgs false

/-!
# C89: drawings of pyxadd diagrams
-/

namespace Pywmi
open Formula

section
variable {E : Type} [DecidableEq E] {X : XCtx E} {ev : E → (String → ℝ) → ℝ} {Γ : String → Ty}

/-! ### Specification -/

/-- SPEC: the ids of the nodes that are drawn, one for each line. -/
def viewNodes (L : List (ViewLine E)) : List ℕ := L.filterMap fun | .node n _ _ _ => some n | _ => none
/-- SPEC: the edges that are drawn, one for each line. -/
def viewEdges (L : List (ViewLine E)) : List (ℕ × ℕ × Bool) := L.filterMap fun | .edge a b s => some (a, b, s) | _ => none
/-- SPEC: the groups of nodes on the same height, one for each line. -/
def viewRanks (L : List (ViewLine E)) : List (List ℕ) := L.filterMap fun | .rank l => some l | _ => none

/-- SPEC: there is a path of this length from the root to the node. -/
inductive PathLen (p : Pool E) (root : ℕ) : ℕ → ℕ → Prop
  | root : PathLen p root root 0
  | step {m c k : ℕ} : PathLen p root m k → Child p m c → PathLen p root c (k + 1)

/-- SPEC: the length of the longest paths from the root to the node. -/
def DepthOf (p : Pool E) (root n k : ℕ) : Prop := PathLen p root n k ∧ ∀ j, PathLen p root n j → j ≤ k

/-- SPEC: what a person reads in a drawing when starting at a node: from boxes the value that is written there, from other nodes the
solid edge if the test is true and the dashed edge otherwise. -/
inductive ReadView (ev : E → (String → ℝ) → ℝ) (L : List (ViewLine E)) (σ : Env ℝ) : ℕ → ℝ → Prop
  | expr {n : ℕ} {w : Bool} {e : E} : .node n w (.expr e) true ∈ L → ReadView ev L σ n (ev e σ.r)
  | int {n : ℕ} {w : Bool} {z : ℤ} : .node n w (.int z) true ∈ L → ReadView ev L σ n z
  | solid {n : ℕ} {w pr : Bool} {d : Decision} {t : ℕ} {v : ℝ} : .node n w (.decision d pr) false ∈ L → truth σ d.test = true →
      .edge n t false ∈ L → ReadView ev L σ t v → ReadView ev L σ n v
  | dashed {n : ℕ} {w pr : Bool} {d : Decision} {f : ℕ} {v : ℝ} : .node n w (.decision d pr) false ∈ L → truth σ d.test = false →
      .edge n f true ∈ L → ReadView ev L σ f v → ReadView ev L σ n v

/-- SPEC: `float` returns the value of an expression whenever it returns an integer. -/
def FloatExact (ev : E → (String → ℝ) → ℝ) (fl : E → FloatRes) (e : E) : Prop :=
  ∀ q : ℚ, fl e = .num q → q.den = 1 → ∀ ρ, ev e ρ = (q : ℝ)

/-! ### Layers -/

theorem lookup_addLayer (d : List (ℕ × List ℕ)) (i n j : ℕ) :
    (addLayer d i n).lookup j = if j = i then some ((d.lookup i).getD [] ++ [n]) else d.lookup j := by
  induction d with
  | nil =>
    simp only [addLayer, List.lookup_cons, List.lookup_nil]
    by_cases hj : j = i
    · subst hj; simp
    · have : (j == i) = false := by simpa using hj
      simp [this, hj]
  | cons q d ih =>
    obtain ⟨k, l⟩ := q
    simp only [addLayer]
    by_cases h : k = i
    · subst h
      rw [if_pos rfl, List.lookup_cons, List.lookup_cons, List.lookup_cons]
      by_cases hj : j = k
      · subst hj; simp
      · have : (j == k) = false := by simpa using hj
        simp [this, hj]
    · rw [if_neg h, List.lookup_cons, List.lookup_cons, List.lookup_cons, ih]
      have h1 : (i == k) = false := by simpa using fun e : i = k => h e.symm
      by_cases hj : j = k
      · subst hj; simp [h]
      · have : (j == k) = false := by simpa using hj
        simp [this, h1]

theorem keys_addLayer (d : List (ℕ × List ℕ)) (i n j : ℕ) : j ∈ (addLayer d i n).map (·.1) ↔ j = i ∨ j ∈ d.map (·.1) := by
  induction d with
  | nil => simp [addLayer]
  | cons q d ih =>
    obtain ⟨k, l⟩ := q
    simp only [addLayer]
    by_cases h : k = i
    · subst h; simp
    · rw [if_neg h, List.map_cons, List.map_cons, List.mem_cons, List.mem_cons, ih]; tauto

theorem nodup_addLayer {d : List (ℕ × List ℕ)} (hd : (d.map (·.1)).Nodup) (i n : ℕ) : ((addLayer d i n).map (·.1)).Nodup := by
  induction d with
  | nil => simp [addLayer]
  | cons q d ih =>
    obtain ⟨k, l⟩ := q
    simp only [List.map_cons, List.nodup_cons] at hd
    simp only [addLayer]
    by_cases h : k = i
    · subst h; simpa using hd
    · rw [if_neg h, List.map_cons, List.nodup_cons, keys_addLayer]
      exact ⟨by rintro (h' | h'); exacts [h h', hd.1 h'], ih hd.2⟩

theorem perm_addLayer (d : List (ℕ × List ℕ)) (i n : ℕ) : ((addLayer d i n).flatMap (·.2)).Perm (d.flatMap (·.2) ++ [n]) := by
  induction d with
  | nil => simp [addLayer]
  | cons q d ih =>
    obtain ⟨k, l⟩ := q
    simp only [addLayer]
    by_cases h : k = i
    · rw [if_pos h, List.flatMap_cons, List.flatMap_cons, List.append_assoc, List.append_assoc]
      exact List.Perm.append_left _ List.perm_append_comm
    · rw [if_neg h, List.flatMap_cons, List.flatMap_cons, List.append_assoc]
      exact List.Perm.append_left _ ih

/-- What the dictionary of layers holds. -/
structure LayerOk (pos : List (ℕ × ℕ)) (d : List (ℕ × List ℕ)) : Prop where
  nodup : (d.map (·.1)).Nodup
  perm : (d.flatMap (·.2)).Perm (pos.map (·.1))
  at_ : ∀ i n, (n, i) ∈ pos ↔ ∃ l, (i, l) ∈ d ∧ n ∈ l

theorem layerDict_ok (pos : List (ℕ × ℕ)) : LayerOk pos (layerDict pos) := by
  induction pos using List.reverseRecOn with
  | nil => exact ⟨by simp [layerDict], by simp [layerDict], by simp [layerDict]⟩
  | append_singleton pos q ih =>
    obtain ⟨n, i⟩ := q
    have e : layerDict (pos ++ [(n, i)]) = addLayer (layerDict pos) i n := by simp [layerDict]
    rw [e]
    have hn := nodup_addLayer ih.nodup i n
    refine ⟨hn, ?_, ?_⟩
    · refine (perm_addLayer _ i n).trans ?_
      rw [List.map_append]
      exact List.Perm.append_right _ ih.perm
    · intro j m
      have hl : ∀ l, (j, l) ∈ addLayer (layerDict pos) i n ↔ (addLayer (layerDict pos) i n).lookup j = some l :=
        fun l => ⟨lookup_of_mem_nat hn, mem_of_lookup_nat⟩
      have hl' : ∀ l k, (k, l) ∈ layerDict pos ↔ (layerDict pos).lookup k = some l :=
        fun l k => ⟨lookup_of_mem_nat ih.nodup, mem_of_lookup_nat⟩
      simp only [hl, lookup_addLayer, List.mem_append, List.mem_singleton, Prod.mk.injEq, ih.at_, hl']
      by_cases hj : j = i
      · subst hj
        simp only [if_pos, Option.some.injEq, exists_eq_left', List.mem_append, List.mem_singleton, and_true]
        cases hlk : (layerDict pos).lookup j with
        | none => simp
        | some l => simp
      · simp [hj]

/-! ### The lines -/

/-- What is drawn for a node when nothing is raised. -/
def linesOf (p : Pool E) (fl : E → FloatRes) (pretty ids : Bool) (n : ℕ) : List (ViewLine E) :=
  match nodeLines p fl pretty ids n with
  | .ok l => l
  | .error _ => []

/-- No leaf of the diagram is printed as a number too large for a float. -/
def NoOverflow (p : Pool E) (root : ℕ) (fl : E → FloatRes) : Prop := ∀ n e, Reach p root n → p.node n = some (.leaf e) → fl e ≠ .inf

theorem leafLabel_cases (fl : E → FloatRes) (e : E) :
    (leafLabel fl e = .error .other ∧ fl e = .inf) ∨ (leafLabel fl e = .ok (.expr e) ∧ fl e ≠ .inf) ∨
      ∃ q, leafLabel fl e = .ok (.int q.num) ∧ fl e = .num q ∧ q.den = 1 := by
  unfold leafLabel
  cases h : fl e with
  | notFloat => simp
  | nan => simp
  | inf => simp
  | num q =>
    by_cases hq : q.den = 1
    · exact Or.inr (Or.inr ⟨q, by simp [hq], rfl, hq⟩)
    · simp [hq]

theorem nodeLines_ok {p : Pool E} {fl : E → FloatRes} {pretty ids : Bool} {n : ℕ} (hn : (p.node n).isSome)
    (hf : ∀ e, p.node n = some (.leaf e) → fl e ≠ .inf) : nodeLines p fl pretty ids n = .ok (linesOf p fl pretty ids n) := by
  obtain ⟨x, hx⟩ := Option.isSome_iff_exists.mp hn
  cases x with
  | inner d t f => simp [linesOf, nodeLines, hx]
  | leaf e =>
    rcases leafLabel_cases fl e with ⟨-, h⟩ | ⟨h, -⟩ | ⟨q, h, -⟩
    · exact absurd h (hf e hx)
    · simp [linesOf, nodeLines, hx, h]
    · simp [linesOf, nodeLines, hx, h]

theorem viewLayers_ok {p : Pool E} (hp : Core X p) {root : ℕ} (hr : (p.node root).isSome) :
    ∃ pos, viewLayers p root = .ok (layerDict pos) ∧ Layers p root pos := by
  obtain ⟨par, h1, h2, h3, h4⟩ := parentsOf_ok hp hr
  obtain ⟨s, h5, h6⟩ := layers_ok hp hr ⟨h2, h3, h4⟩
  exact ⟨s.pos, by simp [viewLayers, h1, h5], h6⟩

/-- The lines of a whole drawing. -/
def allLines (p : Pool E) (fl : E → FloatRes) (pretty ids : Bool) (d : List (ℕ × List ℕ)) : List (ViewLine E) :=
  d.flatMap fun q => q.2.flatMap (linesOf p fl pretty ids) ++ [.rank q.2]

theorem viewDot_lines {p : Pool E} (hp : Core X p) {root : ℕ} (hr : (p.node root).isSome) {fl : E → FloatRes}
    (hf : NoOverflow p root fl) (pretty ids : Bool) :
    ∃ pos, viewDot p root fl pretty ids = .ok (allLines p fl pretty ids (layerDict pos)) ∧ Layers p root pos := by
  obtain ⟨pos, h1, h2⟩ := viewLayers_ok hp hr
  refine ⟨pos, ?_, h2⟩
  have hd := layerDict_ok pos
  have hreach : ∀ q ∈ layerDict pos, ∀ n ∈ q.2, Reach p root n := by
    intro q hq n hn
    have := hd.perm.mem_iff.mp (List.mem_flatMap.mpr ⟨q, hq, hn⟩)
    exact (h2.keys n).mp this
  have hl : ∀ q ∈ layerDict pos, layerLines p fl pretty ids q =
      .ok (q.2.flatMap (linesOf p fl pretty ids) ++ [.rank q.2]) := by
    intro q hq
    have := Prog.mapE_ok (g := nodeLines p fl pretty ids) (h := linesOf p fl pretty ids) (as := q.2) fun n hn =>
      nodeLines_ok (hp.reach_some hr (hreach q hq n hn)) fun e he => hf n e (hreach q hq n hn) he
    simp [layerLines, this, List.flatMap_def]
  have := Prog.mapE_ok (g := layerLines p fl pretty ids) hl
  simp [viewDot, h1, this, allLines, List.flatMap_def]

theorem mem_allLines_node {p : Pool E} {fl : E → FloatRes} {pretty ids : Bool} {d : List (ℕ × List ℕ)} {x : ViewLine E}
    (hx : ∀ l, x ≠ .rank l) : x ∈ allLines p fl pretty ids d ↔ ∃ n ∈ d.flatMap (·.2), x ∈ linesOf p fl pretty ids n := by
  simp only [allLines, List.mem_flatMap, List.mem_append, List.mem_singleton]
  constructor
  · rintro ⟨q, hq, ⟨n, hn, h⟩ | h⟩
    · exact ⟨n, ⟨q, hq, hn⟩, h⟩
    · exact absurd h (hx _)
  · rintro ⟨n, ⟨q, hq, hn⟩, h⟩
    exact ⟨q, hq, Or.inl ⟨n, hn, h⟩⟩

theorem linesOf_node {p : Pool E} {fl : E → FloatRes} {pretty ids : Bool} {n : ℕ} (hn : (p.node n).isSome)
    (hf : ∀ e, p.node n = some (.leaf e) → fl e ≠ .inf) :
    (∃ d t f, p.node n = some (.inner d t f) ∧
      linesOf p fl pretty ids n = [.node n ids (.decision d pretty) false, .edge n t false, .edge n f true]) ∨
    ∃ e l, p.node n = some (.leaf e) ∧ linesOf p fl pretty ids n = [.node n ids l true] ∧
      (l = .expr e ∨ ∃ q, l = .int q.num ∧ fl e = .num q ∧ q.den = 1) := by
  obtain ⟨x, hx⟩ := Option.isSome_iff_exists.mp hn
  cases x with
  | inner d t f => exact Or.inl ⟨d, t, f, hx, by simp [linesOf, nodeLines, hx]⟩
  | leaf e =>
    right
    rcases leafLabel_cases fl e with ⟨-, h⟩ | ⟨h, -⟩ | ⟨q, h, h', h''⟩
    · exact absurd h (hf e hx)
    · exact ⟨e, _, hx, by simp [linesOf, nodeLines, hx, h], Or.inl rfl⟩
    · exact ⟨e, _, hx, by simp [linesOf, nodeLines, hx, h], Or.inr ⟨q, rfl, h', h''⟩⟩

theorem filterMap_flatMap' {α β γ : Type} (g : β → Option γ) (f : α → List β) (l : List α) :
    (l.flatMap f).filterMap g = l.flatMap fun a => (f a).filterMap g := by
  induction l with
  | nil => rfl
  | cons a l ih => simp [List.flatMap_cons, List.filterMap_append, ih]

theorem view_forall₂_left {α β : Type} {P : α → β → Prop} {as : List α} {bs : List β} (h : List.Forall₂ P as bs) {a : α} (ha : a ∈ as) :
    ∃ b ∈ bs, P a b := by
  induction h with
  | nil => cases ha
  | cons h _ ih =>
    rcases List.mem_cons.mp ha with rfl | ha
    · exact ⟨_, by simp, h⟩
    · obtain ⟨b, hb, h'⟩ := ih ha
      exact ⟨b, by simp [hb], h'⟩

theorem filterMap_nodup_eq {α β : Type} {g : α → Option β} {l : List α} (h : (l.filterMap g).Nodup) {x y : α} {b : β} (hx : x ∈ l) (hy : y ∈ l)
    (h1 : g x = some b) (h2 : g y = some b) : x = y := by
  induction l with
  | nil => cases hx
  | cons a l ih =>
    have hmem : ∀ z ∈ l, g z = some b → b ∈ l.filterMap g := fun z hz hg => List.mem_filterMap.mpr ⟨z, hz, hg⟩
    rcases List.mem_cons.mp hx with rfl | hx' <;> rcases List.mem_cons.mp hy with rfl | hy'
    · rfl
    · rw [List.filterMap_cons_some h1, List.nodup_cons] at h
      exact absurd (hmem y hy' h2) h.1
    · rw [List.filterMap_cons_some h2, List.nodup_cons] at h
      exact absurd (hmem x hx' h1) h.1
    · refine ih ?_ hx' hy'
      cases hg : g a with
      | none => rwa [List.filterMap_cons_none hg] at h
      | some c => rw [List.filterMap_cons_some hg, List.nodup_cons] at h; exact h.2

/-! ### Depths -/

theorem layers_depth {p : Pool E} {root : ℕ} {pos : List (ℕ × ℕ)} (h : Layers p root pos) (n k : ℕ) :
    (n, k) ∈ pos ↔ DepthOf p root n k := by
  have hreach : ∀ n k, PathLen p root n k → Reach p root n := by
    intro n k hk
    induction hk with
    | root => exact .root
    | step _ hc ih => exact .step ih hc
  have hval : ∀ n, Reach p root n → ∃ a, (n, a) ∈ pos := by
    intro n hn
    simpa using (h.keys n).mpr hn
  have hle : ∀ n j, PathLen p root n j → ∀ k, (n, k) ∈ pos → j ≤ k := by
    intro n j hj
    induction hj with
    | root => intro k _; exact Nat.zero_le _
    | @step m c j hm hc ih =>
      intro k hk
      obtain ⟨a, ha⟩ := hval m (hreach m j hm)
      have h1 := ih a ha
      have h2 := h.edge m c a k hc ha hk
      omega
  have hpath : ∀ k n, (n, k) ∈ pos → PathLen p root n k := by
    intro k
    induction k with
    | zero =>
      intro n hn
      rcases h.path n 0 hn with ⟨rfl, -⟩ | ⟨m, a, -, -, h0⟩
      · exact .root
      · omega
    | succ k ih =>
      intro n hn
      rcases h.path n (k + 1) hn with ⟨-, h0⟩ | ⟨m, a, hc, ha, h0⟩
      · omega
      · have : a = k := by omega
        subst this
        exact .step (ih m ha) hc
  constructor
  · intro hn
    exact ⟨hpath k n hn, fun j hj => hle n j hj k hn⟩
  · rintro ⟨h1, h2⟩
    obtain ⟨a, ha⟩ := hval n (hreach n k h1)
    have h3 := hle n k h1 a ha
    have h4 := h2 a (hpath a n ha)
    have : a = k := by omega
    subst this; exact ha

/-! ### C89 -/

/-- SPEC: the drawing of a diagram: every node once, with its two edges, and a group for every depth. -/
structure Depicts (p : Pool E) (root : ℕ) (fl : E → FloatRes) (pretty ids : Bool) (L : List (ViewLine E)) : Prop where
  once : (viewNodes L).Nodup
  nodes : ∀ n, n ∈ viewNodes L ↔ Reach p root n
  inner : ∀ n d t f, Reach p root n → p.node n = some (.inner d t f) → .node n ids (.decision d pretty) false ∈ L
  leaf : ∀ n e, Reach p root n → p.node n = some (.leaf e) →
    .node n ids (.expr e) true ∈ L ∨ ∃ z : ℤ, .node n ids (.int z) true ∈ L ∧ fl e = .num z
  edgeOnce : (viewEdges L).Nodup
  solid : ∀ a b, (a, b, false) ∈ viewEdges L ↔ Reach p root a ∧ ∃ d f, p.node a = some (.inner d b f)
  dashed : ∀ a b, (a, b, true) ∈ viewEdges L ↔ Reach p root a ∧ ∃ d t, p.node a = some (.inner d t b)
  ranks : (viewRanks L).flatten.Perm (viewNodes L)
  same : ∀ m n, (∃ l ∈ viewRanks L, m ∈ l ∧ n ∈ l) ↔ ∃ k, DepthOf p root m k ∧ DepthOf p root n k

theorem allLines_depicts {p : Pool E} (hp : Core X p) {root : ℕ} (hr : (p.node root).isSome) {fl : E → FloatRes}
    (hf : NoOverflow p root fl) (pretty ids : Bool) {pos : List (ℕ × ℕ)} (h : Layers p root pos) :
    Depicts p root fl pretty ids (allLines p fl pretty ids (layerDict pos)) := by
  have hd := layerDict_ok pos
  have hm : ∀ n, n ∈ (layerDict pos).flatMap (·.2) ↔ Reach p root n := fun n => by rw [hd.perm.mem_iff, h.keys]
  have hnd : ((layerDict pos).flatMap (·.2)).Nodup := hd.perm.nodup_iff.mpr h.nodup
  have hl := fun n (hn : Reach p root n) => linesOf_node (pretty := pretty) (ids := ids) (fl := fl) (hp.reach_some hr hn)
    (fun e he => hf n e hn he)
  have hvn : viewNodes (allLines p fl pretty ids (layerDict pos)) = (layerDict pos).flatMap (·.2) := by
    unfold viewNodes allLines
    rw [filterMap_flatMap']
    refine List.flatMap_congr fun q hq => ?_
    rw [List.filterMap_append, filterMap_flatMap']
    simp only [List.filterMap_cons, List.filterMap_nil, List.append_nil]
    have : ∀ l : List ℕ, (∀ n ∈ l, Reach p root n) →
        (l.flatMap fun a => (linesOf p fl pretty ids a).filterMap fun | .node n _ _ _ => some n | _ => none) = l := by
      intro l hl'
      induction l with
      | nil => rfl
      | cons n l ih =>
        rw [List.flatMap_cons, ih fun m hm' => hl' m (by simp [hm'])]
        rcases hl n (hl' n (by simp)) with ⟨d, t, f, -, e⟩ | ⟨e', lab, -, e, -⟩ <;> simp [e]
    exact this q.2 fun n hn => (hm n).mp (List.mem_flatMap.mpr ⟨q, hq, hn⟩)
  have hvr : viewRanks (allLines p fl pretty ids (layerDict pos)) = (layerDict pos).map (·.2) := by
    unfold viewRanks allLines
    rw [filterMap_flatMap', ← List.flatMap_singleton' (l := (layerDict pos).map (·.2)), List.flatMap_map]
    refine List.flatMap_congr fun q hq => ?_
    rw [List.filterMap_append, filterMap_flatMap']
    simp only [List.filterMap_cons, List.filterMap_nil]
    have : ∀ l : List ℕ, (∀ n ∈ l, Reach p root n) →
        (l.flatMap fun a => (linesOf p fl pretty ids a).filterMap fun | .rank l => some l | _ => none) = [] := by
      intro l hl'
      induction l with
      | nil => rfl
      | cons n l ih =>
        rw [List.flatMap_cons, ih fun m hm' => hl' m (by simp [hm'])]
        rcases hl n (hl' n (by simp)) with ⟨d, t, f, -, e⟩ | ⟨e', lab, -, e, -⟩ <;> simp [e]
    rw [this q.2 fun n hn => (hm n).mp (List.mem_flatMap.mpr ⟨q, hq, hn⟩)]
    rfl
  have hve : viewEdges (allLines p fl pretty ids (layerDict pos)) = ((layerDict pos).flatMap (·.2)).flatMap fun n =>
      match p.node n with | some (.inner _ t f) => [(n, t, false), (n, f, true)] | _ => [] := by
    unfold viewEdges allLines
    rw [filterMap_flatMap', List.flatMap_assoc]
    refine List.flatMap_congr fun q hq => ?_
    rw [List.filterMap_append, filterMap_flatMap']
    simp only [List.filterMap_cons, List.filterMap_nil, List.append_nil]
    refine List.flatMap_congr fun n hn => ?_
    rcases hl n ((hm n).mp (List.mem_flatMap.mpr ⟨q, hq, hn⟩)) with ⟨d, t, f, hx, e⟩ | ⟨e', lab, hx, e, -⟩ <;> simp [e, hx]
  have hedge : ∀ a b s, (a, b, s) ∈ viewEdges (allLines p fl pretty ids (layerDict pos)) ↔
      Reach p root a ∧ ∃ d t f, p.node a = some (.inner d t f) ∧ b = if s then f else t := by
    intro a b s
    rw [hve, List.mem_flatMap]
    constructor
    · rintro ⟨n, hn, h⟩
      split at h
      · rename_i d t f hx
        simp only [List.mem_cons, Prod.mk.injEq, List.not_mem_nil, or_false] at h
        rcases h with ⟨rfl, rfl, rfl⟩ | ⟨rfl, rfl, rfl⟩
        · exact ⟨(hm _).mp hn, d, b, f, hx, by simp⟩
        · exact ⟨(hm _).mp hn, d, t, b, hx, by simp⟩
      · cases h
    · rintro ⟨ha, d, t, f, hx, rfl⟩
      refine ⟨a, (hm a).mpr ha, ?_⟩
      rw [hx]
      cases s <;> simp
  have hline : ∀ n x, Reach p root n → (∀ l, x ≠ .rank l) → x ∈ linesOf p fl pretty ids n →
      x ∈ allLines p fl pretty ids (layerDict pos) := fun n x hn hx hxn => (mem_allLines_node hx).mpr ⟨n, (hm n).mpr hn, hxn⟩
  refine ⟨by rw [hvn]; exact hnd, fun n => by rw [hvn]; exact hm n, ?_, ?_, ?_, ?_, ?_, ?_, ?_⟩
  · intro n d t f hn hx
    refine hline n _ hn (by intro l h; cases h) ?_
    rcases hl n hn with ⟨d', t', f', hx', e⟩ | ⟨e', lab, hx', e, -⟩
    · rw [hx] at hx'; cases hx'; simp [e]
    · rw [hx] at hx'; cases hx'
  · intro n e hn hx
    rcases hl n hn with ⟨d', t', f', hx', e⟩ | ⟨e', lab, hx', e2, hlab⟩
    · rw [hx] at hx'; cases hx'
    · rw [hx] at hx'; cases hx'
      rcases hlab with rfl | ⟨q, rfl, hq, hq1⟩
      · exact Or.inl (hline n _ hn (by intro l h; cases h) (by simp [e2]))
      · refine Or.inr ⟨q.num, hline n _ hn (by intro l h; cases h) (by simp [e2]), ?_⟩
        rw [hq]
        congr 1
        exact (Rat.coe_int_num_of_den_eq_one hq1).symm
  · rw [hve, List.nodup_flatMap]
    refine ⟨fun n _ => ?_, ?_⟩
    · split <;> simp
    · refine List.Pairwise.imp (fun {a b} hab => ?_) hnd
      rintro ⟨x, y, s⟩ h1 h2
      dsimp only at h1 h2
      have ha : x = a := by split at h1 <;> simp at h1; rcases h1 with h1 | h1 <;> exact h1.1
      have hb : x = b := by split at h2 <;> simp at h2; rcases h2 with h2 | h2 <;> exact h2.1
      exact hab (ha.symm.trans hb)
  · intro a b
    rw [hedge]
    refine and_congr_right fun _ => ⟨?_, ?_⟩
    · rintro ⟨d, t, f, hx, rfl⟩; exact ⟨d, f, by simpa using hx⟩
    · rintro ⟨d, f, hx⟩; exact ⟨d, b, f, hx, by simp⟩
  · intro a b
    rw [hedge]
    refine and_congr_right fun _ => ⟨?_, ?_⟩
    · rintro ⟨d, t, f, hx, rfl⟩; exact ⟨d, t, by simpa using hx⟩
    · rintro ⟨d, t, hx⟩; exact ⟨d, t, b, hx, by simp⟩
  · rw [hvr, hvn, List.flatMap_def]
  · intro m n
    rw [hvr]
    constructor
    · rintro ⟨l, hl', hm', hn'⟩
      obtain ⟨⟨k, l'⟩, hq, rfl⟩ := List.mem_map.mp hl'
      exact ⟨k, (layers_depth h m k).mp ((hd.at_ k m).mpr ⟨_, hq, hm'⟩), (layers_depth h n k).mp ((hd.at_ k n).mpr ⟨_, hq, hn'⟩)⟩
    · rintro ⟨k, hm', hn'⟩
      obtain ⟨l1, h1, h1'⟩ := (hd.at_ k m).mp ((layers_depth h m k).mpr hm')
      obtain ⟨l2, h2, h2'⟩ := (hd.at_ k n).mp ((layers_depth h n k).mpr hn')
      have := (lookup_of_mem_nat hd.nodup h1).symm.trans (lookup_of_mem_nat hd.nodup h2)
      cases this
      exact ⟨l1, List.mem_map.mpr ⟨_, h1, rfl⟩, h1', h2'⟩

/-- C89: after every history a drawing is returned, it shows every node of the diagram once, with its decision or expression, its
solid edge to the true child and its dashed edge to the false child, and it groups the nodes by depth. It is missing that leaves show
their own expression: see `view_rounds`. -/
theorem view_depicts_partial (hX : XLaw X ev) {p : Pool E} (hp : Reachable X Γ p) {root : ℕ} (hr : (p.node root).isSome) {fl : E → FloatRes}
    (hf : NoOverflow p root fl) (pretty ids : Bool) :
    ∃ L, viewDot p root fl pretty ids = .ok L ∧ Depicts p root fl pretty ids L := by
  have hc := (hp.inv hX).core
  obtain ⟨pos, h1, h2⟩ := viewDot_lines hc hr hf pretty ids
  exact ⟨_, h1, allLines_depicts hc hr hf pretty ids h2⟩

/-- C89: a drawing fails exactly when some leaf of the diagram is printed as a number beyond the floats. -/
theorem view_raises (hX : XLaw X ev) {p : Pool E} (hp : Reachable X Γ p) {root : ℕ} (hr : (p.node root).isSome) (fl : E → FloatRes)
    (pretty ids : Bool) : (∃ x, viewDot p root fl pretty ids = .error x) ↔ ∃ n e, Reach p root n ∧ p.node n = some (.leaf e) ∧ fl e = .inf := by
  have hc := (hp.inv hX).core
  constructor
  · rintro ⟨x, hx⟩
    by_contra hno
    obtain ⟨L, hL, -⟩ := view_depicts_partial hX hp hr (fl := fl) (fun n e hn he hi => hno ⟨n, e, hn, he, hi⟩) pretty ids
    rw [hL] at hx; cases hx
  · rintro ⟨n, e, hn, he, hi⟩
    cases hv : viewDot p root fl pretty ids with
    | error x => exact ⟨x, rfl⟩
    | ok L =>
      exfalso
      obtain ⟨pos, h1, h2⟩ := viewLayers_ok hc hr
      have hd := layerDict_ok pos
      obtain ⟨q, hq, hnq⟩ := List.mem_flatMap.mp (hd.perm.mem_iff.mpr ((h2.keys n).mpr hn))
      have hbad : ∀ r, nodeLines p fl pretty ids n ≠ .ok r := by
        intro r h
        simp [nodeLines, he, leafLabel, hi] at h
      have hbad2 : ∀ r, layerLines p fl pretty ids q ≠ .ok r := by
        intro r h
        unfold layerLines at h
        split at h
        · cases h
        · rename_i ls hls
          obtain ⟨r', -, h'⟩ := view_forall₂_left (mapE_inv hls) hnq
          exact hbad _ h'
      unfold viewDot at hv
      rw [h1] at hv
      simp only at hv
      split at hv
      · cases hv
      · rename_i ls hls
        obtain ⟨r', -, h'⟩ := view_forall₂_left (mapE_inv hls) hq
        exact hbad2 _ h'

theorem Depicts.uniq {p : Pool E} {root : ℕ} {fl : E → FloatRes} {pretty ids : Bool} {L : List (ViewLine E)}
    (h : Depicts p root fl pretty ids L) {n : ℕ} {w w' b b' : Bool} {l l' : ViewLabel E} (h1 : .node n w l b ∈ L) (h2 : .node n w' l' b' ∈ L) :
    w = w' ∧ l = l' ∧ b = b' := by
  have := filterMap_nodup_eq h.once h1 h2 (b := n) rfl rfl
  simpa using this

theorem Depicts.reading {p : Pool E} {root : ℕ} {fl : E → FloatRes} {pretty ids : Bool} {L : List (ViewLine E)}
    (h : Depicts p root fl pretty ids L) (hp : Core X p) (hr : (p.node root).isSome)
    (hx : ∀ n e, Reach p root n → p.node n = some (.leaf e) → FloatExact ev fl e) {n : ℕ} (hn : Reach p root n) (σ : Env ℝ) (v : ℝ) :
    ReadView ev L σ n v ↔ ValAt ev p σ n v := by
  have hmem : ∀ {n w l b}, .node n w l b ∈ L → Reach p root n := fun {n w l b} h' =>
    (h.nodes n).mp (List.mem_filterMap.mpr ⟨_, h', rfl⟩)
  have hedge : ∀ {a b s}, .edge a b s ∈ L ↔ (a, b, s) ∈ viewEdges L := by
    intro a b s
    constructor
    · intro h'; exact List.mem_filterMap.mpr ⟨_, h', rfl⟩
    · intro h'
      obtain ⟨x, hx', he⟩ := List.mem_filterMap.mp h'
      split at he
      · cases he; exact hx'
      · cases he
  constructor
  · intro hv
    clear hn
    induction hv with
    | @expr n w e hl =>
      have hn := hmem hl
      obtain ⟨x, hx'⟩ := Option.isSome_iff_exists.mp (hp.reach_some hr hn)
      cases x with
      | inner d t f => have := h.uniq hl (h.inner n d t f hn hx'); simp at this
      | leaf e' =>
        rcases h.leaf n e' hn hx' with h' | ⟨z, h', -⟩
        · have := (h.uniq hl h').2.1
          cases this
          exact .leaf hx'
        · have := h.uniq hl h'; simp at this
    | @int n w z hl =>
      have hn := hmem hl
      obtain ⟨x, hx'⟩ := Option.isSome_iff_exists.mp (hp.reach_some hr hn)
      cases x with
      | inner d t f => have := h.uniq hl (h.inner n d t f hn hx'); simp at this
      | leaf e' =>
        rcases h.leaf n e' hn hx' with h' | ⟨z', h', hz⟩
        · have := h.uniq hl h'; simp at this
        · have := (h.uniq hl h').2.1
          cases this
          have := hx n e' hn hx' z hz (by simp) σ.r
          rw [show (z : ℝ) = ((z : ℚ) : ℝ) by push_cast; rfl, ← this]
          exact .leaf hx'
    | @solid n w pr d t v hl ht he _ ih =>
      obtain ⟨hn, d', f, hx'⟩ := (h.solid n t).mp (hedge.mp he)
      have := (h.uniq hl (h.inner n d' t f hn hx')).2.1
      cases this
      exact .pos hx' ht ih
    | @dashed n w pr d f v hl ht he _ ih =>
      obtain ⟨hn, d', t, hx'⟩ := (h.dashed n f).mp (hedge.mp he)
      have := (h.uniq hl (h.inner n d' t f hn hx')).2.1
      cases this
      exact .neg hx' ht ih
  · intro hv
    induction hv with
    | @leaf n e hx' =>
      rcases h.leaf n e hn hx' with h' | ⟨z, h', hz⟩
      · exact .expr h'
      · have := hx n e hn hx' z hz (by simp) σ.r
        rw [this]
        have e2 : ((z : ℚ) : ℝ) = (z : ℝ) := by push_cast; rfl
        rw [e2]
        exact .int h'
    | @pos n d t f v hx' ht _ ih =>
      exact .solid (h.inner n d t f hn hx') ht (hedge.mpr ((h.solid n t).mpr ⟨hn, d, f, hx'⟩))
        (ih (.step hn ⟨d, t, f, hx', Or.inl rfl⟩))
    | @neg n d t f v hx' ht _ ih =>
      exact .dashed (h.inner n d t f hn hx') ht (hedge.mpr ((h.dashed n f).mpr ⟨hn, d, t, hx'⟩))
        (ih (.step hn ⟨d, t, f, hx', Or.inr rfl⟩))

/-- SPEC: the node of a drawing at which reading starts: no edge leads to it. -/
def IsStart (L : List (ViewLine E)) (n : ℕ) : Prop := n ∈ viewNodes L ∧ ∀ a s, (a, n, s) ∉ viewEdges L

theorem Depicts.start {p : Pool E} {root : ℕ} {fl : E → FloatRes} {pretty ids : Bool} {L : List (ViewLine E)}
    (h : Depicts p root fl pretty ids L) (hp : Core X p) (n : ℕ) : IsStart L n ↔ n = root := by
  constructor
  · rintro ⟨h1, h2⟩
    by_contra hne
    obtain ⟨m, hm, d, t, f, hx, hc⟩ := ((h.nodes n).mp h1).parent hne
    rcases hc with rfl | rfl
    · exact h2 m false ((h.solid m n).mpr ⟨hm, d, f, hx⟩)
    · exact h2 m true ((h.dashed m n).mpr ⟨hm, d, t, hx⟩)
  · rintro rfl
    refine ⟨(h.nodes n).mpr .root, fun a s he => ?_⟩
    have : Reach p n a ∧ Child p a n := by
      cases s with
      | false => obtain ⟨h1, d, f, h2⟩ := (h.solid a n).mp he; exact ⟨h1, d, n, f, h2, Or.inl rfl⟩
      | true => obtain ⟨h1, d, t, h2⟩ := (h.dashed a n).mp he; exact ⟨h1, d, t, n, h2, Or.inr rfl⟩
    have h1 := hp.reach_le this.1
    have h2 := hp.child_lt this.2
    omega

/-- C89: reading a drawing from its only node without incoming edges gives the value of the diagram at every assignment, when the
integers that `float` finds in the texts of leaves are the values of the leaves. -/
theorem view_reading_partial (hX : XLaw X ev) {p : Pool E} (hp : Reachable X Γ p) {root : ℕ} (hr : (p.node root).isSome) {fl : E → FloatRes}
    {pretty ids : Bool} {L : List (ViewLine E)} (hL : viewDot p root fl pretty ids = .ok L)
    (hx : ∀ n e, Reach p root n → p.node n = some (.leaf e) → FloatExact ev fl e) :
    (∀ n, IsStart L n ↔ n = root) ∧ ∀ n, IsStart L n → ∀ σ v, ReadView ev L σ n v ↔ ValAt ev p σ root v := by
  have hc := (hp.inv hX).core
  have hf : NoOverflow p root fl := by
    intro n e hn he hi
    obtain ⟨x, hx'⟩ := (view_raises hX hp hr fl pretty ids).mpr ⟨n, e, hn, he, hi⟩
    rw [hL] at hx'; cases hx'
  obtain ⟨L', hL', hd⟩ := view_depicts_partial hX hp hr hf pretty ids
  rw [hL] at hL'
  cases hL'
  refine ⟨fun n => hd.start hc n, fun n hn σ v => ?_⟩
  rw [(hd.start hc n).mp hn]
  exact hd.reading hc hr hx .root σ v

/-- C89: diagrams with equal drawings, in the same or in different pools, have equal values everywhere. -/
theorem view_same_partial {X' : XCtx E} {Γ' : String → Ty} (hX : XLaw X ev) (hX' : XLaw X' ev) {p p' : Pool E} (hp : Reachable X Γ p)
    (hp' : Reachable X' Γ' p') {root root' : ℕ} (hr : (p.node root).isSome) (hr' : (p'.node root').isSome) {fl : E → FloatRes}
    {pretty ids pretty' ids' : Bool} {L : List (ViewLine E)} (hL : viewDot p root fl pretty ids = .ok L)
    (hL' : viewDot p' root' fl pretty' ids' = .ok L) (hx : ∀ e, FloatExact ev fl e) (σ : Env ℝ) (v : ℝ) :
    ValAt ev p σ root v ↔ ValAt ev p' σ root' v := by
  obtain ⟨h1, h2⟩ := view_reading_partial hX hp hr hL fun _ e _ _ => hx e
  obtain ⟨h1', h2'⟩ := view_reading_partial hX' hp' hr' hL' fun _ e _ _ => hx e
  have hs := (h1 root).mpr rfl
  rw [← h2 root hs, h2' root hs]

end

/-! ### Examples -/

namespace ViewExample

/-- EXAMPLE: `float` of the text of a dictionary with rational numbers, without rounding. -/
def fl (e : Dict) : FloatRes :=
  match e with
  | [] => .num 0
  | [([], q)] => if q.den = 1 then .num q else .notFloat
  | _ => .notFloat

theorem fl_exact (e : Dict) : FloatExact exEv fl e := by
  intro q h1 h2 ρ
  unfold fl at h1
  split at h1
  · cases h1; simp [exEv, polyEval]
  · split at h1
    · cases h1; simp [exEv, polyEval, monoEval]
    · cases h1
  · cases h1

/-- EXAMPLE: `x > 3`, the test of node 4. -/
def test4 : Decision :=
  ⟨.lt (.times [.sym "x" .real, .realC (-1/3)]) (.realC (-1)), some [(["x"], -1/3), ([], 1)], true⟩

/-- EXAMPLE: the drawing of `a or x <= 3`. -/
def lines : List (ViewLine Dict) :=
  [.node 5 true (.decision ⟨exA, none, true⟩ false) false, .edge 5 2 false, .edge 5 4 true, .rank [5],
    .node 2 true (.int 1) true, .node 1 true (.int 0) true, .rank [2, 1],
    .node 4 true (.decision test4 false) false, .edge 4 1 false, .edge 4 2 true, .rank [4]]

theorem drawing : viewDot exPool 5 fl false true = .ok lines := by
  decide +kernel

theorem node5 : (exPool.node 5).isSome := by decide +kernel

/-- The hypotheses are met; the drawing is read as the diagram. -/
example (σ : Env ℝ) (v : ℝ) : ReadView exEv lines σ 5 v ↔ ValAt exEv exPool σ 5 v := by
  obtain ⟨h1, h2⟩ := view_reading_partial exLaw exPool_reachable node5 drawing fun _ e _ _ => fl_exact e
  exact h2 5 ((h1 5).mpr rfl) σ v

/-- Where `a` is false and `x` is 4 the dashed edge and then the solid edge lead to 0. -/
theorem read_example (σ : Env ℝ) (ha : σ.b "a" = false) (hx : σ.r "x" = 4) : ReadView exEv lines σ 5 0 := by
  have h0 : ReadView exEv lines σ 1 ((0 : ℤ) : ℝ) := .int (w := true) (by simp [lines])
  rw [Int.cast_zero] at h0
  refine .dashed (w := true) (pr := false) (d := ⟨exA, none, true⟩) (f := 4) (by simp [lines]) (by simp [truth, exA, ha]) (by simp [lines]) ?_
  refine .solid (w := true) (pr := false) (d := test4) (t := 1) (by simp [lines]) ?_ (by simp [lines]) h0
  simp [test4, truth, value, valueProd, hx]; norm_num

/-- EXAMPLE: the number `2^53 + 1`. -/
def big : Dict := [([], 9007199254740993)]

/-- EXAMPLE: a pool with the leaf `2^53 + 1`. -/
def bigPool : Pool Dict := runOps [.terminal big] (newPool exCtx)

/-- EXAMPLE: the number `10^400`, beyond the range of floats. -/
def huge : Dict := [([], 10 ^ 400)]

/-- EXAMPLE: a pool with the leaf `10^400`. -/
def hugePool : Pool Dict := runOps [.terminal huge] (newPool exCtx)

/-- EXAMPLE: `float` in the format of IEEE 754: `2^53 + 1` is rounded to `2^53`. -/
def flDouble (e : Dict) : FloatRes := if e = big then .num 9007199254740992 else fl e

end ViewExample

/-- C89 is wrong for large integers: the leaf `2^53 + 1` is drawn as `2^53`, because its text is converted by `float` and `int`. -/
theorem view_rounds : ∃ n, ViewExample.bigPool.node n = some (.leaf ViewExample.big) ∧
    viewDot ViewExample.bigPool n ViewExample.flDouble false false = .ok [.node n false (.int 9007199254740992) true, .rank [n]] ∧
    ∀ σ, ValAt exEv ViewExample.bigPool σ n 9007199254740993 := by
  refine ⟨3, by decide +kernel, by decide +kernel, fun σ => ?_⟩
  have h : ViewExample.bigPool.node 3 = some (.leaf ViewExample.big) := by decide +kernel
  have := ValAt.leaf (ev := exEv) (σ := σ) h
  have e : exEv ViewExample.big σ.r = 9007199254740993 := by simp [exEv, ViewExample.big, polyEval, monoEval]
  rwa [e] at this

/-- C89 is wrong for huge integers: the leaf is too large for `float`, `int` of infinity raises, and there is no drawing. -/
theorem view_overflow (fl : Dict → FloatRes) (h : fl ViewExample.huge = .inf) :
    viewDot ViewExample.hugePool 3 fl false false = .error .other := by
  have hn : ViewExample.hugePool.node 3 = some (.leaf ViewExample.huge) := by decide +kernel
  have hl : viewLayers ViewExample.hugePool 3 = .ok [(0, [3])] := by decide +kernel
  simp [viewDot, hl, Prog.mapE, layerLines, nodeLines, hn, leafLabel, h]

end Pywmi
