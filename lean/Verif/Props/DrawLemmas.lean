import Verif.Xsdd.Draw
import Verif.Props.Sdd

set_option linter.unusedSectionVars false
set_option linter.unusedSimpArgs false

/-!
# Lemmas about drawings of diagrams (C87)
-/

namespace Pywmi

/-- SPEC: the nodes of a diagram. -/
inductive Sdd.Sub : Sdd → Sdd → Prop where
  | refl (s : Sdd) : Sub s s
  | prime {t : Sdd} {es : List (Sdd × Sdd)} {e : Sdd × Sdd} : e ∈ es → Sub t e.1 → Sub t (.dec es)
  | sub {t : Sdd} {es : List (Sdd × Sdd)} {e : Sdd × Sdd} : e ∈ es → Sub t e.2 → Sub t (.dec es)

/-- SPEC: what a vertex of a drawing depicts: a node or an element of a decision node. -/
inductive DSrc where
  | node (s : Sdd)
  | elem (p s : Sdd)
deriving DecidableEq

namespace DSrc

/-- SPEC: the truth value of the depicted object. -/
def val (β : ℕ → Bool) : DSrc → Bool
  | node s => s.eval β
  | elem p s => p.eval β && s.eval β

/-- SPEC: the nodes of the depicted object. -/
def Has (t : Sdd) : DSrc → Prop
  | node s => Sdd.Sub t s
  | elem p s => Sdd.Sub t p ∨ Sdd.Sub t s

/-- SPEC: the key of the depicted object in the tables of annotations. -/
def key (nid : Sdd → ℕ) : DSrc → DKey
  | node s => .node (nid s)
  | elem p s => .elem (nid p) (nid s)

/-- SPEC: the label of the vertex. -/
def kind (nid : Sdd → ℕ) (lits : LiteralInfo) : DSrc → Option DKind
  | node .tt => some .tt
  | node .ff => some .ff
  | node (.lit l) =>
    match lits.numberToVal l with
    | .ok v => some (.lit (nid (.lit l)) (l < 0) v)
    | .error _ => none
  | node (.dec es) => some (.or (nid (.dec es)))
  | elem _ _ => some .and

/-- SPEC: literals are drawn as rectangles. -/
def rect : DSrc → Bool
  | node (.lit _) => true
  | _ => false

end DSrc

/-- SPEC: a vertex is the line for the object it depicts. -/
def DVertex.Shows (nid : Sdd → ℕ) (lits : LiteralInfo) (ann : List (DKey × String)) (v : DVertex) (x : DSrc) : Prop :=
  x.kind nid lits = some v.kind ∧ v.note = ann.lookup (x.key nid) ∧ v.rect = x.rect

namespace DotOpts

/-- For every number the depicted object and the edges that leave the vertex. -/
abbrev Ghost := ℕ → DSrc × Finset DEdge

/-- Two descriptions agree below a number. -/
def Agree (c : ℕ) (G G' : Ghost) : Prop := ∀ i < c, G' i = G i

theorem Agree.refl (c : ℕ) (G : Ghost) : Agree c G G := fun _ _ => rfl

theorem Agree.trans {c c' : ℕ} {G G' G'' : Ghost} (h : Agree c G G') (hc : c ≤ c') (h' : Agree c' G' G'') : Agree c G G'' :=
  fun i hi => (h' i (by omega)).trans (h i hi)

/-- The edges that leave a vertex fit what it depicts. -/
def LocalOk (o : DotOpts) (G : Ghost) (i : ℕ) : Prop :=
  match (G i).1 with
  | .node .tt => (G i).2 = ∅
  | .node .ff => (G i).2 = ∅ ∧ o.skipFalse = false
  | .node (.lit _) => (G i).2 = ∅
  | .node (.dec es) => (∀ β, (Sdd.dec es).eval β = true ↔ ∃ e ∈ (G i).2, (G e.dst).1.val β = true) ∧
      (o.skipFalse = false → (G i).2.card = es.length ∧ ∀ p ∈ es, ∃ e ∈ (G i).2, (G e.dst).1 = .elem p.1 p.2) ∧
      (o.skipFalse = true → o.skipFalseOr = true → 2 ≤ (G i).2.card)
  | .elem p s => ∃ e f, (G i).2 = {e, f} ∧ (∀ β, (G e.dst).1.val β = p.eval β) ∧ (∀ β, (G f.dst).1.val β = s.eval β) ∧
      (o.skipFalse = false → (G e.dst).1 = .node p ∧ (G f.dst).1 = .node s)

/-- A result is a drawing of an object. -/
structure Rep (o : DotOpts) (G : Ghost) (c : ℕ) (x : DSrc) (r : DotRes) : Prop where
  vert : ∀ v ∈ r.nodes, v.id < c ∧ v.Shows o.nid o.literals o.nodeAnn (G v.id).1
  uniq : ∀ v ∈ r.nodes, ∀ w ∈ r.nodes, v.id = w.id → v = w
  edge : ∀ e, e ∈ r.edges ↔ ∃ v ∈ r.nodes, e ∈ (G v.id).2
  out : ∀ v ∈ r.nodes, ∀ e ∈ (G v.id).2, e.src = v.id ∧ e.dst < v.id ∧ (∃ w ∈ r.nodes, w.id = e.dst) ∧
    e.label = o.edgeLabel ((G e.src).1.key o.nid) ((G e.dst).1.key o.nid)
  loc : ∀ v ∈ r.nodes, LocalOk o G v.id
  max : ∀ v ∈ r.nodes, v.id ≤ r.vid
  inc : ∀ v ∈ r.nodes, v.id = r.vid ∨ ∃ e ∈ r.edges, e.dst = v.id
  empty : r.nodes = ∅ → o.skipFalse = true ∧ ∀ β, x.val β = false
  root : r.nodes ≠ ∅ → (∃ v ∈ r.nodes, v.id = r.vid) ∧ r.key = (G r.vid).1.key o.nid ∧ (∀ β, (G r.vid).1.val β = x.val β) ∧
    (o.skipFalse = false → (G r.vid).1 = x)
  complete : o.skipFalse = false → ∀ t, x.Has t → ∃ v ∈ r.nodes, (G v.id).1 = .node t

theorem kind_lookup_unique {nid lits ann} {v w : DVertex} {x : DSrc} (hv : v.Shows nid lits ann x) (hw : w.Shows nid lits ann x)
    (h : v.id = w.id) : v = w := by
  obtain ⟨a1, a2, a3⟩ := hv
  obtain ⟨b1, b2, b3⟩ := hw
  have := a1.symm.trans b1
  cases v; cases w
  simp_all

theorem LocalOk.mono {o : DotOpts} {G G' : Ghost} {c i : ℕ} (ha : Agree c G G') (hi : i < c)
    (hd : ∀ e ∈ (G i).2, e.dst < c) (h : LocalOk o G i) : LocalOk o G' i := by
  have hval : ∀ e ∈ (G i).2, G' e.dst = G e.dst := fun e he => ha _ (hd e he)
  unfold LocalOk at *
  rw [ha i hi]
  split at h
  · assumption
  · assumption
  · assumption
  · obtain ⟨h1, h2, h3⟩ := h
    refine ⟨fun β => (h1 β).trans ⟨?_, ?_⟩, fun hs => ⟨(h2 hs).1, fun p hp => ?_⟩, h3⟩
    · rintro ⟨e, he, hv⟩; exact ⟨e, he, by rw [hval e he]; exact hv⟩
    · rintro ⟨e, he, hv⟩; exact ⟨e, he, by rw [hval e he] at hv; exact hv⟩
    · obtain ⟨e, he, hv⟩ := (h2 hs).2 p hp
      exact ⟨e, he, by rw [hval e he]; exact hv⟩
  · obtain ⟨e, f, h1, h2, h3, h4⟩ := h
    have he : e ∈ (G i).2 := by rw [h1]; simp
    have hf : f ∈ (G i).2 := by rw [h1]; simp
    exact ⟨e, f, h1, by rw [hval e he]; exact h2, by rw [hval f hf]; exact h3, by rw [hval e he, hval f hf]; exact h4⟩

theorem Rep.mono {o : DotOpts} {G G' : Ghost} {c c' : ℕ} {x : DSrc} {r : DotRes} (ha : Agree c G G') (hc : c ≤ c')
    (h : Rep o G c x r) : Rep o G' c' x r := by
  have hG : ∀ v ∈ r.nodes, G' v.id = G v.id := fun v hv => ha _ (h.vert v hv).1
  have hdst : ∀ v ∈ r.nodes, ∀ e ∈ (G v.id).2, e.dst < c := fun v hv e he => by
    have := (h.out v hv e he).2.1
    have := (h.vert v hv).1
    omega
  refine ⟨fun v hv => ⟨by have := (h.vert v hv).1; omega, by rw [hG v hv]; exact (h.vert v hv).2⟩, h.uniq, fun e => ?_, fun v hv e he => ?_,
    fun v hv => (h.loc v hv).mono ha (h.vert v hv).1 (hdst v hv), h.max, h.inc, h.empty, fun hne => ?_, fun hs t ht => ?_⟩
  · rw [h.edge e]
    exact ⟨fun ⟨v, hv, he⟩ => ⟨v, hv, by rw [hG v hv]; exact he⟩, fun ⟨v, hv, he⟩ => ⟨v, hv, by rw [hG v hv] at he; exact he⟩⟩
  · rw [hG v hv] at he
    obtain ⟨h1, h2, h3, h4⟩ := h.out v hv e he
    refine ⟨h1, h2, h3, ?_⟩
    rw [ha e.src (by rw [h1]; exact (h.vert v hv).1), ha e.dst (hdst v hv e he)]
    exact h4
  · obtain ⟨⟨v, hv, hid⟩, h2, h3, h4⟩ := h.root hne
    have hg : G' r.vid = G r.vid := by rw [← hid]; exact hG v hv
    exact ⟨⟨v, hv, hid⟩, by rw [hg]; exact h2, by rw [hg]; exact h3, by rw [hg]; exact h4⟩
  · obtain ⟨v, hv, h1⟩ := h.complete hs t ht
    exact ⟨v, hv, by rw [hG v hv]; exact h1⟩

/-- Change of one entry. -/
def set (G : Ghost) (c : ℕ) (a : DSrc × Finset DEdge) : Ghost := fun i => if i = c then a else G i

@[simp] theorem set_self (G : Ghost) (c : ℕ) (a) : set G c a c = a := by simp [set]

theorem set_ne {G : Ghost} {c i : ℕ} {a} (h : i ≠ c) : set G c a i = G i := by simp [set, h]

theorem agree_set (G : Ghost) (c : ℕ) (a) : Agree c G (set G c a) := fun i hi => set_ne (by omega)

/-- The vertices of a new vertex above results. -/
def joinNodes (rs : List DotRes) (v : DVertex) : Finset DVertex := rs.foldr (fun r x => r.nodes ∪ x) {v}

/-- The edges of a new vertex above results. -/
def joinEdges (rs : List DotRes) (E : Finset DEdge) : Finset DEdge := rs.foldr (fun r x => r.edges ∪ x) E

theorem mem_joinNodes {rs : List DotRes} {v w : DVertex} : w ∈ joinNodes rs v ↔ w = v ∨ ∃ r ∈ rs, w ∈ r.nodes := by
  induction rs with
  | nil => simp [joinNodes]
  | cons r rs ih =>
    have : joinNodes (r :: rs) v = r.nodes ∪ joinNodes rs v := rfl
    rw [this, Finset.mem_union, ih]
    simp only [List.mem_cons, exists_eq_or_imp]
    tauto

theorem mem_joinEdges {rs : List DotRes} {E : Finset DEdge} {e : DEdge} : e ∈ joinEdges rs E ↔ e ∈ E ∨ ∃ r ∈ rs, e ∈ r.edges := by
  induction rs with
  | nil => simp [joinEdges]
  | cons r rs ih =>
    have : joinEdges (r :: rs) E = r.edges ∪ joinEdges rs E := rfl
    rw [this, Finset.mem_union, ih]
    simp only [List.mem_cons, exists_eq_or_imp]
    tauto

/-- A new vertex above the drawings of some objects, with edges to those that are drawn. -/
theorem Rep.join {o : DotOpts} {G : Ghost} {c : ℕ} {x : DSrc} {L : List (DSrc × DotRes)} {E : Finset DEdge} {v : DVertex}
    (hL : ∀ p ∈ L, Rep o G c p.1 p.2) (hv : v.Shows o.nid o.literals o.nodeAnn x) (hid : v.id = c)
    (hE : ∀ e, e ∈ E ↔ ∃ p ∈ L, p.2.nodes ≠ ∅ ∧ e = ⟨c, p.2.vid, o.edgeLabel (x.key o.nid) p.2.key⟩)
    (hloc : LocalOk o (set G c (x, E)) c)
    (hcomp : o.skipFalse = false → ∀ t, x.Has t → x = .node t ∨ ∃ p ∈ L, p.1.Has t) :
    Rep o (set G c (x, E)) (c + 1) x ⟨c, joinNodes (L.map (·.2)) v, joinEdges (L.map (·.2)) E, x.key o.nid⟩ := by
  have hr : ∀ p ∈ L, Rep o (set G c (x, E)) c p.1 p.2 := fun p hp => (hL p hp).mono (agree_set _ _ _) le_rfl
  have hmem : ∀ w, w ∈ joinNodes (L.map (·.2)) v ↔ w = v ∨ ∃ p ∈ L, w ∈ p.2.nodes := by
    intro w; rw [mem_joinNodes]; simp only [List.mem_map, exists_exists_and_eq_and]
  have hmemE : ∀ e, e ∈ joinEdges (L.map (·.2)) E ↔ e ∈ E ∨ ∃ p ∈ L, e ∈ p.2.edges := by
    intro w; rw [mem_joinEdges]; simp only [List.mem_map, exists_exists_and_eq_and]
  have hroot : ∀ p ∈ L, p.2.nodes ≠ ∅ → p.2.vid < c ∧ ∃ w ∈ p.2.nodes, w.id = p.2.vid := by
    intro p hp hne
    obtain ⟨w, hw, h⟩ := ((hr p hp).root hne).1
    exact ⟨by have := ((hr p hp).vert w hw).1; omega, w, hw, h⟩
  refine ⟨?_, ?_, ?_, ?_, ?_, ?_, ?_, ?_, ?_, ?_⟩
  · intro w hw
    rcases (hmem w).mp hw with rfl | ⟨p, hp, hw⟩
    · exact ⟨by omega, by rw [hid, set_self]; exact hv⟩
    · obtain ⟨h1, h2⟩ := (hr p hp).vert w hw
      exact ⟨by omega, h2⟩
  · intro a ha b hb hab
    have low : ∀ w, (∃ p ∈ L, w ∈ p.2.nodes) → w.id < c ∧ w.Shows o.nid o.literals o.nodeAnn (set G c (x, E) w.id).1 :=
      fun w ⟨p, hp, hw⟩ => (hr p hp).vert w hw
    rcases (hmem a).mp ha with h1 | ha'
    · rcases (hmem b).mp hb with h2 | hb'
      · rw [h1, h2]
      · have := (low b hb').1; rw [h1] at hab; omega
    · rcases (hmem b).mp hb with h2 | hb'
      · have := (low a ha').1; rw [h2] at hab; omega
      · exact kind_lookup_unique (low a ha').2 (by rw [hab]; exact (low b hb').2) hab
  · intro e
    rw [hmemE]
    constructor
    · rintro (he | ⟨p, hp, he⟩)
      · exact ⟨v, (hmem v).mpr (.inl rfl), by rw [hid, set_self]; exact he⟩
      · obtain ⟨w, hw, h⟩ := ((hr p hp).edge e).mp he
        exact ⟨w, (hmem w).mpr (.inr ⟨p, hp, hw⟩), h⟩
    · rintro ⟨w, hw, he⟩
      rcases (hmem w).mp hw with rfl | ⟨p, hp, hw⟩
      · rw [hid, set_self] at he; exact .inl he
      · exact .inr ⟨p, hp, ((hr p hp).edge e).mpr ⟨w, hw, he⟩⟩
  · intro w hw e he
    rcases (hmem w).mp hw with rfl | ⟨p, hp, hw⟩
    · rw [hid, set_self] at he
      obtain ⟨p, hp, hne, rfl⟩ := (hE e).mp he
      obtain ⟨hlt, u, hu, huid⟩ := hroot p hp hne
      refine ⟨hid.symm, by rw [hid]; exact hlt, ⟨u, (hmem u).mpr (.inr ⟨p, hp, hu⟩), huid⟩, ?_⟩
      show _ = o.edgeLabel ((set G c (x, E) c).1.key o.nid) _
      rw [set_self, ((hr p hp).root hne).2.1]
    · obtain ⟨h1, h2, ⟨u, hu, h3⟩, h4⟩ := (hr p hp).out w hw e he
      exact ⟨h1, h2, ⟨u, (hmem u).mpr (.inr ⟨p, hp, hu⟩), h3⟩, h4⟩
  · intro w hw
    rcases (hmem w).mp hw with rfl | ⟨p, hp, hw⟩
    · rw [hid]; exact hloc
    · exact (hr p hp).loc w hw
  · intro w hw
    rcases (hmem w).mp hw with rfl | ⟨p, hp, hw⟩
    · exact hid.le
    · exact ((hr p hp).vert w hw).1.le
  · intro w hw
    rcases (hmem w).mp hw with rfl | ⟨p, hp, hw⟩
    · exact .inl hid
    · refine .inr ?_
      rcases (hr p hp).inc w hw with h | ⟨e, he, h⟩
      · have hne : p.2.nodes ≠ ∅ := fun h0 => by rw [h0] at hw; simp at hw
        exact ⟨_, (hmemE _).mpr (.inl ((hE _).mpr ⟨p, hp, hne, rfl⟩)), h.symm⟩
      · exact ⟨e, (hmemE e).mpr (.inr ⟨p, hp, he⟩), h⟩
  · intro h0
    have h1 : v ∈ joinNodes (L.map (·.2)) v := (hmem v).mpr (.inl rfl)
    have h2 : joinNodes (L.map (·.2)) v = ∅ := h0
    rw [h2] at h1
    simp at h1
  · intro _
    refine ⟨⟨v, (hmem v).mpr (.inl rfl), hid⟩, ?_, ?_, ?_⟩
    · show x.key o.nid = (set G c (x, E) c).1.key o.nid
      rw [set_self]
    · intro β
      show (set G c (x, E) c).1.val β = _
      rw [set_self]
    · intro _
      show (set G c (x, E) c).1 = _
      rw [set_self]
  · intro hs t ht
    rcases hcomp hs t ht with h | ⟨p, hp, h⟩
    · exact ⟨v, (hmem v).mpr (.inl rfl), by rw [hid, set_self]; exact h⟩
    · obtain ⟨w, hw, hw'⟩ := (hr p hp).complete hs t h
      exact ⟨w, (hmem w).mpr (.inr ⟨p, hp, hw⟩), hw'⟩

theorem Rep.none {o : DotOpts} {G : Ghost} {c vid : ℕ} {x : DSrc} {k : DKey} (hs : o.skipFalse = true) (hx : ∀ β, x.val β = false) :
    Rep o G c x ⟨vid, ∅, ∅, k⟩ :=
  ⟨by simp, by simp, by simp, by simp, by simp, by simp, by simp, fun _ => ⟨hs, hx⟩, by simp, fun h => by rw [hs] at h; cases h⟩

theorem walkAnd_vid (o : DotOpts) (a b : DotRes) (p s : Sdd) (c : ℕ) : (o.walkAnd a b p s c).vid = c := by
  simp only [walkAnd]
  split <;> rfl

theorem walkAnd_ok {o : DotOpts} {G : Ghost} {c d : ℕ} {p s : Sdd} {a b : DotRes} (hdc : d ≤ c) (ha : Rep o G d (.node p) a)
    (hb : Rep o G d (.node s) b) :
    ∃ E, Rep o (set G c (.elem p s, E)) (c + 1) (.elem p s) (o.walkAnd a b p s c) := by
  simp only [walkAnd]
  split
  · rename_i h
    refine ⟨∅, Rep.none h.1 fun β => ?_⟩
    rcases h.2 with h0 | h0
    · have := (ha.empty h0).2 β
      simp only [DSrc.val] at this ⊢
      simp [this]
    · have := (hb.empty h0).2 β
      simp only [DSrc.val] at this ⊢
      simp [this]
  · rename_i h
    have ha0 : a.nodes ≠ ∅ := fun h0 => h ⟨(ha.empty h0).1, .inl h0⟩
    have hb0 : b.nodes ≠ ∅ := fun h0 => h ⟨(hb.empty h0).1, .inr h0⟩
    have ha := ha.mono (Agree.refl d G) hdc
    have hb := hb.mono (Agree.refl d G) hdc
    obtain ⟨⟨u, hu, hua⟩, -, ha3, ha4⟩ := ha.root ha0
    obtain ⟨⟨w, hw, hwb⟩, -, hb3, hb4⟩ := hb.root hb0
    have hac : a.vid ≠ c := by have := (ha.vert u hu).1; omega
    have hbc : b.vid ≠ c := by have := (hb.vert w hw).1; omega
    let key := DKey.elem (o.nid p) (o.nid s)
    let E : Finset DEdge := {⟨c, a.vid, o.edgeLabel key a.key⟩, ⟨c, b.vid, o.edgeLabel key b.key⟩}
    refine ⟨E, ?_⟩
    have := Rep.join (o := o) (G := G) (c := c) (x := .elem p s) (L := [(.node p, a), (.node s, b)]) (E := E)
      (v := ⟨c, .and, o.nodeAnn.lookup key, false⟩) (by simpa using ⟨ha, hb⟩) ⟨rfl, rfl, rfl⟩ rfl
      (by intro e; simp [E, ha0, hb0, key, DSrc.key]) ?_ (fun _ t ht => .inr (by simpa [DSrc.Has] using ht))
    · simpa [joinNodes, joinEdges, key, E, DSrc.key, Finset.union_assoc] using this
    · unfold LocalOk
      simp only [set_self]
      refine ⟨_, _, rfl, ?_, ?_, ?_⟩
      · intro β; show (set G c _ a.vid).1.val β = _; rw [set_ne hac]; exact ha3 β
      · intro β; show (set G c _ b.vid).1.val β = _; rw [set_ne hbc]; exact hb3 β
      · intro hs
        show (set G c _ a.vid).1 = _ ∧ (set G c _ b.vid).1 = _
        rw [set_ne hac, set_ne hbc]; exact ⟨ha4 hs, hb4 hs⟩

theorem walkAnds_length (o : DotOpts) : ∀ (rs : List (DotRes × DotRes)) (es : List (Sdd × Sdd)) (c : ℕ), rs.length = es.length →
    (o.walkAnds rs es c).length = es.length
  | [], [], _, _ => rfl
  | (a, b) :: rs, (p, s) :: es, c, h => by simp [walkAnds, walkAnds_length o rs es (c + 1) (by simpa using h)]
  | [], _ :: _, _, h => by simp at h
  | _ :: _, [], _, h => by simp at h

theorem walkAnds_ge (o : DotOpts) : ∀ (rs : List (DotRes × DotRes)) (es : List (Sdd × Sdd)) (c : ℕ), ∀ r ∈ o.walkAnds rs es c, c ≤ r.vid
  | [], _, _, r, h => by simp [walkAnds] at h
  | _ :: _, [], _, r, h => by simp [walkAnds] at h
  | (a, b) :: rs, (p, s) :: es, c, r, h => by
    rcases List.mem_cons.mp h with rfl | h
    · rw [walkAnd_vid]
    · have := walkAnds_ge o rs es (c + 1) r h; omega

theorem walkAnds_nodup (o : DotOpts) : ∀ (rs : List (DotRes × DotRes)) (es : List (Sdd × Sdd)) (c : ℕ), ((o.walkAnds rs es c).map (·.vid)).Nodup
  | [], _, _ => by simp [walkAnds]
  | _ :: _, [], _ => by simp [walkAnds]
  | (a, b) :: rs, (p, s) :: es, c => by
    simp only [walkAnds, List.map_cons, List.nodup_cons, walkAnd_vid]
    refine ⟨fun h => ?_, walkAnds_nodup o rs es (c + 1)⟩
    obtain ⟨r, hr, h⟩ := List.mem_map.mp h
    have := walkAnds_ge o rs es (c + 1) r hr
    omega

/-- The drawing of an element. -/
def ofElem (e : Sdd × Sdd) : DSrc := .elem e.1 e.2

theorem walkAnds_ok {o : DotOpts} {d : ℕ} : ∀ (es : List (Sdd × Sdd)) (rs : List (DotRes × DotRes)) (G : Ghost) (c : ℕ), d ≤ c →
    List.Forall₂ (fun e r => Rep o G d (.node e.1) r.1 ∧ Rep o G d (.node e.2) r.2) es rs →
    ∃ G', Agree c G G' ∧ (∀ i, c ≤ i → i < c + es.length → ∃ p s, (G' i).1 = .elem p s) ∧
      List.Forall₂ (fun e r => Rep o G' (c + es.length) (ofElem e) r) es (o.walkAnds rs es c)
  | _, _, G, c, _, .nil => ⟨G, Agree.refl _ _, by simp; omega, by simp [walkAnds]⟩
  | (p, s) :: es, (a, b) :: rs, G, c, hdc, .cons h hs => by
    obtain ⟨E, hE⟩ := walkAnd_ok (c := c) hdc h.1 h.2
    have hag : Agree c G (set G c (.elem p s, E)) := agree_set _ _ _
    have hmono : List.Forall₂ (fun e r => Rep o (set G c (.elem p s, E)) d (.node e.1) r.1 ∧
        Rep o (set G c (.elem p s, E)) d (.node e.2) r.2) es rs := by
      refine hs.imp fun e r h => ?_
      have hag' : Agree d G (set G c (.elem p s, E)) := fun i hi => hag i (by omega)
      exact ⟨h.1.mono hag' le_rfl, h.2.mono hag' le_rfl⟩
    obtain ⟨G', h1, h2, h3⟩ := walkAnds_ok es rs _ (c + 1) (by omega) hmono
    refine ⟨G', hag.trans (by omega) h1, fun i hi hi' => ?_, ?_⟩
    · simp only [List.length_cons] at hi'
      rcases Nat.eq_or_lt_of_le hi with rfl | hlt
      · exact ⟨p, s, by rw [h1 _ (by omega), set_self]⟩
      · exact h2 i (by omega) (by omega)
    · refine .cons ?_ ?_
      · exact hE.mono h1 (by simp only [List.length_cons]; omega)
      · have e : c + 1 + es.length = c + (es.length + 1) := by omega
        rw [e] at h3
        exact h3

theorem eval_dec_iff (β : ℕ → Bool) (es : List (Sdd × Sdd)) :
    (Sdd.dec es).eval β = true ↔ ∃ e ∈ es, (ofElem e).val β = true := by
  simp only [Sdd.eval, Sdd.evalAny_eq, List.any_eq_true, ofElem, DSrc.val]

theorem orGraph_ok {o : DotOpts} {G : Ghost} {c : ℕ} {es : List (Sdd × Sdd)} {L : List (DSrc × DotRes)}
    (hL : ∀ p ∈ L, Rep o G c p.1 p.2) (hnd : (L.map (·.2.vid)).Nodup)
    (hany : ∀ β, (Sdd.dec es).eval β = true ↔ ∃ p ∈ L, p.1.val β = true)
    (hlen : o.skipFalse = false → L.map (·.1) = es.map ofElem)
    (htwo : o.skipFalse = true → o.skipFalseOr = true → 2 ≤ L.length ∧ ∀ p ∈ L, p.2.nodes ≠ ∅) :
    ∃ E, Rep o (set G c (.node (.dec es), E)) (c + 1) (.node (.dec es)) (o.orGraph (L.map (·.2)) (o.nid (.dec es)) c) := by
  let key := DKey.node (o.nid (.dec es))
  let mk : DotRes → DEdge := fun r => ⟨c, r.vid, o.edgeLabel key r.key⟩
  let drawn := (L.map (·.2)).filter fun r => !o.skipFalse || decide (r.nodes ≠ ∅)
  let E : Finset DEdge := (drawn.map mk).toFinset
  have hmem : ∀ r, r ∈ drawn ↔ ∃ p ∈ L, p.2 = r ∧ r.nodes ≠ ∅ := by
    intro r
    simp only [drawn, List.mem_filter, List.mem_map, Bool.or_eq_true, Bool.not_eq_true', decide_eq_true_eq]
    constructor
    · rintro ⟨⟨p, hp, rfl⟩, h⟩
      refine ⟨p, hp, rfl, fun h0 => ?_⟩
      rcases h with h | h
      · rw [((hL p hp).empty h0).1] at h; cases h
      · exact h h0
    · rintro ⟨p, hp, rfl, h⟩
      exact ⟨⟨p, hp, rfl⟩, .inr h⟩
  have hE : ∀ e, e ∈ E ↔ ∃ p ∈ L, p.2.nodes ≠ ∅ ∧ e = ⟨c, p.2.vid, o.edgeLabel key p.2.key⟩ := by
    intro e
    simp only [E, List.mem_toFinset, List.mem_map]
    constructor
    · rintro ⟨r, hr, rfl⟩
      obtain ⟨p, hp, rfl, h⟩ := (hmem r).mp hr
      exact ⟨p, hp, h, rfl⟩
    · rintro ⟨p, hp, h, rfl⟩
      exact ⟨p.2, (hmem _).mpr ⟨p, hp, rfl, h⟩, rfl⟩
  have hcard : E.card = drawn.length := by
    have h1 : (drawn.map mk).Nodup := by
      apply List.Nodup.of_map (f := DEdge.dst)
      rw [List.map_map]
      have h2 : (drawn.map (·.vid)).Sublist ((L.map (·.2)).map (·.vid)) := List.filter_sublist.map _
      rw [List.map_map] at h2
      exact h2.nodup hnd
    simp only [E]
    rw [List.toFinset_card_of_nodup h1, List.length_map]
  have hroot : ∀ p ∈ L, p.2.nodes ≠ ∅ → p.2.vid ≠ c := by
    intro p hp hne
    obtain ⟨w, hw, h⟩ := ((hL p hp).root hne).1
    have := ((hL p hp).vert w hw).1
    omega
  refine ⟨E, ?_⟩
  have := Rep.join (o := o) (G := G) (c := c) (x := .node (.dec es)) (L := L) (E := E)
    (v := ⟨c, .or (o.nid (.dec es)), o.nodeAnn.lookup key, false⟩) hL ⟨rfl, rfl, rfl⟩ rfl hE ?_ ?_
  · exact this
  · unfold LocalOk
    simp only [set_self]
    refine ⟨fun β => (hany β).trans ⟨?_, ?_⟩, fun hs => ⟨?_, ?_⟩, fun hs hs' => ?_⟩
    · rintro ⟨p, hp, hv⟩
      have hne : p.2.nodes ≠ ∅ := fun h0 => by rw [((hL p hp).empty h0).2 β] at hv; cases hv
      refine ⟨_, (hE _).mpr ⟨p, hp, hne, rfl⟩, ?_⟩
      show (set G c _ p.2.vid).1.val β = true
      rw [set_ne (hroot p hp hne), ((hL p hp).root hne).2.2.1]; exact hv
    · rintro ⟨e, he, hv⟩
      obtain ⟨p, hp, hne, rfl⟩ := (hE e).mp he
      refine ⟨p, hp, ?_⟩
      rw [← ((hL p hp).root hne).2.2.1, ← set_ne (G := G) (a := (DSrc.node (.dec es), E)) (hroot p hp hne)]; exact hv
    · rw [hcard]
      have h1 := congrArg List.length (hlen hs)
      simp only [List.length_map] at h1
      simp [drawn, hs, h1]
    · intro p hp
      have : ofElem p ∈ L.map (·.1) := by rw [hlen hs]; exact List.mem_map_of_mem hp
      obtain ⟨q, hq, hqe⟩ := List.mem_map.mp this
      have hne : q.2.nodes ≠ ∅ := fun h0 => by rw [((hL q hq).empty h0).1] at hs; cases hs
      refine ⟨_, (hE _).mpr ⟨q, hq, hne, rfl⟩, ?_⟩
      show (set G c _ q.2.vid).1 = _
      rw [set_ne (hroot q hq hne), ((hL q hq).root hne).2.2.2 hs, hqe]; rfl
    · obtain ⟨h1, h2⟩ := htwo hs hs'
      rw [hcard]
      have : drawn = L.map (·.2) := by
        simp only [drawn]
        rw [List.filter_eq_self]
        intro r hr
        obtain ⟨p, hp, rfl⟩ := List.mem_map.mp hr
        simp [h2 p hp]
      rw [this, List.length_map]; exact h1
  · intro hs t ht
    have key' : ∀ e ∈ es, ∀ t, (ofElem e).Has t → ∃ p ∈ L, p.1.Has t := by
      intro e he t ht
      have : ofElem e ∈ L.map (·.1) := by rw [hlen hs]; exact List.mem_map_of_mem he
      obtain ⟨q, hq, hqe⟩ := List.mem_map.mp this
      exact ⟨q, hq, by rw [hqe]; exact ht⟩
    have ht' : Sdd.Sub t (.dec es) := ht
    cases ht' with
    | refl => exact .inl rfl
    | prime he h => exact .inr (key' _ he t (.inl h))
    | sub he h => exact .inr (key' _ he t (.inr h))

theorem walkOr_ok {o : DotOpts} {G : Ghost} {c : ℕ} {es : List (Sdd × Sdd)} {rs : List DotRes}
    (h : List.Forall₂ (fun e r => Rep o G c (ofElem e) r) es rs) (hnd : (rs.map (·.vid)).Nodup) :
    ∃ E, Rep o (set G c (.node (.dec es), E)) (c + 1) (.node (.dec es)) (o.walkOr rs (o.nid (.dec es)) c) := by
  obtain ⟨L, hL, h1, h2⟩ : ∃ L : List (DSrc × DotRes), (∀ p ∈ L, Rep o G c p.1 p.2) ∧ L.map (·.1) = es.map ofElem ∧ L.map (·.2) = rs := by
    clear hnd
    induction h with
    | nil => exact ⟨[], by simp, rfl, rfl⟩
    | cons h _ ih =>
      obtain ⟨L, a, b, d⟩ := ih
      rename_i e r _ _ _
      refine ⟨(ofElem e, r) :: L, ?_, by simp [b], by simp [d]⟩
      intro p hp
      rcases List.mem_cons.mp hp with rfl | hp
      · exact h
      · exact a p hp
  have hany : ∀ β, (Sdd.dec es).eval β = true ↔ ∃ p ∈ L, p.1.val β = true := by
    intro β
    rw [eval_dec_iff]
    constructor
    · rintro ⟨e, he, hv⟩
      have : ofElem e ∈ L.map (·.1) := by rw [h1]; exact List.mem_map_of_mem he
      obtain ⟨q, hq, hqe⟩ := List.mem_map.mp this
      exact ⟨q, hq, by rw [hqe]; exact hv⟩
    · rintro ⟨p, hp, hv⟩
      have : p.1 ∈ es.map ofElem := by rw [← h1]; exact List.mem_map_of_mem hp
      obtain ⟨e, he, hee⟩ := List.mem_map.mp this
      exact ⟨e, he, by rw [hee]; exact hv⟩
  have hnd' : (L.map (·.2.vid)).Nodup := by rw [← h2, List.map_map] at hnd; exact hnd
  unfold walkOr
  split
  · rename_i hskip
    rw [Bool.and_eq_true] at hskip
    obtain ⟨hs, hs'⟩ := hskip
    let L' := L.filter fun p => decide (p.2.nodes ≠ ∅)
    have hL'1 : rs.filter (fun r => decide (r.nodes ≠ ∅)) = L'.map (·.2) := by
      rw [← h2, List.filter_map]; rfl
    have hmem : ∀ p, p ∈ L' ↔ p ∈ L ∧ p.2.nodes ≠ ∅ := by intro p; simp [L']
    have hany' : ∀ β, (Sdd.dec es).eval β = true ↔ ∃ p ∈ L', p.1.val β = true := by
      intro β
      rw [hany]
      constructor
      · rintro ⟨p, hp, hv⟩
        exact ⟨p, (hmem p).mpr ⟨hp, fun h0 => by rw [((hL p hp).empty h0).2 β] at hv; cases hv⟩, hv⟩
      · rintro ⟨p, hp, hv⟩; exact ⟨p, ((hmem p).mp hp).1, hv⟩
    rw [hL'1]
    have hL' : ∀ p ∈ L', Rep o G c p.1 p.2 := fun p hp => hL p ((hmem p).mp hp).1
    split
    · rename_i h0
      have h0 : L' = [] := List.map_eq_nil_iff.mp h0
      refine ⟨∅, Rep.none hs fun β => ?_⟩
      have := hany' β
      rw [h0] at this
      simpa [DSrc.val] using this
    · rename_i r h0
      obtain ⟨p, hp, rfl⟩ : ∃ p, L' = [p] ∧ p.2 = r := by
        match L', h0 with
        | [p], h0 => exact ⟨p, rfl, by simpa using h0⟩
      refine ⟨∅, ?_⟩
      have hpL : p ∈ L' := by rw [hp]; simp
      have hr := ((hL' p hpL).mono (agree_set G c (DSrc.node (.dec es), ∅)) (Nat.le_succ c))
      have hval : ∀ β, p.1.val β = (DSrc.node (.dec es)).val β := by
        intro β
        have := hany' β
        rw [hp] at this
        simp only [List.mem_singleton, exists_eq_left] at this
        rw [Bool.eq_iff_iff]
        exact this.symm
      refine ⟨hr.vert, hr.uniq, hr.edge, hr.out, hr.loc, hr.max, hr.inc, fun h => ⟨hs, fun β => by rw [← hval]; exact (hr.empty h).2 β⟩,
        fun h => ⟨(hr.root h).1, (hr.root h).2.1, fun β => by rw [← hval]; exact (hr.root h).2.2.1 β, fun h' => by rw [hs] at h'; cases h'⟩,
        fun h' => by rw [hs] at h'; cases h'⟩
    · rename_i r r' rest h0
      rw [← h0]
      refine orGraph_ok hL' ?_ hany' (fun h => by rw [hs] at h; cases h) (fun _ _ => ⟨?_, fun p hp => ((hmem p).mp hp).2⟩)
      · exact (List.filter_sublist.map _).nodup hnd'
      · have := congrArg List.length h0
        simp only [List.length_map, List.length_cons] at this
        omega
  · rename_i hskip
    rw [← h2]
    refine orGraph_ok hL hnd' hany (fun _ => h1) (fun a b => ?_)
    simp [a, b] at hskip

/-- The results in the cache are drawings, and a node is depicted once. -/
structure Inv (o : DotOpts) (G : Ghost) (st : St) : Prop where
  rep : ∀ p ∈ st.memo, Rep o G st.c (.node p.1) p.2
  keys : ∀ i < st.c, ∀ s, (G i).1 = .node s → ∃ r, (s, r) ∈ st.memo
  inj : ∀ i < st.c, ∀ j < st.c, ∀ s, (G i).1 = .node s → (G j).1 = .node s → i = j

/-- What a visit achieves. -/
structure Post (o : DotOpts) (G : Ghost) (st : St) (G' : Ghost) (st' : St) (bound : ℕ) : Prop where
  agree : Agree st.c G G'
  le : st.c ≤ st'.c
  inv : Inv o G' st'
  new : ∀ p ∈ st'.memo, p ∈ st.memo ∨ p.1.size ≤ bound

theorem Post.refl {o : DotOpts} {G : Ghost} {st : St} {n : ℕ} (h : Inv o G st) : Post o G st G st n :=
  ⟨Agree.refl _ _, le_rfl, h, fun _ hp => .inl hp⟩

theorem Post.trans {o : DotOpts} {G G' G'' : Ghost} {st st' st'' : St} {n m k : ℕ} (h : Post o G st G' st' n) (h' : Post o G' st' G'' st'' m)
    (hn : n ≤ k) (hm : m ≤ k) : Post o G st G'' st'' k := by
  refine ⟨h.agree.trans h.le h'.agree, h.le.trans h'.le, h'.inv, fun p hp => ?_⟩
  rcases h'.new p hp with hp | hp
  · rcases h.new p hp with hp | hp
    · exact .inl hp
    · exact .inr (by omega)
  · exact .inr (by omega)

theorem mem_of_lookup {st : St} {s : Sdd} {r : DotRes} (h : st.memo.lookup s = some r) : (s, r) ∈ st.memo := by
  generalize st.memo = m at h
  induction m with
  | nil => simp at h
  | cons p m ih =>
    obtain ⟨k, v⟩ := p
    rw [List.lookup_cons] at h
    split at h
    · rename_i hk
      have : s = k := by simpa using hk
      simp only [Option.some.injEq] at h
      subst this; subst h; simp
    · exact List.mem_cons_of_mem _ (ih h)

theorem lookup_none {st : St} {s : Sdd} (h : st.memo.lookup s = none) : ∀ r, (s, r) ∉ st.memo := by
  generalize st.memo = m at h
  induction m with
  | nil => simp
  | cons p m ih =>
    obtain ⟨k, v⟩ := p
    rw [List.lookup_cons] at h
    split at h
    · cases h
    · rename_i hk
      intro r hr
      rcases List.mem_cons.mp hr with hr | hr
      · cases hr; simp at hk
      · exact ih h r hr

/-- A new entry of the cache whose drawing has its own number. -/
theorem Inv.add {o : DotOpts} {G : Ghost} {memo : List (Sdd × DotRes)} {c : ℕ} {s : Sdd} {r : DotRes} {E : Finset DEdge}
    (hrep : ∀ p ∈ memo, Rep o G c (.node p.1) p.2) (hkeys : ∀ i < c, ∀ t, (G i).1 = .node t → ∃ r, (t, r) ∈ memo)
    (hinj : ∀ i < c, ∀ j < c, ∀ t, (G i).1 = .node t → (G j).1 = .node t → i = j) (hs : ∀ r, (s, r) ∉ memo)
    (hr : Rep o (set G c (.node s, E)) (c + 1) (.node s) r) : Inv o (set G c (.node s, E)) ⟨(s, r) :: memo, c + 1⟩ := by
  have hlow : ∀ i < c, (set G c (.node s, E) i) = G i := fun i hi => set_ne (by omega)
  have hother : ∀ i < c, (set G c (.node s, E) i).1 ≠ .node s := by
    intro i hi h
    rw [hlow i hi] at h
    obtain ⟨r, hr⟩ := hkeys i hi s h
    exact hs r hr
  refine ⟨?_, ?_, ?_⟩
  · intro p hp
    rcases List.mem_cons.mp hp with rfl | hp
    · exact hr
    · exact (hrep p hp).mono (agree_set _ _ _) (Nat.le_succ c)
  · intro i hi t ht
    rcases Nat.lt_or_ge i c with hic | hic
    · rw [hlow i hic] at ht
      obtain ⟨r, hr⟩ := hkeys i hic t ht
      exact ⟨r, List.mem_cons_of_mem _ hr⟩
    · obtain rfl : i = c := by simp only at hi; omega
      rw [set_self] at ht
      cases ht
      exact ⟨r, by simp⟩
  · intro i hi j hj t hti htj
    simp only at hi hj
    rcases Nat.lt_or_ge i c with hic | hic <;> rcases Nat.lt_or_ge j c with hjc | hjc
    · rw [hlow i hic] at hti
      rw [hlow j hjc] at htj
      exact hinj i hic j hjc t hti htj
    · obtain rfl : j = c := by omega
      rw [set_self] at htj
      cases htj
      exact absurd hti (hother i hic)
    · obtain rfl : i = c := by omega
      rw [set_self] at hti
      cases hti
      exact absurd htj (hother j hjc)
    · omega

/-- A drawing of one vertex. -/
theorem Rep.single {o : DotOpts} {G : Ghost} {c : ℕ} {s : Sdd} {v : DVertex} (hv : v.Shows o.nid o.literals o.nodeAnn (.node s)) (hid : v.id = c)
    (hs : ∀ es, s ≠ .dec es) (hf : s = .ff → o.skipFalse = false) :
    Rep o (set G c (.node s, ∅)) (c + 1) (.node s) ⟨c, {v}, ∅, .node (o.nid s)⟩ := by
  have := Rep.join (o := o) (G := G) (c := c) (x := .node s) (L := []) (E := ∅) (v := v) (by simp) hv hid (by simp) ?_ ?_
  · simpa [joinNodes, joinEdges, DSrc.key] using this
  · unfold LocalOk
    simp only [set_self]
    cases s with
    | tt => trivial
    | ff => exact ⟨trivial, hf rfl⟩
    | lit l => trivial
    | dec es => exact absurd rfl (hs es)
  · intro _ t ht
    have ht : Sdd.Sub t s := ht
    cases ht with
    | refl => exact .inl rfl
    | prime => exact absurd rfl (hs _)
    | sub => exact absurd rfl (hs _)

theorem litKind_eq {o : DotOpts} {l : ℤ} {n : ℕ} {k : DKind} (h : o.litKind l n = .ok k) :
    ∃ v, o.literals.numberToVal l = .ok v ∧ k = .lit n (l < 0) v := by
  unfold litKind at h
  split at h
  · cases h
  · rename_i isBool hb
    split at h
    · cases h
    · rename_i v hv
      have : isBool = true := by
        unfold LiteralInfo.isNumberBoolean at hb
        split at hb
        · cases hb; rfl
        · cases hb
      subst this
      simp only [if_true, Except.ok.injEq] at h
      exact ⟨v, hv, h.symm⟩

theorem walkTrue_ok (o : DotOpts) (G : Ghost) (c : ℕ) : Rep o (set G c (.node .tt, ∅)) (c + 1) (.node .tt) (o.walkTrue c) :=
  Rep.single ⟨rfl, rfl, rfl⟩ rfl (by intro es h; cases h) (by intro h; cases h)

theorem walkFalse_ok (o : DotOpts) (G : Ghost) (c : ℕ) : Rep o (set G c (.node .ff, ∅)) (c + 1) (.node .ff) (o.walkFalse c) := by
  unfold walkFalse
  split
  · rename_i h
    exact Rep.none h fun _ => rfl
  · rename_i h
    exact Rep.single ⟨rfl, rfl, rfl⟩ rfl (by intro es h; cases h) (fun _ => by simpa using h)

theorem walkLit_ok {o : DotOpts} {l : ℤ} {c : ℕ} {r : DotRes} (G : Ghost) (h : o.walkLit l c = .ok r) :
    Rep o (set G c (.node (.lit l), ∅)) (c + 1) (.node (.lit l)) r := by
  unfold walkLit at h
  simp only at h
  split at h
  · cases h
  · rename_i k hk
    cases h
    obtain ⟨v, hv, rfl⟩ := litKind_eq hk
    exact Rep.single ⟨by simp [DSrc.kind, hv], rfl, rfl⟩ rfl (by intro es h; cases h) (by intro h; cases h)

theorem Post.add {o : DotOpts} {G : Ghost} {st : St} {s : Sdd} {r : DotRes} {E : Finset DEdge} (h : Inv o G st) (hs : ∀ r, (s, r) ∉ st.memo)
    (hr : Rep o (set G st.c (.node s, E)) (st.c + 1) (.node s) r) :
    Post o G st (set G st.c (.node s, E)) ⟨(s, r) :: st.memo, st.c + 1⟩ s.size :=
  ⟨agree_set _ _ _, Nat.le_succ _, Inv.add h.rep h.keys h.inj hs hr, fun p hp => by
    rcases List.mem_cons.mp hp with rfl | hp
    · exact .inr le_rfl
    · exact .inl hp⟩

mutual
theorem draw_visit_ok {o : DotOpts} : ∀ (s : Sdd) (st : St) (G : Ghost) (r : DotRes) (st' : St), Inv o G st → o.visit s st = .ok (r, st') →
    ∃ G', Post o G st G' st' s.size ∧ Rep o G' st'.c (.node s) r
  | .tt, st, G, r, st', hi, h => by
    rw [visit] at h
    split at h
    · rename_i r0 hl
      cases h
      exact ⟨G, Post.refl hi, hi.rep _ (mem_of_lookup hl)⟩
    · rename_i hl
      cases h
      exact ⟨_, Post.add hi (lookup_none hl) (walkTrue_ok o G st.c), walkTrue_ok o G st.c⟩
  | .ff, st, G, r, st', hi, h => by
    rw [visit] at h
    split at h
    · rename_i r0 hl
      cases h
      exact ⟨G, Post.refl hi, hi.rep _ (mem_of_lookup hl)⟩
    · rename_i hl
      cases h
      exact ⟨_, Post.add hi (lookup_none hl) (walkFalse_ok o G st.c), walkFalse_ok o G st.c⟩
  | .lit l, st, G, r, st', hi, h => by
    rw [visit] at h
    split at h
    · rename_i r0 hl
      cases h
      exact ⟨G, Post.refl hi, hi.rep _ (mem_of_lookup hl)⟩
    · rename_i hl
      split at h
      · cases h
      · rename_i r1 hr1
        cases h
        exact ⟨_, Post.add hi (lookup_none hl) (walkLit_ok G hr1), walkLit_ok G hr1⟩
  | .dec es, st, G, r, st', hi, h => by
    rw [visit] at h
    split at h
    · rename_i r0 hl
      cases h
      exact ⟨G, Post.refl hi, hi.rep _ (mem_of_lookup hl)⟩
    · rename_i hl
      split at h
      · cases h
      · rename_i rs st1 hv
        obtain ⟨G1, hp1, hf⟩ := draw_visitElems_ok es st G rs st1 hi hv
        obtain ⟨G2, ha, hel, hf2⟩ := walkAnds_ok es rs G1 st1.c le_rfl hf
        obtain ⟨E, hor⟩ := walkOr_ok hf2 (walkAnds_nodup o rs es st1.c)
        simp only [Except.ok.injEq, Prod.mk.injEq] at h
        obtain ⟨rfl, rfl⟩ := h
        have hsz : Sdd.sizeList es < (Sdd.dec es).size := by simp only [Sdd.size]; omega
        have hnot : ∀ r, (Sdd.dec es, r) ∉ st1.memo := by
          intro r hr
          rcases hp1.new _ hr with hr | hr
          · exact lookup_none hl r hr
          · simp only at hr; omega
        have hkeys : ∀ i < st1.c + es.length, ∀ t, (G2 i).1 = .node t → i < st1.c ∧ (G1 i).1 = .node t := by
          intro i hi' t ht
          rcases Nat.lt_or_ge i st1.c with hlt | hge
          · rw [ha i hlt] at ht; exact ⟨hlt, ht⟩
          · obtain ⟨p, s, hps⟩ := hel i hge hi'
            rw [hps] at ht; cases ht
        refine ⟨set G2 (st1.c + es.length) (.node (.dec es), E), ⟨?_, ?_, ?_, ?_⟩, hor⟩
        · exact (hp1.agree.trans hp1.le ha).trans (by have := hp1.le; omega) (agree_set _ _ _)
        · have := hp1.le; simp only; omega
        · refine Inv.add (c := st1.c + es.length) (fun p hp => (hp1.inv.rep p hp).mono ha (by omega)) (fun i hi' t ht => ?_)
            (fun i hi' j hj t hti htj => ?_) hnot hor
          · obtain ⟨h1, h2⟩ := hkeys i hi' t ht
            exact hp1.inv.keys i h1 t h2
          · obtain ⟨h1, h2⟩ := hkeys i hi' t hti
            obtain ⟨h3, h4⟩ := hkeys j hj t htj
            exact hp1.inv.inj i h1 j h3 t h2 h4
        · intro p hp
          rcases List.mem_cons.mp hp with rfl | hp
          · exact .inr le_rfl
          · rcases hp1.new p hp with hp | hp
            · exact .inl hp
            · exact .inr (by omega)
theorem draw_visitElems_ok {o : DotOpts} : ∀ (es : List (Sdd × Sdd)) (st : St) (G : Ghost) (rs : List (DotRes × DotRes)) (st' : St), Inv o G st →
    o.visitElems es st = .ok (rs, st') → ∃ G', Post o G st G' st' (Sdd.sizeList es) ∧
      List.Forall₂ (fun e r => Rep o G' st'.c (.node e.1) r.1 ∧ Rep o G' st'.c (.node e.2) r.2) es rs
  | [], st, G, rs, st', hi, h => by
    rw [visitElems] at h
    cases h
    exact ⟨G, Post.refl hi, .nil⟩
  | (p, s) :: es, st, G, rs, st', hi, h => by
    rw [visitElems] at h
    split at h
    · cases h
    · rename_i a st1 h1
      split at h
      · cases h
      · rename_i b st2 h2
        split at h
        · cases h
        · rename_i rs3 st3 h3
          cases h
          obtain ⟨G1, p1, r1⟩ := draw_visit_ok p st G a st1 hi h1
          obtain ⟨G2, p2, r2⟩ := draw_visit_ok s st1 G1 b st2 p1.inv h2
          obtain ⟨G3, p3, r3⟩ := draw_visitElems_ok es st2 G2 rs3 st' p2.inv h3
          refine ⟨G3, (p1.trans p2 (k := p.size + s.size) (by omega) (by omega)).trans p3 ?_ ?_, .cons ⟨?_, ?_⟩ r3⟩
          · simp only [Sdd.sizeList]; omega
          · simp only [Sdd.sizeList]; omega
          · exact r1.mono (p2.agree.trans p2.le p3.agree) (p2.le.trans p3.le)
          · exact r2.mono p3.agree p3.le
end

mutual
/-- Drawing succeeds when every literal has an entry. -/
theorem draw_visit_total {o : DotOpts} : ∀ (s : Sdd) (st : St), (∀ n ∈ s.vars, ∃ v, o.literals.numberToVal (n : ℤ) = .ok v) →
    ∃ x, o.visit s st = .ok x
  | .tt, st, _ => by
    rw [visit]; split <;> exact ⟨_, rfl⟩
  | .ff, st, _ => by
    rw [visit]; split <;> exact ⟨_, rfl⟩
  | .lit l, st, h => by
    rw [visit]
    split
    · exact ⟨_, rfl⟩
    · obtain ⟨v, hv⟩ := h l.natAbs (by simp [Sdd.vars])
      have hv' : o.literals.numberToVal l = .ok v := by
        rw [← hv]; simp only [LiteralInfo.numberToVal, LiteralInfo.numberToLit, Int.natAbs_natCast]
      have hb : o.literals.isNumberBoolean l = .ok true := by
        unfold LiteralInfo.numberToVal at hv'
        unfold LiteralInfo.isNumberBoolean
        split at hv'
        · rfl
        · cases hv'
      have hk : o.litKind l (o.nid (.lit l)) = .ok (.lit (o.nid (.lit l)) (l < 0) v) := by
        simp [litKind, hb, hv']
      simp only [walkLit, hk]
      exact ⟨_, rfl⟩
  | .dec es, st, h => by
    rw [visit]
    split
    · exact ⟨_, rfl⟩
    · obtain ⟨⟨rs, st'⟩, hx⟩ := draw_visitElems_total es st (fun n hn => h n hn)
      rw [hx]
      exact ⟨_, rfl⟩
theorem draw_visitElems_total {o : DotOpts} : ∀ (es : List (Sdd × Sdd)) (st : St), (∀ n ∈ Sdd.varsList es, ∃ v, o.literals.numberToVal (n : ℤ) = .ok v) →
    ∃ x, o.visitElems es st = .ok x
  | [], st, _ => by rw [visitElems]; exact ⟨_, rfl⟩
  | (p, s) :: es, st, h => by
    rw [visitElems]
    obtain ⟨⟨a, st1⟩, h1⟩ := draw_visit_total p st (fun n hn => h n (by simp [Sdd.varsList, hn]))
    rw [h1]
    simp only
    obtain ⟨⟨b, st2⟩, h2⟩ := draw_visit_total s st1 (fun n hn => h n (by simp [Sdd.varsList, hn]))
    rw [h2]
    simp only
    obtain ⟨⟨rs, st3⟩, h3⟩ := draw_visitElems_total es st2 (fun n hn => h n (by simp [Sdd.varsList, hn]))
    rw [h3]
    exact ⟨_, rfl⟩
end

end DotOpts
end Pywmi
