import Verif.Props.DrawLemmas

set_option linter.unusedSectionVars false
set_option linter.unusedSimpArgs false

/-!
# Drawings of diagrams (C87)
-/

namespace Pywmi
open Formula

section
variable {K : Type} [Field K] [LinearOrder K]

/-! ### Specification -/

/-- SPEC: the truth value of what a literal stands for. -/
def LitVal.holds (σ : Env K) : LitVal → Bool
  | .bool x => σ.b x
  | .atom f => f.truth σ

/-- SPEC: the values of the numbers of literals at a point. -/
def litValues (lits : LiteralInfo) (σ : Env K) (n : ℕ) : Bool :=
  match lits.numberToVal (n : ℤ) with
  | .ok v => v.holds σ
  | .error _ => false

/-- SPEC: a reading of a drawing at a point: every declared vertex has the truth value that its label and the vertices below it give. -/
def Faithful (σ : Env K) (g : Finset DVertex × Finset DEdge) (t : ℕ → Bool) : Prop :=
  ∀ v ∈ g.1,
    match v.kind with
    | .tt => t v.id = true
    | .ff => t v.id = false
    | .and => t v.id = true ↔ ∀ e ∈ g.2, e.src = v.id → t e.dst = true
    | .or _ => t v.id = true ↔ ∃ e ∈ g.2, e.src = v.id ∧ t e.dst = true
    | .lit _ neg w => t v.id = (if neg then !w.holds σ else w.holds σ)

/-- SPEC: a vertex to which no edge leads. -/
def IsTop (g : Finset DVertex × Finset DEdge) (v : DVertex) : Prop := v ∈ g.1 ∧ ∀ e ∈ g.2, e.dst ≠ v.id

/-- SPEC: the edges that leave a vertex. -/
def outEdges (g : Finset DVertex × Finset DEdge) (i : ℕ) : Finset DEdge := g.2.filter fun e => e.src = i

/-! ### Proofs -/

namespace DotOpts

variable {nid : Sdd → ℕ} {lits : LiteralInfo} {simplify : Formula → Formula} {na : List (DKey × String)}
  {ea : List ((DKey × DKey) × String)} {df dso : Bool} {s : Sdd} {g : Finset DVertex × Finset DEdge}

theorem dot_rep (h : sddToDot nid lits simplify na ea df dso s = .ok g) : ∃ G c r,
    Rep ⟨nid, lits, simplify, na, ea, !df, !dso⟩ G c (.node s) r ∧ g = (r.nodes, r.edges) ∧
    (∀ i < c, ∀ j < c, ∀ t, (G i).1 = .node t → (G j).1 = .node t → i = j) := by
  unfold sddToDot at h
  simp only at h
  split at h
  · cases h
  · rename_i r st hv
    cases h
    obtain ⟨G, hp, hr⟩ := draw_visit_ok s ⟨[], 0⟩ (fun _ => (.node .tt, ∅)) r st
      ⟨by simp, by simp, by simp⟩ hv
    exact ⟨G, st.c, r, hr, rfl, hp.inv.inj⟩

theorem Rep.outEdges {o : DotOpts} {G : Ghost} {c : ℕ} {x : DSrc} {r : DotRes} (h : Rep o G c x r) {v : DVertex} (hv : v ∈ r.nodes) :
    Pywmi.outEdges (r.nodes, r.edges) v.id = (G v.id).2 := by
  ext e
  simp only [Pywmi.outEdges, Finset.mem_filter]
  constructor
  · rintro ⟨he, hs⟩
    obtain ⟨w, hw, he⟩ := (h.edge e).mp he
    have := (h.out w hw e he).1
    have : w = v := h.uniq w hw v hv (this.symm.trans hs)
    rw [← this]; exact he
  · intro he
    exact ⟨(h.edge e).mpr ⟨v, hv, he⟩, (h.out v hv e he).1⟩

theorem Rep.faithful_iff {o : DotOpts} {G : Ghost} {c : ℕ} {x : DSrc} {r : DotRes} (h : Rep o G c x r) (σ : Env K) (t : ℕ → Bool) :
    Faithful σ (r.nodes, r.edges) t ↔ ∀ v ∈ r.nodes, t v.id = (G v.id).1.val (litValues o.literals σ) := by
  -- the truth value of a vertex given those below it
  have step : ∀ v ∈ r.nodes, (∀ e ∈ (G v.id).2, t e.dst = (G e.dst).1.val (litValues o.literals σ)) →
      ((match v.kind with
        | .tt => t v.id = true
        | .ff => t v.id = false
        | .and => t v.id = true ↔ ∀ e ∈ r.edges, e.src = v.id → t e.dst = true
        | .or _ => t v.id = true ↔ ∃ e ∈ r.edges, e.src = v.id ∧ t e.dst = true
        | .lit _ neg w => t v.id = (if neg then !w.holds σ else w.holds σ)) ↔
      t v.id = (G v.id).1.val (litValues o.literals σ)) := by
    intro v hv hlow
    obtain ⟨hk, -, -⟩ := (h.vert v hv).2
    have hloc := h.loc v hv
    have hout : ∀ e, (e ∈ r.edges ∧ e.src = v.id) ↔ e ∈ (G v.id).2 := by
      intro e
      rw [← h.outEdges hv]
      simp [Pywmi.outEdges]
    have hall : (∀ e ∈ r.edges, e.src = v.id → t e.dst = true) ↔ ∀ e ∈ (G v.id).2, t e.dst = true :=
      ⟨fun H e he => H e ((hout e).mpr he).1 ((hout e).mpr he).2, fun H e he hs => H e ((hout e).mp ⟨he, hs⟩)⟩
    have hex : (∃ e ∈ r.edges, e.src = v.id ∧ t e.dst = true) ↔ ∃ e ∈ (G v.id).2, t e.dst = true :=
      ⟨fun ⟨e, he, hs, H⟩ => ⟨e, (hout e).mp ⟨he, hs⟩, H⟩, fun ⟨e, he, H⟩ => ⟨e, ((hout e).mpr he).1, ((hout e).mpr he).2, H⟩⟩
    unfold LocalOk at hloc
    generalize hx : (G v.id).1 = y at hk hloc ⊢
    match y, hk, hloc with
    | .node .tt, hk, _ =>
      simp only [DSrc.kind, Option.some.injEq] at hk
      rw [← hk]; simp [DSrc.val, Sdd.eval]
    | .node .ff, hk, _ =>
      simp only [DSrc.kind, Option.some.injEq] at hk
      rw [← hk]; simp [DSrc.val, Sdd.eval]
    | .node (.lit l), hk, _ =>
      simp only [DSrc.kind] at hk
      split at hk
      · rename_i w hw
        simp only [Option.some.injEq] at hk
        have hw' : o.literals.numberToVal ((l.natAbs : ℕ) : ℤ) = .ok w := by
          rw [← hw]; simp only [LiteralInfo.numberToVal, LiteralInfo.numberToLit, Int.natAbs_natCast]
        have hlv : litValues o.literals σ l.natAbs = w.holds σ := by unfold litValues; rw [hw']
        rw [← hk]
        simp only [DSrc.val, Sdd.eval, hlv, decide_eq_true_eq]
      · cases hk
    | .node (.dec es), hk, hloc =>
      simp only [DSrc.kind, Option.some.injEq] at hk
      rw [← hk]
      simp only
      rw [hex]
      have h1 : (DSrc.node (.dec es)).val (litValues o.literals σ) = true ↔ ∃ e ∈ (G v.id).2, t e.dst = true := by
        refine (hloc.1 _).trans ⟨?_, ?_⟩
        · rintro ⟨e, he, H⟩; exact ⟨e, he, by rw [hlow e he]; exact H⟩
        · rintro ⟨e, he, H⟩; exact ⟨e, he, by rw [← hlow e he]; exact H⟩
      rw [← h1]
      exact Bool.eq_iff_iff.symm
    | .elem p q, hk, hloc =>
      simp only [DSrc.kind, Option.some.injEq] at hk
      rw [← hk]
      simp only
      rw [hall]
      obtain ⟨e, f, h1, h2, h3, -⟩ := hloc
      have h4 : (DSrc.elem p q).val (litValues o.literals σ) = true ↔ ∀ e ∈ (G v.id).2, t e.dst = true := by
        have he := (hlow e (by rw [h1]; simp)).trans (h2 _)
        have hf := (hlow f (by rw [h1]; simp)).trans (h3 _)
        simp only [h1, Finset.mem_insert, Finset.mem_singleton, forall_eq_or_imp, forall_eq, he, hf, DSrc.val, Bool.and_eq_true]
      rw [← h4]
      exact Bool.eq_iff_iff.symm
  constructor
  · intro hf
    have main : ∀ n, ∀ v ∈ r.nodes, v.id < n → t v.id = (G v.id).1.val (litValues o.literals σ) := by
      intro n
      induction n with
      | zero => intro v _ h; omega
      | succ n ih =>
        intro v hv hn
        refine (step v hv fun e he => ?_).mp (hf v hv)
        obtain ⟨-, hlt, ⟨w, hw, hwe⟩, -⟩ := h.out v hv e he
        rw [← hwe]
        exact ih w hw (by omega)
    exact fun v hv => main (v.id + 1) v hv (by omega)
  · intro ht v hv
    refine (step v hv fun e he => ?_).mpr (ht v hv)
    obtain ⟨-, -, ⟨w, hw, hwe⟩, -⟩ := h.out v hv e he
    rw [← hwe]
    exact ht w hw

/-! ### C87 -/

/-- C87: every number is declared once, edges lead from declared vertices to declared vertices with smaller numbers, so that there are no
cycles. -/
theorem sdd_dot_wellformed (h : sddToDot nid lits simplify na ea df dso s = .ok g) :
    (∀ v ∈ g.1, ∀ w ∈ g.1, v.id = w.id → v = w) ∧
    ∀ e ∈ g.2, (∃ v ∈ g.1, v.id = e.src) ∧ (∃ w ∈ g.1, w.id = e.dst) ∧ e.dst < e.src := by
  obtain ⟨G, c, r, hr, rfl, -⟩ := dot_rep h
  refine ⟨hr.uniq, fun e he => ?_⟩
  obtain ⟨v, hv, he⟩ := (hr.edge e).mp he
  obtain ⟨h1, h2, h3, -⟩ := hr.out v hv e he
  exact ⟨⟨v, hv, h1.symm⟩, h3, by omega⟩

/-- C87: a drawing has one vertex at the top, at every point it has a reading, and every reading gives the top the truth value of the diagram.
Only a diagram that is false everywhere can have an empty drawing, and only when false nodes are left out. -/
theorem sdd_dot_reading (h : sddToDot nid lits simplify na ea df dso s = .ok g) :
    (g = (∅, ∅) ∧ df = false ∧ ∀ β, s.eval β = false) ∨
    ∃ top, IsTop g top ∧ (∀ v, IsTop g v → v = top) ∧ ∀ σ : Env K, (∃ t, Faithful σ g t) ∧
      ∀ t, Faithful σ g t → t top.id = s.eval (litValues lits σ) := by
  obtain ⟨G, c, r, hr, rfl, -⟩ := dot_rep h
  by_cases hne : r.nodes = ∅
  · refine .inl ⟨?_, by simpa using (hr.empty hne).1, (hr.empty hne).2⟩
    have : r.edges = ∅ := by
      ext e
      simp [hr.edge e, hne]
    rw [hne, this]
  · obtain ⟨⟨top, htop, hid⟩, -, hval, -⟩ := hr.root hne
    refine .inr ⟨top, ⟨htop, fun e he hd => ?_⟩, fun v hv => ?_, fun σ => ⟨⟨fun i => (G i).1.val (litValues lits σ), ?_⟩, fun t ht => ?_⟩⟩
    · obtain ⟨v, hv, he⟩ := (hr.edge e).mp he
      have h1 := (hr.out v hv e he).2.1
      have h2 := hr.max v hv
      omega
    · rcases hr.inc v hv.1 with h1 | ⟨e, he, h1⟩
      · exact hr.uniq v hv.1 top htop (h1.trans hid.symm)
      · exact absurd h1 (hv.2 e he)
    · rw [hr.faithful_iff]
      exact fun v hv => rfl
    · rw [hr.faithful_iff] at ht
      rw [ht top htop, hid]
      exact hval _

/-- C87: every vertex is the line for a node or an element of the diagram with its annotation, a node has at most one vertex, and the label of an edge
is the annotation for the objects at its ends. -/
theorem sdd_dot_depicts (h : sddToDot nid lits simplify na ea df dso s = .ok g) : ∃ D : ℕ → DSrc,
    (∀ v ∈ g.1, v.Shows nid lits na (D v.id)) ∧
    (∀ v ∈ g.1, ∀ w ∈ g.1, ∀ t, D v.id = .node t → D w.id = .node t → v = w) ∧
    ∀ e ∈ g.2, e.label = (ea.lookup ((D e.src).key nid, (D e.dst).key nid)).getD "" := by
  obtain ⟨G, c, r, hr, rfl, hinj⟩ := dot_rep h
  refine ⟨fun i => (G i).1, fun v hv => (hr.vert v hv).2, fun v hv w hw t hvt hwt => ?_, fun e he => ?_⟩
  · exact hr.uniq v hv w hw (hinj _ (hr.vert v hv).1 _ (hr.vert w hw).1 t hvt hwt)
  · obtain ⟨v, hv, he⟩ := (hr.edge e).mp he
    exact (hr.out v hv e he).2.2.2

/-- C87: with `draw_false` the drawing shows the whole diagram: every node has a vertex, a decision node has one edge for each of its elements, and an
element has edges to its prime and to its sub. -/
theorem sdd_dot_complete (h : sddToDot nid lits simplify na ea true dso s = .ok g) : ∃ D : ℕ → DSrc,
    (∀ v ∈ g.1, v.Shows nid lits na (D v.id)) ∧
    (∀ t, Sdd.Sub t s → ∃ v ∈ g.1, D v.id = .node t ∧ ∀ w ∈ g.1, D w.id = .node t → w = v) ∧
    (∀ v ∈ g.1, ∀ es, D v.id = .node (.dec es) → (outEdges g v.id).card = es.length ∧
      ∀ e ∈ es, ∃ a ∈ outEdges g v.id, D a.dst = .elem e.1 e.2) ∧
    (∀ v ∈ g.1, ∀ p q, D v.id = .elem p q → ∃ a b, outEdges g v.id = {a, b} ∧ D a.dst = .node p ∧ D b.dst = .node q) := by
  obtain ⟨G, c, r, hr, rfl, hinj⟩ := dot_rep h
  refine ⟨fun i => (G i).1, fun v hv => (hr.vert v hv).2, fun t ht => ?_, fun v hv es hes => ?_, fun v hv p q hpq => ?_⟩
  · obtain ⟨v, hv, hvt⟩ := hr.complete rfl t ht
    exact ⟨v, hv, hvt, fun w hw hwt => hr.uniq w hw v hv (hinj _ (hr.vert w hw).1 _ (hr.vert v hv).1 t hwt hvt)⟩
  · rw [hr.outEdges hv]
    have hloc := hr.loc v hv
    unfold LocalOk at hloc
    have hes : (G v.id).1 = .node (.dec es) := hes
    rw [hes] at hloc
    exact hloc.2.1 rfl
  · rw [hr.outEdges hv]
    have hloc := hr.loc v hv
    unfold LocalOk at hloc
    have hpq : (G v.id).1 = .elem p q := hpq
    rw [hpq] at hloc
    obtain ⟨e, f, h1, -, -, h4⟩ := hloc
    exact ⟨e, f, h1, (h4 rfl).1, (h4 rfl).2⟩

/-- C87: without `draw_false` no false node is drawn; without `draw_single_or` also, every drawn decision node has at least two edges. -/
theorem sdd_dot_skips (h : sddToDot nid lits simplify na ea false dso s = .ok g) :
    (∀ v ∈ g.1, v.kind ≠ .ff) ∧ (dso = false → ∀ v ∈ g.1, ∀ n, v.kind = .or n → 2 ≤ (outEdges g v.id).card) := by
  obtain ⟨G, c, r, hr, rfl, hinj⟩ := dot_rep h
  refine ⟨fun v hv hk => ?_, fun hd v hv n hk => ?_⟩
  · have h1 := (hr.vert v hv).2.1
    have hloc := hr.loc v hv
    unfold LocalOk at hloc
    generalize (G v.id).1 = y at h1 hloc
    match y, h1, hloc with
    | .node .ff, _, hloc => simp at hloc
    | .node .tt, h1, _ => rw [hk] at h1; simp [DSrc.kind] at h1
    | .node (.lit l), h1, _ =>
      rw [hk] at h1; simp only [DSrc.kind] at h1
      split at h1 <;> simp at h1
    | .node (.dec es), h1, _ => rw [hk] at h1; simp [DSrc.kind] at h1
    | .elem p q, h1, _ => rw [hk] at h1; simp [DSrc.kind] at h1
  · rw [hr.outEdges hv]
    have h1 := (hr.vert v hv).2.1
    have hloc := hr.loc v hv
    unfold LocalOk at hloc
    generalize (G v.id).1 = y at h1 hloc
    match y, h1, hloc with
    | .node .ff, h1, _ => rw [hk] at h1; simp [DSrc.kind] at h1
    | .node .tt, h1, _ => rw [hk] at h1; simp [DSrc.kind] at h1
    | .node (.lit l), h1, _ =>
      rw [hk] at h1; simp only [DSrc.kind] at h1
      split at h1 <;> simp at h1
    | .node (.dec es), _, hloc => exact hloc.2.2 rfl (by simp [hd])
    | .elem p q, h1, _ => rw [hk] at h1; simp [DSrc.kind] at h1

/-- C87: drawing succeeds whenever the literals of the diagram have entries in the table. -/
theorem sdd_dot_total (nid : Sdd → ℕ) (lits : LiteralInfo) (simplify : Formula → Formula) (na : List (DKey × String))
    (ea : List ((DKey × DKey) × String)) (df dso : Bool) (s : Sdd) (h : ∀ n ∈ s.vars, ∃ v, lits.numberToVal (n : ℤ) = .ok v) :
    ∃ g, sddToDot nid lits simplify na ea df dso s = .ok g := by
  unfold sddToDot
  obtain ⟨⟨r, st⟩, hx⟩ := draw_visit_total (o := ⟨nid, lits, simplify, na, ea, !df, !dso⟩) s ⟨[], 0⟩ h
  simp only [hx]
  exact ⟨_, rfl⟩

end DotOpts
end

/-! ### Examples -/

namespace DrawExample

/-- A table with the Boolean variables a, b and the inequality x ≤ 1. -/
def lits : LiteralInfo :=
  ⟨[("b0", .bool "a"), ("b1", .bool "b"), ("a0", .atom (.le (.sym "x" .real) (.realC 1)))],
   [(.le (.sym "x" .real) (.realC 1), "a0")], [("a", "b0"), ("b", "b1")]⟩

/-- The node for a ∧ b. -/
def inner : Sdd := .dec [(.lit 1, .lit 2), (.lit (-1), .ff)]

/-- The node for (x ≤ 1 ∧ a ∧ b) ∨ (¬ (x ≤ 1) ∧ a). -/
def outer : Sdd := .dec [(.lit 3, inner), (.lit (-3), .lit 1)]

/-- Ids of the nodes. -/
def ids : Sdd → ℕ := fun s => if s = .ff then 0 else if s = .tt then 1 else if s = inner then 8 else if s = outer then 9 else
  match s with
  | .lit l => if l < 0 then 1 + l.natAbs else 4 + l.natAbs
  | _ => 20

/-- The drawing with all nodes. -/
theorem all_nodes : ∃ g, DotOpts.sddToDot ids lits id [(.node 9, "root")] [] true true outer = .ok g ∧ g.1.card = 12 ∧ g.2.card = 12 := by
  refine ⟨_, rfl, ?_, ?_⟩ <;> decide +kernel

/-- The drawing without false nodes and decision nodes with one child. -/
theorem few_nodes : ∃ g, DotOpts.sddToDot ids lits id [] [] false false outer = .ok g ∧ g.1.card = 8 ∧ g.2.card = 8 ∧
    ∀ v ∈ g.1, v.kind ≠ .or 8 := by
  refine ⟨_, rfl, ?_, ?_, ?_⟩ <;> decide +kernel

/-- C87, finding: the annotation of the edge from an element to its sub is found under the id of the sub only if the sub is drawn; where the sub is
replaced by its only child the annotation is lost. -/
theorem sdd_dot_note_lost :
    (∃ g, DotOpts.sddToDot ids lits id [] [((.elem 7 8, .node 8), "note")] true false outer = .ok g ∧ ∃ e ∈ g.2, e.label = "note") ∧
    ∃ g, DotOpts.sddToDot ids lits id [] [((.elem 7 8, .node 8), "note")] false false outer = .ok g ∧ ∀ e ∈ g.2, e.label = "" := by
  refine ⟨⟨_, rfl, ?_⟩, ⟨_, rfl, ?_⟩⟩ <;> decide +kernel

/-- The literals of the example have entries. -/
theorem outer_literals : ∀ n ∈ outer.vars, ∃ v, lits.numberToVal (n : ℤ) = .ok v := by
  intro n hn
  have : n = 1 ∨ n = 2 ∨ n = 3 := by
    have : n ∈ ({1, 2, 3} : Finset ℕ) := by
      have h : outer.vars = {1, 2, 3} := by decide +kernel
      rw [← h]; exact hn
    simpa using this
  rcases this with rfl | rfl | rfl
  · exact ⟨_, rfl⟩
  · exact ⟨_, rfl⟩
  · exact ⟨_, rfl⟩

/-- A diagram that is false has an empty drawing without false nodes. -/
theorem empty_drawing : DotOpts.sddToDot ids lits id [] [] false false (.dec [(.lit 1, .ff), (.lit (-1), .ff)]) = .ok (∅, ∅) := by
  decide +kernel

end DrawExample
end Pywmi
