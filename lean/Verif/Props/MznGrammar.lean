import Verif.Parse.MznGrammar
import Verif.Props.MinizincAccept
import Mathlib.Tactic.Ring
import Mathlib.Tactic.NormNum

set_option linter.unusedSectionVars false
set_option linter.unusedSimpArgs false

/-!
# C73: how expressions without brackets are grouped
-/

namespace Pywmi

/-! ### Specification -/

section
variable {α : Type}

/-- SPEC: the text of a tree: the first operand, then operators and operands. -/
def GTree.text : GTree α → α × List (ZOp × α)
  | .leaf a => (a, [])
  | .node op l r => (l.text.1, l.text.2 ++ (op, r.text.1) :: r.text.2)

/-- SPEC: every operator of the tree satisfies a condition. -/
def GTree.AllOps (P : ZOp → Prop) : GTree α → Prop
  | .leaf _ => True
  | .node op l r => P op ∧ l.AllOps P ∧ r.AllOps P

/-- SPEC: operators bind tighter to the right operand, and not weaker to the left one. -/
def GTree.Grouped : GTree α → Prop
  | .leaf _ => True
  | .node op l r => l.Grouped ∧ r.Grouped ∧ l.AllOps (fun o => op.level ≤ o.level) ∧ r.AllOps (fun o => op.level < o.level)

theorem GTree.AllOps.imp {P Q : ZOp → Prop} (h : ∀ o, P o → Q o) : ∀ {t : GTree α}, t.AllOps P → t.AllOps Q
  | .leaf _, _ => trivial
  | .node _ _ _, ⟨h1, h2, h3⟩ => ⟨h _ h1, h2.imp h, h3.imp h⟩

theorem GTree.allOps_iff {P : ZOp → Prop} : ∀ (t : GTree α), t.AllOps P ↔ ∀ x ∈ t.text.2, P x.1
  | .leaf _ => by simp [GTree.AllOps, GTree.text]
  | .node op l r => by
    simp only [GTree.AllOps, GTree.text, List.forall_mem_append, List.forall_mem_cons, GTree.allOps_iff l, GTree.allOps_iff r]
    tauto

/-- The loop reads the operators that bind tightly enough, and groups them. -/
theorem climb_spec : ∀ (fuel p : ℕ) (left : GTree α) (rest : List (ZOp × α)), rest.length < fuel → left.Grouped →
    left.AllOps (fun o => p ≤ o.level) → (∀ x ∈ rest.head?, left.AllOps fun o => x.1.level ≤ o.level) →
    ∃ pre, rest = pre ++ (climb fuel p left rest).2 ∧ (climb fuel p left rest).1.text = (left.text.1, left.text.2 ++ pre) ∧
      (climb fuel p left rest).1.Grouped ∧ (climb fuel p left rest).1.AllOps (fun o => p ≤ o.level) ∧
      (∀ x ∈ (climb fuel p left rest).2.head?, x.1.level < p) := by
  intro fuel
  induction fuel with
  | zero => intro p left rest h; omega
  | succ fuel ih =>
    intro p left rest hl hg hp hh
    cases rest with
    | nil => exact ⟨[], by simp [climb], by simp [climb], by simpa [climb] using hg, by simpa [climb] using hp, by simp [climb]⟩
    | cons x rest =>
      obtain ⟨op, a⟩ := x
      simp only [climb]
      split
      · rename_i hop
        have hlen : rest.length < fuel := by simpa using hl
        obtain ⟨pre, h1, h2, h3, h4, h5⟩ := ih (op.level + 1) (.leaf a) rest hlen trivial trivial (fun x hx => trivial)
        generalize climb fuel (op.level + 1) (.leaf a) rest = c at *
        obtain ⟨right, rest'⟩ := c
        dsimp only at *
        have hleft : left.AllOps fun o => op.level ≤ o.level := hh (op, a) (by simp)
        have hnode : (GTree.node op left right).Grouped := ⟨hg, h3, hleft, h4⟩
        have hge : (GTree.node op left right).AllOps fun o => op.level ≤ o.level := ⟨le_refl _, hleft, h4.imp fun o h => by omega⟩
        obtain ⟨pre', g1, g2, g3, g4, g5⟩ := ih p (.node op left right) rest'
          (by rw [h1, List.length_append] at hlen; omega) hnode (hge.imp fun o h => by omega)
          (fun x hx => hge.imp fun o h => by have := h5 x hx; omega)
        refine ⟨(op, a) :: pre ++ pre', ?_, ?_, g3, g4, g5⟩
        · rw [List.cons_append, List.cons_append, List.append_assoc, ← g1, ← h1]
        · rw [g2]
          simp only [GTree.text, h2, List.nil_append, List.append_assoc, List.cons_append]
      · rename_i hop
        exact ⟨[], rfl, by simp, hg, hp, fun x hx => by
          simp only [List.head?_cons, Option.mem_def, Option.some.injEq] at hx
          subst hx
          exact Nat.lt_of_not_le hop⟩

/-- C73: an expression is read as a whole, nothing added, lost or moved, and every operator has on its left only operators that bind at
least as tightly, on its right only operators that bind tighter. -/
theorem group_spec (a : α) (ts : List (ZOp × α)) : (groupExpr a ts).text = (a, ts) ∧ (groupExpr a ts).Grouped := by
  obtain ⟨pre, h1, h2, h3, h4, h5⟩ := climb_spec (ts.length + 1) 0 (.leaf a) ts (by omega) trivial trivial (fun x hx => trivial)
  have : (climb (ts.length + 1) 0 (.leaf a) ts).2 = [] := by
    cases hc : (climb (ts.length + 1) 0 (.leaf a) ts).2 with
    | nil => rfl
    | cons x xs =>
      rw [hc] at h5
      exact absurd (h5 x rfl) (by omega)
  rw [this, List.append_nil] at h1
  subst h1
  exact ⟨by unfold groupExpr; simpa [GTree.text] using h2, h3⟩

/-- Two texts that are cut at the last of the weakest operators are cut at the same place. -/
theorem cut_unique {l1 l2 r1 r2 : List (ZOp × α)} {x1 x2 : ZOp × α} (h : l1 ++ x1 :: r1 = l2 ++ x2 :: r2)
    (hl1 : ∀ x ∈ l1, x1.1.level ≤ x.1.level) (hl2 : ∀ x ∈ l2, x2.1.level ≤ x.1.level)
    (hr1 : ∀ x ∈ r1, x1.1.level < x.1.level) (hr2 : ∀ x ∈ r2, x2.1.level < x.1.level) : l1 = l2 ∧ x1 = x2 ∧ r1 = r2 := by
  rcases List.append_eq_append_iff.mp h with ⟨c, h1, h2⟩ | ⟨c, h1, h2⟩
  · cases c with
    | nil =>
      simp only [List.append_nil, List.nil_append, List.cons.injEq] at h1 h2
      exact ⟨h1.symm, h2.1, h2.2⟩
    | cons y c =>
      simp only [List.cons_append, List.cons.injEq] at h2
      obtain ⟨rfl, h2⟩ := h2
      have a1 := hl2 x1 (by rw [h1]; simp)
      have a2 := hr1 x2 (by rw [h2]; simp)
      omega
  · cases c with
    | nil =>
      simp only [List.append_nil, List.nil_append, List.cons.injEq] at h1 h2
      exact ⟨h1, h2.1.symm, h2.2.symm⟩
    | cons y c =>
      simp only [List.cons_append, List.cons.injEq] at h2
      obtain ⟨rfl, h2⟩ := h2
      have a1 := hl1 x2 (by rw [h1]; simp)
      have a2 := hr2 x1 (by rw [h2]; simp)
      omega

/-- C73: the grouping is determined by the text. -/
theorem group_unique : ∀ {t u : GTree α}, t.Grouped → u.Grouped → t.text = u.text → t = u
  | .leaf a, .leaf b, _, _, h => by simp only [GTree.text, Prod.mk.injEq] at h; rw [h.1]
  | .leaf a, .node _ _ _, _, _, h => by simp [GTree.text] at h
  | .node _ _ _, .leaf b, _, _, h => by simp [GTree.text] at h
  | .node o1 l1 r1, .node o2 l2 r2, ⟨g1, g2, g3, g4⟩, ⟨k1, k2, k3, k4⟩, h => by
    simp only [GTree.text, Prod.mk.injEq] at h
    obtain ⟨e1, e2, e3⟩ := cut_unique h.2 ((GTree.allOps_iff _).mp g3) ((GTree.allOps_iff _).mp k3) ((GTree.allOps_iff _).mp g4)
      ((GTree.allOps_iff _).mp k4)
    obtain ⟨rfl, e4⟩ := Prod.mk.inj e2
    rw [group_unique g1 k1 (Prod.ext h.1 e1), group_unique g2 k2 (Prod.ext e4 e3)]
end

/-! ### Arithmetic -/

section
variable {K : Type} [Field K] [LinearOrder K] [IsStrictOrderedRing K]

/-- SPEC: an operator of arithmetic. -/
def ZOp.arith : ZOp → Prop
  | .div | .mult | .minus | .plus => True
  | _ => False

/-- SPEC: the value of an arithmetic operation. -/
def ZOp.app : ZOp → K → K → K
  | .div, a, b => a / b
  | .mult, a, b => a * b
  | .minus, a, b => a - b
  | _, a, b => a + b

/-- SPEC: the usual convention: from left to right, products and quotients first; `s` is the sum so far, `c` the current product. -/
def usualFrom (s c : K) : List (ZOp × K) → K
  | [] => s + c
  | (.div, a) :: ts => usualFrom s (c / a) ts
  | (.mult, a) :: ts => usualFrom s (c * a) ts
  | (.minus, a) :: ts => usualFrom (s + c) (-a) ts
  | (_, a) :: ts => usualFrom (s + c) a ts

/-- SPEC: the value of a sequence of operations by the usual convention. -/
def usual (a : K) (ts : List (ZOp × K)) : K := usualFrom 0 a ts

/-- SPEC: the value of a tree. -/
def GTree.value : GTree K → K
  | .leaf a => a
  | .node op l r => op.app l.value r.value

theorem usualFrom_add (s c : K) (ts : List (ZOp × K)) : usualFrom s c ts = s + usualFrom 0 c ts := by
  induction ts generalizing s c with
  | nil => simp [usualFrom]
  | cons x ts ih =>
    obtain ⟨op, a⟩ := x
    cases op
    all_goals
      simp only [usualFrom]
      first
        | (rw [ih]; done)
        | (rw [ih (s + c), ih (0 + c)]; ring)

/-- A text that ends a product. -/
theorem usualFrom_mul (c d : K) (ts : List (ZOp × K)) (h : ∀ x ∈ ts, x.1 = .mult ∨ x.1 = .div) : usualFrom 0 (d * c) ts = d * usualFrom 0 c ts := by
  induction ts generalizing c with
  | nil => simp [usualFrom]
  | cons x ts ih =>
    obtain ⟨op, a⟩ := x
    have h' := fun x hx => h x (List.mem_cons_of_mem _ hx)
    rcases h _ List.mem_cons_self with rfl | rfl
    · simp only [usualFrom]
      rw [← ih _ h', mul_assoc]
    · simp only [usualFrom]
      rw [← ih _ h', mul_div_assoc]

theorem usualFrom_append (s c : K) (ts us : List (ZOp × K)) (h : us = [] ∨ ∃ op a vs, us = (op, a) :: vs ∧ op ≠ .mult ∧ op ≠ .div) :
    usualFrom s c (ts ++ us) = usualFrom 0 (usualFrom s c ts) us := by
  induction ts generalizing s c with
  | nil =>
    rcases h with rfl | ⟨op, a, vs, rfl, h1, h2⟩
    · simp [usualFrom]
    · cases op <;> simp_all [usualFrom]
  | cons x ts ih =>
    obtain ⟨op, a⟩ := x
    cases op <;> simp only [List.cons_append, usualFrom, ih]

/-- The operator at the top of a tree can be computed last. -/
theorem usual_cut (a b : K) (op : ZOp) (l r : List (ZOp × K)) (hop : op.arith) (hl : ∀ x ∈ l, x.1.arith ∧ op.level ≤ x.1.level)
    (hr : ∀ x ∈ r, x.1.arith ∧ op.level < x.1.level) : usual a (l ++ (op, b) :: r) = op.app (usual a l) (usual b r) := by
  unfold usual
  cases op <;> simp only [ZOp.arith] at hop
  · -- quotient: only quotients on the left, nothing on the right
    have hr0 : r = [] := by
      cases r with
      | nil => rfl
      | cons x r =>
        have := hr x List.mem_cons_self
        obtain ⟨o, y⟩ := x
        cases o <;> simp [ZOp.level, ZOp.arith] at this
    subst hr0
    have hl' : ∀ x ∈ l, x.1 = .div := fun x hx => by
      have := hl x hx
      obtain ⟨o, y⟩ := x
      cases o <;> simp [ZOp.level, ZOp.arith] at this ⊢
    simp only [ZOp.app, usualFrom, zero_add]
    clear hl hr
    induction l generalizing a with
    | nil => simp [usualFrom]
    | cons x l ih =>
      obtain ⟨o, y⟩ := x
      obtain rfl : o = .div := hl' _ List.mem_cons_self
      simp only [List.cons_append, usualFrom]
      exact ih _ fun x hx => hl' x (List.mem_cons_of_mem _ hx)
  · have hr' : ∀ x ∈ r, x.1 = .mult ∨ x.1 = .div := fun x hx => by
      have := hr x hx
      obtain ⟨o, y⟩ := x
      cases o <;> simp [ZOp.level, ZOp.arith] at this ⊢
    have hl' : ∀ x ∈ l, x.1 = .mult ∨ x.1 = .div := fun x hx => by
      have := hl x hx
      obtain ⟨o, y⟩ := x
      cases o <;> simp [ZOp.level, ZOp.arith] at this ⊢
    simp only [ZOp.app]
    clear hl hr
    induction l generalizing a with
    | nil =>
      simp only [List.nil_append, usualFrom, zero_add]
      exact usualFrom_mul b a r hr'
    | cons x l ih =>
      obtain ⟨o, y⟩ := x
      have h' := fun x hx => hl' x (List.mem_cons_of_mem _ hx)
      rcases hl' _ List.mem_cons_self with h | h <;> dsimp only at h <;> subst h <;> simp only [List.cons_append, usualFrom] <;> exact ih _ h'
  · have hr' : ∀ x ∈ r, x.1 = .mult ∨ x.1 = .div := fun x hx => by
      have := hr x hx
      obtain ⟨o, y⟩ := x
      cases o <;> simp [ZOp.level, ZOp.arith] at this ⊢
    rw [usualFrom_append _ _ _ _ (.inr ⟨_, _, _, rfl, by simp, by simp⟩)]
    simp only [ZOp.app, usualFrom]
    rw [usualFrom_add, ← neg_one_mul b, usualFrom_mul b (-1) r hr']
    ring
  · rw [usualFrom_append _ _ _ _ (.inr ⟨_, _, _, rfl, by simp, by simp⟩)]
    simp only [ZOp.app, usualFrom]
    rw [usualFrom_add]
    ring

/-- A grouped tree of arithmetic has the usual value. -/
theorem grouped_usual : ∀ (t : GTree K), t.Grouped → t.AllOps ZOp.arith → t.value = usual t.text.1 t.text.2
  | .leaf a, _, _ => by simp [GTree.value, GTree.text, usual, usualFrom]
  | .node op l r, ⟨g1, g2, g3, g4⟩, ⟨o1, o2, o3⟩ => by
    simp only [GTree.value, GTree.text]
    rw [usual_cut _ _ op l.text.2 r.text.2 o1, grouped_usual l g1 o2, grouped_usual r g2 o3]
    · intro x hx
      exact ⟨(GTree.allOps_iff l).mp o2 x hx, (GTree.allOps_iff l).mp g3 x hx⟩
    · intro x hx
      exact ⟨(GTree.allOps_iff r).mp o3 x hx, (GTree.allOps_iff r).mp g4 x hx⟩

/-- C73: sums, differences, products and quotients without brackets have the value of the usual convention, although in the grammar
products bind weaker than quotients, and sums weaker than differences. -/
theorem arith_usual (a : K) (ts : List (ZOp × K)) (h : ∀ x ∈ ts, x.1.arith) : (groupExpr a ts).value = usual a ts := by
  obtain ⟨h1, h2⟩ := group_spec a ts
  rw [grouped_usual _ h2 ((GTree.allOps_iff _).mpr (by rw [h1]; exact h)), h1]

/-- The values of the operands. -/
def GTree.map {α β : Type} (f : α → β) : GTree α → GTree β
  | .leaf a => .leaf (f a)
  | .node op l r => .node op (l.map f) (r.map f)

theorem GTree.map_text {α β : Type} (f : α → β) : ∀ t : GTree α, (t.map f).text = (f t.text.1, t.text.2.map fun x => (x.1, f x.2))
  | .leaf a => by simp [GTree.map, GTree.text]
  | .node op l r => by simp [GTree.map, GTree.text, GTree.map_text f l, GTree.map_text f r]

theorem GTree.map_allOps {α β : Type} (f : α → β) (P : ZOp → Prop) : ∀ t : GTree α, (t.map f).AllOps P ↔ t.AllOps P
  | .leaf a => Iff.rfl
  | .node op l r => by simp only [GTree.map, GTree.AllOps, GTree.map_allOps f P l, GTree.map_allOps f P r]

theorem GTree.map_grouped {α β : Type} (f : α → β) : ∀ t : GTree α, (t.map f).Grouped ↔ t.Grouped
  | .leaf a => Iff.rfl
  | .node op l r => by simp only [GTree.map, GTree.Grouped, GTree.map_grouped f l, GTree.map_grouped f r, GTree.map_allOps]

theorem toExpr_value (ρ : Names K) (σ : Env K) (f : MExpr → K) : ∀ t : GTree MExpr, t.AllOps ZOp.arith →
    mVal ρ σ t.text.1 = some (.n (f t.text.1)) → (∀ x ∈ t.text.2, mVal ρ σ x.2 = some (.n (f x.2))) →
    mVal ρ σ t.toExpr = some (.n (t.map f).value)
  | .leaf a, _, h, _ => h
  | .node op l r, ⟨o1, o2, o3⟩, h, hs => by
    simp only [GTree.text, List.forall_mem_append, List.forall_mem_cons] at hs h
    have hl := toExpr_value ρ σ f l o2 h hs.1
    have hr := toExpr_value ρ σ f r o3 hs.2.1 hs.2.2
    simp only [GTree.toExpr, mVal, hl, hr, Option.bind_some, GTree.map, GTree.value]
    cases op <;> simp only [ZOp.arith] at o1 <;> rfl

/-- C73: the expression that the visitor gets for an arithmetic text, and so the term that is read (C71), has the usual value. -/
theorem mzn_arith {T : MTable} {ρ : Names K} (hT : MTableOk ρ T) {a : MExpr} {ts : List (ZOp × MExpr)} (hts : ∀ x ∈ ts, x.1.arith) {f : MExpr → K} {σ : Env K}
    (ha : mVal ρ σ a = some (.n (f a))) (hf : ∀ x ∈ ts, mVal ρ σ x.2 = some (.n (f x.2))) {v : MVal} (h : mExpr T (groupExpr a ts).toExpr = .ok v) :
    Pt.den σ v.value = .n (usual (f a) (ts.map fun x => (x.1, f x.2))) := by
  obtain ⟨h1, h2⟩ := group_spec a ts
  obtain ⟨g, ⟨t, o, _⟩, e⟩ := mExpr_ok hT _ h
  have ho : (groupExpr a ts).AllOps ZOp.arith := (GTree.allOps_iff _).mpr (by rw [h1]; exact hts)
  have := toExpr_value ρ σ f (groupExpr a ts) ho (by rw [h1]; exact ha) (by rw [h1]; exact hf)
  rw [e, Option.some.injEq] at this
  rw [o.den, this, grouped_usual _ ((GTree.map_grouped f _).mpr h2) ((GTree.map_allOps f _ _).mpr ho), GTree.map_text, h1]
end

/-- `2 - 3 + 4 / 2 * 5`: (2 - 3) + ((4 / 2) * 5). -/
example : (groupExpr (2 : ℚ) [(.minus, 3), (.plus, 4), (.div, 2), (.mult, 5)]).value = 9 := by
  rw [arith_usual _ _ (by simp [ZOp.arith])]
  norm_num [usual, usualFrom]

/-! ### Logic -/

/-- SPEC: the precedence of MiniZinc (handbook, table of operators): `\/` and `xor` bind equally, `->` and `<-` bind equally, and all
comparisons do. -/
def ZOp.handbook : ZOp → ℕ
  | .equiv => 1
  | .impl | .rimpl => 2
  | .or | .xor => 3
  | .and => 4
  | .lt | .gt | .le | .ge | .eq | .eqeq | .nq => 5
  | .plus | .minus => 6
  | .mult | .div => 7
  | .other => 8

/-- SPEC: grouped as the handbook says: from left to right among operators that bind equally. -/
def GTree.Standard {α : Type} : GTree α → Prop
  | .leaf _ => True
  | .node op l r => l.Standard ∧ r.Standard ∧ l.AllOps (fun o => op.handbook ≤ o.handbook) ∧ r.AllOps (fun o => op.handbook < o.handbook)

/-- SPEC: the truth value of a tree of connectives. -/
def GTree.truth : GTree Bool → Bool
  | .leaf a => a
  | .node op l r => match op with
    | .and => l.truth && r.truth
    | .xor => l.truth != r.truth
    | .or => l.truth || r.truth
    | .impl => !l.truth || r.truth
    | .rimpl => l.truth || !r.truth
    | .equiv => l.truth == r.truth
    | _ => false

/-- C73 does not extend to logic: the text `true \/ false xor true` is read as true, by the handbook it is false. -/
theorem logic_grouping : ∃ t : GTree Bool, t.Standard ∧ t.text = (true, [(.or, false), (.xor, true)]) ∧ t.truth = false ∧
    (groupExpr true [(.or, false), (.xor, true)]).truth = true := by
  refine ⟨.node .xor (.node .or (.leaf true) (.leaf false)) (.leaf true), ?_, rfl, rfl, rfl⟩
  simp [GTree.Standard, GTree.AllOps, ZOp.handbook]

/-- Where the two tables agree on the order of the operators of a text, the grouping is that of the handbook. -/
theorem group_standard {α : Type} (a : α) (ts : List (ZOp × α))
    (h : ∀ x ∈ ts, ∀ y ∈ ts, (x.1.level ≤ y.1.level → x.1.handbook ≤ y.1.handbook) ∧ (x.1.level < y.1.level → x.1.handbook < y.1.handbook)) :
    (groupExpr a ts).Standard := by
  obtain ⟨h1, h2⟩ := group_spec a ts
  have key : ∀ t : GTree α, t.Grouped → (∀ x ∈ t.text.2, ∀ y ∈ t.text.2, (x.1.level ≤ y.1.level → x.1.handbook ≤ y.1.handbook) ∧
      (x.1.level < y.1.level → x.1.handbook < y.1.handbook)) → t.Standard := by
    intro t
    induction t with
    | leaf a => intros; trivial
    | node op l r ihl ihr =>
      rintro ⟨g1, g2, g3, g4⟩ hh
      simp only [GTree.text] at hh
      have hop : (op, r.text.1) ∈ l.text.2 ++ (op, r.text.1) :: r.text.2 := by simp
      refine ⟨ihl g1 fun x hx y hy => hh x (by simp [hx]) y (by simp [hy]), ihr g2 fun x hx y hy => hh x (by simp [hx]) y (by simp [hy]), ?_, ?_⟩
      · rw [GTree.allOps_iff] at g3 ⊢
        exact fun x hx => (hh _ hop x (by simp [hx])).1 (g3 x hx)
      · rw [GTree.allOps_iff] at g4 ⊢
        exact fun x hx => (hh _ hop x (by simp [hx])).2 (g4 x hx)
  exact key _ h2 (by rw [h1]; exact h)

/-- The condition holds of `x * y + z <= 3 /\ a \/ b -> c`, for example. -/
example : (groupExpr 0 [(.mult, 1), (.plus, 2), (.le, 3), (.and, 4), (.or, 5), (.impl, 6)]).Standard := group_standard _ _ (by decide)

end Pywmi
