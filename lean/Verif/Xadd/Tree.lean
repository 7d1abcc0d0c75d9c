import Verif.Xadd.Pool
import Verif.Props.Decision
import Mathlib.Data.Real.Basic

set_option linter.unusedSectionVars false
set_option linter.unusedSimpArgs false

/-!
# Diagrams as trees

SPEC: the tree that a node of a pool stands for, and its value.  Nothing here is a model of code.
-/

namespace Pywmi
open Formula

/-- SPEC: a decision diagram, unfolded. -/
inductive XTree (E : Type) where
  | leaf (e : E)
  | node (d : Decision) (t f : XTree E)

namespace XTree
variable {E : Type}

/-- SPEC: the leaf that is reached when the tests have the given outcomes. -/
def leafAt (c : Formula → Bool) : XTree E → E
  | .leaf e => e
  | .node d t f => if c d.test then t.leafAt c else f.leafAt c

/-- SPEC: the tests of a diagram. -/
def tests : XTree E → List Formula
  | .leaf _ => []
  | .node d t f => d.test :: (t.tests ++ f.tests)

/-- SPEC: the leaves of a diagram. -/
def leaves : XTree E → List E
  | .leaf e => [e]
  | .node _ t f => t.leaves ++ f.leaves

/-- SPEC: on every path the tests come in the order of the list, without repetition. -/
def Ord (L : List Formula) : XTree E → Prop
  | .leaf _ => True
  | .node d t f => (∀ g, g ∈ t.tests ∨ g ∈ f.tests → L.idxOf d.test < L.idxOf g) ∧ t.Ord L ∧ f.Ord L

/-- SPEC: the value of a diagram at an assignment. -/
noncomputable def eval (ev : E → (String → ℝ) → ℝ) (T : XTree E) (σ : Env ℝ) : ℝ := ev (T.leafAt fun g => truth σ g) σ.r

@[simp] theorem leafAt_leaf (c : Formula → Bool) (e : E) : (leaf e).leafAt c = e := rfl
theorem leafAt_node (c : Formula → Bool) (d : Decision) (t f : XTree E) :
    (node d t f).leafAt c = if c d.test then t.leafAt c else f.leafAt c := rfl

theorem leafAt_mem (c : Formula → Bool) : ∀ T : XTree E, T.leafAt c ∈ T.leaves
  | .leaf e => by simp [leaves]
  | .node d t f => by
    rw [leafAt_node, leaves]
    split
    · exact List.mem_append_left _ (leafAt_mem c t)
    · exact List.mem_append_right _ (leafAt_mem c f)

/-- Only the outcomes of the diagram's own tests matter. -/
theorem leafAt_congr {c c' : Formula → Bool} : ∀ {T : XTree E}, (∀ g ∈ T.tests, c g = c' g) → T.leafAt c = T.leafAt c'
  | .leaf _, _ => rfl
  | .node d t f, h => by
    rw [leafAt_node, leafAt_node, h d.test (by simp [tests]), leafAt_congr (T := t) fun g hg => h g (by simp [tests, hg]),
      leafAt_congr (T := f) fun g hg => h g (by simp [tests, hg])]

theorem idxOf_prefix {L L' : List Formula} (h : L <+: L') {g : Formula} (hg : g ∈ L) : L'.idxOf g = L.idxOf g := by
  obtain ⟨r, rfl⟩ := h
  exact List.idxOf_append_of_mem hg

theorem Ord.mono {L L' : List Formula} (h : L <+: L') : ∀ {T : XTree E}, (∀ g ∈ T.tests, g ∈ L) → (T.Ord L' ↔ T.Ord L)
  | .leaf _, _ => Iff.rfl
  | .node d t f, hT => by
    have ht := Ord.mono h (T := t) fun g hg => hT g (by simp [tests, hg])
    have hf := Ord.mono h (T := f) fun g hg => hT g (by simp [tests, hg])
    simp only [Ord, ht, hf, idxOf_prefix h (hT d.test (by simp [tests]))]
    constructor <;> rintro ⟨h1, h2⟩ <;> refine ⟨fun g hg => ?_, h2⟩
    · have := h1 g hg
      rwa [idxOf_prefix h (hT g (by rcases hg with hg | hg <;> simp [tests, hg]))] at this
    · rw [idxOf_prefix h (hT g (by rcases hg with hg | hg <;> simp [tests, hg]))]
      exact h1 g hg

/-- In an ordered diagram every leaf is reached by some outcomes. -/
theorem Ord.reach {L : List Formula} : ∀ {T : XTree E}, T.Ord L → ∀ e ∈ T.leaves, ∀ c0 : Formula → Bool,
    ∃ c : Formula → Bool, T.leafAt c = e ∧ ∀ g, g ∉ T.tests → c g = c0 g
  | .leaf e', _, e, he, c0 => by
    simp only [leaves, List.mem_singleton] at he
    exact ⟨c0, he.symm, fun _ _ => rfl⟩
  | .node d t f, h, e, he, c0 => by
    simp only [leaves, List.mem_append] at he
    rcases he with he | he
    · obtain ⟨c, hc, hc'⟩ := h.2.1.reach e he (fun g => if g = d.test then true else c0 g)
      refine ⟨c, ?_, fun g hg => ?_⟩
      · have hd : c d.test = true := by
          rw [hc' d.test fun hm => lt_irrefl _ (h.1 _ (Or.inl hm))]; simp
        rw [leafAt_node, hd, if_pos rfl, hc]
      · simp only [tests, List.mem_cons, List.mem_append, not_or] at hg
        rw [hc' g hg.2.1, if_neg hg.1]
    · obtain ⟨c, hc, hc'⟩ := h.2.2.reach e he (fun g => if g = d.test then false else c0 g)
      refine ⟨c, ?_, fun g hg => ?_⟩
      · have hd : c d.test = false := by
          rw [hc' d.test fun hm => lt_irrefl _ (h.1 _ (Or.inr hm))]; simp
        rw [leafAt_node, hd, if_neg (by simp), hc]
      · simp only [tests, List.mem_cons, List.mem_append, not_or] at hg
        rw [hc' g hg.2.2, if_neg hg.1]

end XTree

/-- SPEC: the tree of a node of a pool. -/
inductive Den {E : Type} (p : Pool E) : ℕ → XTree E → Prop
  | leaf {n : ℕ} {e : E} : p.node n = some (.leaf e) → Den p n (.leaf e)
  | node {n : ℕ} {d : Decision} {t f : ℕ} {A B : XTree E} :
    p.node n = some (.inner d t f) → Den p t A → Den p f B → Den p n (.node d A B)

theorem Den.unique {E : Type} {p : Pool E} {n : ℕ} {A B : XTree E} (h : Den p n A) (h' : Den p n B) : A = B := by
  induction h generalizing B with
  | leaf h => cases h' with
    | leaf g => rw [h] at g; simp_all
    | node g _ _ => rw [h] at g; simp at g
  | node h _ _ ih1 ih2 => cases h' with
    | leaf g => rw [h] at g; simp at g
    | node g h1 h2 =>
      rw [h] at g
      simp only [Option.some.injEq, XNode.inner.injEq] at g
      obtain ⟨rfl, rfl, rfl⟩ := g
      rw [ih1 h1, ih2 h2]

/-! ### Extension of pools -/

/-- SPEC: the second pool has all nodes and tests of the first one, under the same ids. -/
structure Ext {E : Type} (p q : Pool E) : Prop where
  slots : p.slots <+: q.slots
  tests : p.tests <+: q.tests
  zero : q.zeroId = p.zeroId
  one : q.oneId = p.oneId

theorem Ext.refl {E : Type} (p : Pool E) : Ext p p := ⟨List.prefix_refl _, List.prefix_refl _, rfl, rfl⟩
theorem Ext.trans {E : Type} {p q r : Pool E} (h : Ext p q) (h' : Ext q r) : Ext p r :=
  ⟨h.slots.trans h'.slots, h.tests.trans h'.tests, h'.zero.trans h.zero, h'.one.trans h.one⟩

theorem Ext.node {E : Type} {p q : Pool E} (h : Ext p q) {n : ℕ} {x : XNode E} (hn : p.node n = some x) : q.node n = some x := by
  cases n with
  | zero => cases hn
  | succ k =>
    obtain ⟨r, hr⟩ := h.slots
    simp only [Pool.node] at hn ⊢
    rw [← hr]
    have : k < p.slots.length := by
      by_contra hk
      rw [List.getElem?_eq_none (by omega)] at hn
      cases hn
    rwa [List.getElem?_append_left this]

theorem Ext.den {E : Type} {p q : Pool E} (h : Ext p q) {n : ℕ} {T : XTree E} (hn : Den p n T) : Den q n T := by
  induction hn with
  | leaf hn => exact .leaf (h.node hn)
  | node hn _ _ ih1 ih2 => exact .node (h.node hn) ih1 ih2

/-! ### Hoare triples -/

section
variable {E α β : Type}

/-- SPEC: from pool `p` the computation keeps the invariant, relates the pools before and after (also when it raises), its
results satisfy `Q`, and it does not raise if `safe`. -/
def Run (I : Pool E → Prop) (R : Pool E → Pool E → Prop) (m : XM E α) (p : Pool E) (safe : Prop) (Q : α → Pool E → Prop) : Prop :=
  I (m p).2 ∧ R p (m p).2 ∧ (∀ a, (m p).1 = .ok a → Q a (m p).2) ∧ (safe → ∃ a, (m p).1 = .ok a)

theorem XM.pure_apply (a : α) (p : Pool E) : (pure a : XM E α) p = (.ok a, p) := rfl
theorem XM.bind_apply (m : XM E α) (f : α → XM E β) (p : Pool E) : (m >>= f) p =
    match m p with
    | (.ok a, q) => f a q
    | (.error e, q) => (.error e, q) := rfl

namespace Run
variable {I : Pool E → Prop} {R : Pool E → Pool E → Prop}

theorem ret (hr : ∀ p, R p p) {a : α} {p : Pool E} {safe : Prop} {Q : α → Pool E → Prop} (hI : I p) (h : Q a p) :
    Run I R (pure a) p safe Q :=
  ⟨hI, hr p, fun b hb => by cases hb; exact h, fun _ => ⟨a, rfl⟩⟩

theorem fail (hr : ∀ p, R p p) {e : PyErr} {p : Pool E} {safe : Prop} {Q : α → Pool E → Prop} (hI : I p) (h : ¬safe) :
    Run I R (XM.fail e) p safe Q :=
  ⟨hI, hr p, fun b hb => (by cases hb), fun hs => absurd hs h⟩

theorem bind (ht : ∀ {p q r}, R p q → R q r → R p r) {m : XM E α} {f : α → XM E β} {p : Pool E} {safe : Prop}
    {P : α → Pool E → Prop} {Q : β → Pool E → Prop} (h1 : Run I R m p safe P)
    (h2 : ∀ a q, I q → R p q → P a q → Run I R (f a) q safe Q) : Run I R (m >>= f) p safe Q := by
  obtain ⟨i1, r1, p1, s1⟩ := h1
  unfold Run
  rw [XM.bind_apply]
  cases hm : m p with
  | mk r q =>
    rw [hm] at i1 r1 p1 s1
    cases r with
    | ok a =>
      obtain ⟨i2, r2, p2, s2⟩ := h2 a q i1 r1 (p1 a rfl)
      exact ⟨i2, ht r1 r2, p2, s2⟩
    | error e =>
      refine ⟨i1, r1, fun a ha => (by cases ha), fun hs => ?_⟩
      obtain ⟨a, ha⟩ := s1 hs
      cases ha

theorem bindGet {f : Pool E → XM E β} {p : Pool E} {safe : Prop} {Q : β → Pool E → Prop} (h : Run I R (f p) p safe Q) :
    Run I R (XM.get >>= f) p safe Q := h

theorem bindLift {r : Except PyErr α} {f : α → XM E β} {p : Pool E} {safe : Prop} {Q : β → Pool E → Prop} {a : α}
    (hr : r = .ok a) (h : Run I R (f a) p safe Q) : Run I R (XM.lift r >>= f) p safe Q := by
  subst hr; exact h

theorem imp {m : XM E α} {p : Pool E} {s s' : Prop} {Q Q' : α → Pool E → Prop} (h : Run I R m p s Q) (hs : s' → s)
    (hQ : ∀ a q, I q → R p q → Q a q → Q' a q) : Run I R m p s' Q' :=
  ⟨h.1, h.2.1, fun a ha => hQ a _ h.1 h.2.1 (h.2.2.1 a ha), fun h' => h.2.2.2 (hs h')⟩

end Run
end

end Pywmi
