import Verif.Xadd.History

set_option linter.unusedSectionVars false
set_option linter.unusedSimpArgs false

/-!
# SPEC: values and shapes of diagrams, read off the nodes of a pool
-/

namespace Pywmi
open Formula MeasureTheory Set

section
variable {E : Type} [DecidableEq E] {X : XCtx E} {ev : E → (String → ℝ) → ℝ} {Γ : String → Ty}

/-- SPEC: the value of a node at an assignment: follow the tests to a leaf. -/
inductive ValAt (ev : E → (String → ℝ) → ℝ) (p : Pool E) (σ : Env ℝ) : ℕ → ℝ → Prop
  | leaf {n : ℕ} {e : E} : p.node n = some (.leaf e) → ValAt ev p σ n (ev e σ.r)
  | pos {n : ℕ} {d : Decision} {t f : ℕ} {v : ℝ} : p.node n = some (.inner d t f) → truth σ d.test = true → ValAt ev p σ t v → ValAt ev p σ n v
  | neg {n : ℕ} {d : Decision} {t f : ℕ} {v : ℝ} : p.node n = some (.inner d t f) → truth σ d.test = false → ValAt ev p σ f v → ValAt ev p σ n v

theorem ValAt.unique {p : Pool E} {σ : Env ℝ} {n : ℕ} {v w : ℝ} (h : ValAt ev p σ n v) (h' : ValAt ev p σ n w) : v = w := by
  induction h with
  | leaf h =>
    cases h' with
    | leaf g => rw [h] at g; simp only [Option.some.injEq, XNode.leaf.injEq] at g; rw [g]
    | pos g _ _ => rw [h] at g; simp at g
    | neg g _ _ => rw [h] at g; simp at g
  | pos h ht _ ih =>
    cases h' with
    | leaf g => rw [h] at g; simp at g
    | pos g _ hv =>
      rw [h] at g; simp only [Option.some.injEq, XNode.inner.injEq] at g
      obtain ⟨rfl, rfl, rfl⟩ := g
      exact ih hv
    | neg g hf _ =>
      rw [h] at g; simp only [Option.some.injEq, XNode.inner.injEq] at g
      obtain ⟨rfl, rfl, rfl⟩ := g
      rw [ht] at hf; cases hf
  | neg h ht _ ih =>
    cases h' with
    | leaf g => rw [h] at g; simp at g
    | neg g _ hv =>
      rw [h] at g; simp only [Option.some.injEq, XNode.inner.injEq] at g
      obtain ⟨rfl, rfl, rfl⟩ := g
      exact ih hv
    | pos g hf _ =>
      rw [h] at g; simp only [Option.some.injEq, XNode.inner.injEq] at g
      obtain ⟨rfl, rfl, rfl⟩ := g
      rw [ht] at hf; cases hf

theorem Den.val {p : Pool E} {n : ℕ} {T : XTree E} (h : Den p n T) (σ : Env ℝ) : ValAt ev p σ n (T.eval ev σ) := by
  induction h with
  | leaf h => exact .leaf h
  | node h _ _ ih1 ih2 =>
    rename_i n d t f A B hA hB
    cases ht : truth σ d.test with
    | true => exact .pos h ht (by simpa [XTree.eval_node, ht] using ih1)
    | false => exact .neg h ht (by simpa [XTree.eval_node, ht] using ih2)

theorem Den.val_iff {p : Pool E} {n : ℕ} {T : XTree E} (h : Den p n T) {σ : Env ℝ} {v : ℝ} : ValAt ev p σ n v ↔ v = T.eval ev σ :=
  ⟨fun hv => hv.unique (h.val σ), fun hv => hv ▸ h.val σ⟩

/-- SPEC: all leaves of the diagram are zero or one. -/
def Binary (X : XCtx E) (p : Pool E) (n : ℕ) : Prop :=
  ∀ m e, Reach p n m → p.node m = some (.leaf e) → e = X.back.alg.zero ∨ e = X.back.alg.one

theorem Den.leaf_reach {p : Pool E} {n : ℕ} {T : XTree E} (h : Den p n T) : ∀ e ∈ T.leaves, ∃ m, Reach p n m ∧ p.node m = some (.leaf e) := by
  induction h with
  | leaf h =>
    intro e he
    simp only [XTree.leaves, List.mem_singleton] at he
    subst he
    exact ⟨_, .root, h⟩
  | node h _ _ ih1 ih2 =>
    intro e he
    simp only [XTree.leaves, List.mem_append] at he
    rcases he with he | he
    · obtain ⟨m, h1, h2⟩ := ih1 e he
      exact ⟨m, (Reach.step .root ⟨_, _, _, h, Or.inl rfl⟩).trans h1, h2⟩
    · obtain ⟨m, h1, h2⟩ := ih2 e he
      exact ⟨m, (Reach.step .root ⟨_, _, _, h, Or.inr rfl⟩).trans h1, h2⟩

theorem Den.binary_iff {p : Pool E} {n : ℕ} {T : XTree E} (h : Den p n T) : Binary X p n ↔ Bin X T := by
  constructor
  · intro hb e he
    obtain ⟨m, h1, h2⟩ := h.leaf_reach e he
    exact hb m e h1 h2
  · intro hb m e hm he
    exact hb e (h.reach_leaf hm he)

/-- SPEC: on every path the tests come in the order of their registration, without repetition. -/
def Ordered (p : Pool E) (n : ℕ) : Prop :=
  ∀ m d t f, Reach p n m → p.node m = some (.inner d t f) → ∀ c, c = t ∨ c = f → ∀ m' d' t' f', Reach p c m' → p.node m' = some (.inner d' t' f') →
    p.tests.idxOf d.test < p.tests.idxOf d'.test

theorem Den.test_reach {p : Pool E} {n : ℕ} {T : XTree E} (h : Den p n T) : ∀ g, g ∈ T.tests ↔ ∃ m d t f, Reach p n m ∧ p.node m = some (.inner d t f) ∧ d.test = g := by
  induction h with
  | leaf h =>
    intro g
    refine ⟨fun hg => (by cases hg), ?_⟩
    rintro ⟨m, d, t, f, hm, hn, -⟩
    exfalso
    have : ∀ m, Reach p _ m → m = _ := fun m hm => by
      induction hm with
      | root => rfl
      | step _ hc ih =>
        obtain ⟨d, t, f, hx, -⟩ := hc
        rw [ih, h] at hx; simp at hx
    rw [this m hm, h] at hn; simp at hn
  | node h _ _ ih1 ih2 =>
    rename_i n d t f A B hA hB
    intro g
    simp only [XTree.tests, List.mem_cons, List.mem_append, ih1, ih2]
    constructor
    · rintro (rfl | ⟨m, d', t', f', h1, h2, h3⟩ | ⟨m, d', t', f', h1, h2, h3⟩)
      · exact ⟨n, d, t, f, .root, h, rfl⟩
      · exact ⟨m, d', t', f', (Reach.step .root ⟨_, _, _, h, Or.inl rfl⟩).trans h1, h2, h3⟩
      · exact ⟨m, d', t', f', (Reach.step .root ⟨_, _, _, h, Or.inr rfl⟩).trans h1, h2, h3⟩
    · rintro ⟨m, d', t', f', h1, h2, h3⟩
      have key : ∀ m, Reach p n m → m = n ∨ Reach p t m ∨ Reach p f m := fun m hm => by
        induction hm with
        | root => exact Or.inl rfl
        | step hm hc ih =>
          right
          rcases ih with rfl | ih | ih
          · obtain ⟨d'', t'', f'', hx, hc⟩ := hc
            rw [h] at hx
            simp only [Option.some.injEq, XNode.inner.injEq] at hx
            obtain ⟨-, rfl, rfl⟩ := hx
            rcases hc with rfl | rfl
            · exact Or.inl .root
            · exact Or.inr .root
          · exact Or.inl (.step ih hc)
          · exact Or.inr (.step ih hc)
      rcases key m h1 with rfl | h4 | h4
      · rw [h] at h2
        simp only [Option.some.injEq, XNode.inner.injEq] at h2
        exact Or.inl (by rw [← h3, ← h2.1])
      · exact Or.inr (Or.inl ⟨m, d', t', f', h4, h2, h3⟩)
      · exact Or.inr (Or.inr ⟨m, d', t', f', h4, h2, h3⟩)

theorem Den.ordered_iff {p : Pool E} {n : ℕ} {T : XTree E} (h : Den p n T) : Ordered p n ↔ T.Ord p.tests := by
  induction h with
  | leaf h =>
    refine ⟨fun _ => trivial, fun _ m d t f hm hn => ?_⟩
    exfalso
    have := ((Den.leaf h).test_reach d.test).mpr ⟨m, d, t, f, hm, hn, rfl⟩
    cases this
  | node h h1 h2 ih1 ih2 =>
    rename_i n d t f A B
    constructor
    · intro ho
      refine ⟨fun g hg => ?_, ih1.mp ?_, ih2.mp ?_⟩
      · rcases hg with hg | hg
        · obtain ⟨m, d', t', f', k1, k2, rfl⟩ := (h1.test_reach g).mp hg
          exact ho n d t f .root h t (Or.inl rfl) m d' t' f' k1 k2
        · obtain ⟨m, d', t', f', k1, k2, rfl⟩ := (h2.test_reach g).mp hg
          exact ho n d t f .root h f (Or.inr rfl) m d' t' f' k1 k2
      · exact fun m d' t' f' hm => ho m d' t' f' ((Reach.step .root ⟨_, _, _, h, Or.inl rfl⟩).trans hm)
      · exact fun m d' t' f' hm => ho m d' t' f' ((Reach.step .root ⟨_, _, _, h, Or.inr rfl⟩).trans hm)
    · rintro ⟨o1, o2, o3⟩ m d' t' f' hm hn c hc m' d'' t'' f'' hm' hn'
      have key : m = n ∨ Reach p t m ∨ Reach p f m := by
        clear hn
        induction hm with
        | root => exact Or.inl rfl
        | step hm hc ih =>
          right
          rcases ih with rfl | ih | ih
          · obtain ⟨d3, t3, f3, hx, hc⟩ := hc
            rw [h] at hx
            simp only [Option.some.injEq, XNode.inner.injEq] at hx
            obtain ⟨-, rfl, rfl⟩ := hx
            rcases hc with rfl | rfl
            · exact Or.inl .root
            · exact Or.inr .root
          · exact Or.inl (.step ih hc)
          · exact Or.inr (.step ih hc)
      rcases key with rfl | hk | hk
      · rw [h] at hn
        simp only [Option.some.injEq, XNode.inner.injEq] at hn
        obtain ⟨rfl, rfl, rfl⟩ := hn
        refine o1 d''.test ?_
        rcases hc with rfl | rfl
        · exact Or.inl ((h1.test_reach _).mpr ⟨m', d'', t'', f'', hm', hn', rfl⟩)
        · exact Or.inr ((h2.test_reach _).mpr ⟨m', d'', t'', f'', hm', hn', rfl⟩)
      · exact (ih1.mpr o2) m d' t' f' hk hn c hc m' d'' t'' f'' hm' hn'
      · exact (ih2.mpr o3) m d' t' f' hk hn c hc m' d'' t'' f'' hm' hn'

theorem Run.returns {α : Type} {I : Pool E → Prop} {R : Pool E → Pool E → Prop} {m : XM E α} {p : Pool E} {s : Prop} {Q : α → Pool E → Prop}
    (h : Run I R m p s Q) (hs : s) : ∃ a q, m p = (.ok a, q) ∧ I q ∧ R p q ∧ Q a q := by
  obtain ⟨h1, h2, h3, h4⟩ := h
  obtain ⟨a, ha⟩ := h4 hs
  exact ⟨a, (m p).2, Prod.ext ha rfl, h1, h2, h3 a ha⟩

end
end Pywmi
