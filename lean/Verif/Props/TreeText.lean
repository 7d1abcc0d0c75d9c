import Verif.Sample.TreeText
import Verif.Props.AdaptiveOracle
import Verif.Props.Parse

set_option linter.unusedSectionVars false
set_option linter.unusedSimpArgs false

/-!
# C104: the text of a tree of adaptive rejection
-/

namespace Pywmi
open Formula Prog

/-! ## Specification -/

/-- SPEC: what a text should say: empty cells, other cells with the share of accepted samples and the share of the volume, and splits with the
name of the variable and the value. -/
inductive TreeView where
  | empty
  | cell (accepted share : ℚ)
  | split (name : String) (value : ℚ) (l r : TreeView)
deriving DecidableEq

/-- SPEC: what there is to say about a tree, if the real variables are `rs`. -/
def ATree.view {K : Type} (rs : List String) (V : ℚ) : ATree K → Option TreeView
  | .leaf c => some (if c.empty then .empty else .cell ((countTrue c.labels : ℚ) / (c.labels.length : ℚ)) (c.volume / V))
  | .node _ sp l r =>
    match rs[sp.1]?, l.view rs V, r.view rs V with
    | some n, some a, some b => some (.split n sp.2 a b)
    | _, _, _ => none

/-- SPEC: the volume a text states: the sum over the cells of the products. -/
def TreeView.volume : TreeView → ℚ
  | .empty => 0
  | .cell a s => a * s
  | .split _ _ l r => l.volume + r.volume

/-- SPEC: every split halves the share of the volume. -/
def TreeView.Halved : ℚ → TreeView → Prop
  | _, .empty => True
  | q, .cell _ s => s = q
  | q, .split _ _ l r => l.Halved (q / 2) ∧ r.Halved (q / 2)

/-- SPEC: texts of numbers that can be told apart: different numbers have different texts, without blanks and brackets. -/
structure ShareText (text : ℚ → List Char) : Prop where
  inj : Function.Injective text
  plain : ∀ q, ∀ c ∈ text q, c ≠ ' ' ∧ c ≠ ']'

/-- SPEC: names without blanks and closing brackets. -/
def PlainName (n : String) : Prop := ∀ c ∈ n.toList, c ≠ ' ' ∧ c ≠ ']'

/-- The text of what there is to say: a line for every cell and split, two blanks for every level. -/
def TreeView.render (text : ℚ → List Char) : ℕ → TreeView → List Char
  | d, .empty => List.replicate (2 * d) ' ' ++ "[E]\n".toList
  | d, .cell a s => List.replicate (2 * d) ' ' ++ ('[' :: text a ++ " * ".toList ++ text s ++ "]\n".toList)
  | d, .split n v l r =>
    List.replicate (2 * d) ' ' ++ ('[' :: n.toList ++ " <= ".toList ++ text v ++ "]\n".toList) ++ l.render text (d + 1) ++ r.render text (d + 1)

theorem treeIndent_eq : ∀ d, treeIndent d = List.replicate (2 * d) ' '
  | 0 => rfl
  | d + 1 => by rw [treeIndent, treeIndent_eq d, show 2 * (d + 1) = 2 * d + 1 + 1 by ring, List.replicate_succ, List.replicate_succ]

/-- The names in a view are plain. -/
def TreeView.Plain : TreeView → Prop
  | .empty => True
  | .cell _ _ => True
  | .split n _ l r => PlainName n ∧ l.Plain ∧ r.Plain

/-! ## Reading a text back -/

/-- Two words that end at the first of certain characters are the same. -/
theorem word_inj {p : Char → Prop} {a a' : List Char} {x x' : Char} {r r' : List Char} (ha : ∀ c ∈ a, ¬p c) (ha' : ∀ c ∈ a', ¬p c)
    (hx : p x) (hx' : p x') (h : a ++ x :: r = a' ++ x' :: r') : a = a' ∧ x = x' ∧ r = r' := by
  induction a generalizing a' with
  | nil =>
    cases a' with
    | nil => simpa using h
    | cons c a' =>
      simp only [List.nil_append, List.cons_append, List.cons.injEq] at h
      exact absurd (h.1 ▸ hx) (ha' c (by simp))
  | cons c a ih =>
    cases a' with
    | nil =>
      simp only [List.nil_append, List.cons_append, List.cons.injEq] at h
      exact absurd (h.1 ▸ hx') (ha c (by simp))
    | cons c' a' =>
      simp only [List.cons_append, List.cons.injEq] at h
      obtain ⟨h1, h2, h3⟩ := ih (fun d hd => ha d (by simp [hd])) (fun d hd => ha' d (by simp [hd])) h.2
      exact ⟨by rw [h.1, h1], h2, h3⟩

theorem render_inj {text : ℚ → List Char} (ht : ShareText text) : ∀ (v v' : TreeView) (d : ℕ) (r r' : List Char), v.Plain → v'.Plain →
    v.render text d ++ r = v'.render text d ++ r' → v = v' ∧ r = r' := by
  have stop : ∀ {a a' : List Char} {x x' : Char} {r r' : List Char}, (∀ c ∈ a, c ≠ ' ' ∧ c ≠ ']') → (∀ c ∈ a', c ≠ ' ' ∧ c ≠ ']') →
      (x = ' ' ∨ x = ']') → (x' = ' ' ∨ x' = ']') → a ++ x :: r = a' ++ x' :: r' → a = a' ∧ x = x' ∧ r = r' := by
    intro a a' x x' r r' h1 h2 h3 h4 h
    exact word_inj (p := fun c => c = ' ' ∨ c = ']') (fun c hc => not_or.mpr (h1 c hc)) (fun c hc => not_or.mpr (h2 c hc)) h3 h4 h
  have hE : ∀ c ∈ ['E'], c ≠ ' ' ∧ c ≠ ']' := by decide
  intro v
  induction v with
  | empty =>
    intro v' d r r' _ hp h
    cases v' with
    | empty => simpa [TreeView.render] using h
    | cell a s =>
      simp only [TreeView.render, List.append_assoc, List.append_cancel_left_eq] at h
      have h := (List.cons.inj h).2
      have := (stop (a := ['E']) (x := ']') hE (ht.plain a) (.inr rfl) (.inl rfl) h).2.1
      exact absurd this (by decide)
    | split n w a b =>
      simp only [TreeView.render, List.append_assoc, List.append_cancel_left_eq] at h
      have h := (List.cons.inj h).2
      have := (stop (a := ['E']) (x := ']') hE hp.1 (.inr rfl) (.inl rfl) h).2.1
      exact absurd this (by decide)
  | cell a s =>
    intro v' d r r' _ hp h
    cases v' with
    | empty =>
      simp only [TreeView.render, List.append_assoc, List.append_cancel_left_eq] at h
      have h := (List.cons.inj h).2
      have := (stop (a' := ['E']) (x' := ']') (ht.plain a) hE (.inl rfl) (.inr rfl) h).2.1
      exact absurd this (by decide)
    | cell a' s' =>
      simp only [TreeView.render, List.append_assoc, List.append_cancel_left_eq] at h
      have h := (List.cons.inj h).2
      obtain ⟨h1, -, h2⟩ := stop (ht.plain a) (ht.plain a') (.inl rfl) (.inl rfl) h
      have h2 := (List.cons.inj (List.cons.inj h2).2).2
      obtain ⟨h3, -, h4⟩ := stop (ht.plain s) (ht.plain s') (.inr rfl) (.inr rfl) h2
      exact ⟨by rw [ht.inj h1, ht.inj h3], (List.cons.inj h4).2⟩
    | split n w x y =>
      simp only [TreeView.render, List.append_assoc, List.append_cancel_left_eq] at h
      have h := (List.cons.inj h).2
      have h2 := (stop (ht.plain a) hp.1 (.inl rfl) (.inl rfl) h).2.2
      exact absurd (List.cons.inj h2).1 (by decide)
  | split n w x y ihx ihy =>
    intro v' d r r' hp hp' h
    cases v' with
    | empty =>
      simp only [TreeView.render, List.append_assoc, List.append_cancel_left_eq] at h
      have h := (List.cons.inj h).2
      have := (stop (a' := ['E']) (x' := ']') hp.1 hE (.inl rfl) (.inr rfl) h).2.1
      exact absurd this (by decide)
    | cell a' s' =>
      simp only [TreeView.render, List.append_assoc, List.append_cancel_left_eq] at h
      have h := (List.cons.inj h).2
      have h2 := (stop hp.1 (ht.plain a') (.inl rfl) (.inl rfl) h).2.2
      exact absurd (List.cons.inj h2).1 (by decide)
    | split n' w' x' y' =>
      simp only [TreeView.render, List.append_assoc, List.append_cancel_left_eq] at h
      have h := (List.cons.inj h).2
      obtain ⟨h1, -, h2⟩ := stop hp.1 hp'.1 (.inl rfl) (.inl rfl) h
      have h2 := (List.cons.inj (List.cons.inj (List.cons.inj h2).2).2).2
      obtain ⟨h3, -, h4⟩ := stop (ht.plain w) (ht.plain w') (.inr rfl) (.inr rfl) h2
      have h4 := (List.cons.inj h4).2
      obtain ⟨rfl, h5⟩ := ihx x' (d + 1) _ _ hp.2.1 hp'.2.1 h4
      obtain ⟨rfl, h6⟩ := ihy y' (d + 1) _ _ hp.2.2 hp'.2.2 h5
      exact ⟨by rw [String.toList_injective h1, ht.inj h3], h6⟩

/-! ## C104 -/

section
variable {K : Type} [Field K] [LinearOrder K] [IsStrictOrderedRing K]

/-- A tree that was built has something to say, and is printed as such if the real variables are the first ones. -/
theorem Grown.printed {B : ABuilder K} {rs : List String} {bs0 : ABounds} (hB : BuilderOk B rs bs0) {V : ℚ} (hV : V ≠ 0) (text : ℚ → List Char)
    {vars : List String} (hrs : rs <+: vars) {bs vol stk T stk'} (h : Grown B rs bs vol stk T stk') (hl : bs.length = rs.length) :
    ∃ v, T.view rs V = some v ∧ ∀ d, prettyTree text vars V d T = .ok (v.render text d) := by
  induction h with
  | @stop bs vol stk c hs hv he ha =>
    have : ¬(c.labels.length = 0 ∨ V = 0) := by
      rw [hs.labels, List.length_map]
      have := hs.count
      have := hB.count
      rintro (h | h)
      · omega
      · exact hV h
    refine ⟨_, rfl, fun d => ?_⟩
    simp only [prettyTree, he, Bool.false_eq_true, if_false, if_neg this, TreeView.render, treeIndent_eq]
  | @empty bs vol stk c hs hv he ha h0 hk => exact ⟨_, rfl, fun d => by simp [prettyTree, he, TreeView.render, treeIndent_eq]⟩
  | @node bs vol stk c sp l r x stk1 stk2 hs hv he ha hh _ _ ih1 ih2 =>
    obtain ⟨a, a1, a2⟩ := ih1 ((lowerBounds_length bs sp).trans hl)
    obtain ⟨b, b1, b2⟩ := ih2 ((upperBounds_length bs sp).trans hl)
    obtain ⟨b0, hb0, -⟩ := hh
    have hlt : sp.1 < rs.length := by rw [← hl]; exact (List.getElem?_eq_some_iff.mp hb0).1
    have hn : rs[sp.1]? = some rs[sp.1] := List.getElem?_eq_getElem hlt
    have hv : vars[sp.1]? = some rs[sp.1] := by
      obtain ⟨t, rfl⟩ := hrs
      rw [List.getElem?_append_left hlt, hn]
    refine ⟨.split rs[sp.1] sp.2 a b, by simp only [ATree.view, hn, a1, b1], fun d => ?_⟩
    simp only [prettyTree, hv, a2, b2, TreeView.render, treeIndent_eq]

theorem view_plain {rs : List String} (hp : ∀ n ∈ rs, PlainName n) {V : ℚ} : ∀ (T : ATree K) (v : TreeView), T.view rs V = some v → v.Plain
  | .leaf c, v, h => by
    simp only [ATree.view, Option.some.injEq] at h
    subst h
    split <;> trivial
  | .node c sp l r, v, h => by
    simp only [ATree.view] at h
    split at h
    · rename_i n a b h1 h2 h3
      cases h
      exact ⟨hp n (List.mem_of_getElem? h1), view_plain hp l a h2, view_plain hp r b h3⟩
    · cases h

theorem Grown.stated {B : ABuilder K} {rs : List String} {bs0 : ABounds} (hB : BuilderOk B rs bs0) {V : ℚ} (hV : V ≠ 0)
    {bs vol stk T stk'} (h : Grown B rs bs vol stk T stk') : ∀ v, T.view rs V = some v → v.Halved (vol / V) ∧
      ∀ (q : Option Formula) (s : B.rng.State), treeVolume B rs V none q T s = .ok (v.volume, T, s) := by
  induction h with
  | @stop bs vol stk c hs hv he ha =>
    have : ¬(c.labels.length = 0 ∨ V = 0) := by
      rw [hs.labels, List.length_map]
      have := hs.count
      have := hB.count
      rintro (h | h)
      · omega
      · exact hV h
    intro v h
    simp only [ATree.view, he, Bool.false_eq_true, if_false, Option.some.injEq] at h
    subst h
    refine ⟨by simp only [TreeView.Halved, hv], fun q s => ?_⟩
    simp only [treeVolume, he, Bool.false_eq_true, if_false, topUp, if_neg this, TreeView.volume]
  | @empty bs vol stk c hs hv he ha h0 hk =>
    intro v h
    simp only [ATree.view, he, if_true, Option.some.injEq] at h
    subst h
    exact ⟨trivial, fun q s => by simp only [treeVolume, he, if_true, TreeView.volume]⟩
  | @node bs vol stk c sp l r x stk1 stk2 hs hv he ha hh _ _ ih1 ih2 =>
    intro v h
    simp only [ATree.view] at h
    split at h
    · rename_i n a b h1 h2 h3
      cases h
      obtain ⟨a1, a2⟩ := ih1 a h2
      obtain ⟨b1, b2⟩ := ih2 b h3
      have hd : vol / V / 2 = vol / 2 / V := by ring
      refine ⟨⟨by rw [hd]; exact a1, by rw [hd]; exact b1⟩, fun q s => ?_⟩
      simp only [treeVolume, he, Bool.false_eq_true, if_false, a2, b2, TreeView.volume]
    · cases h

/-- **C104** (partial: the real variables must be the first ones): every tree that can be built is printed, and the text tells everything: if
another tree that can be built, over other variables perhaps, has the same text, then both have the same shape, the same variables and values of splits, the same
empty cells, and the same shares of accepted samples and of the volume in the other ones. The products in the text add up to the volume that the tree
reports, as a share of the volume of the box, and every split halves the share of a cell. -/
theorem tree_text_partial {B : ABuilder K} {rs : List String} {bs : ABounds} (hB : BuilderOk B rs bs) (hrs : rs <+: B.domain.vars)
    (hn : ∀ n ∈ rs, PlainName n) {text : ℚ → List Char} (ht : ShareText text) {fuel : ℕ} {s s' : B.rng.State} {T : ATree K} {V : ℚ}
    (h : buildRoot B fuel s = .ok (T, some V, s')) :
    ∃ t v, prettyTree text B.domain.vars V 0 T = .ok t ∧ T.view rs V = some v ∧
      (v.Halved 1 ∧ ∀ q s, treeVolume B rs V none q T s = .ok (v.volume, T, s)) ∧
      ∀ {B₂ : ABuilder K} {rs₂ : List String} {bs₂ : ABounds}, BuilderOk B₂ rs₂ bs₂ → rs₂ <+: B₂.domain.vars → (∀ n ∈ rs₂, PlainName n) →
        ∀ {fuel₂ : ℕ} {s₂ s₂' : B₂.rng.State} {T₂ : ATree K} {V₂ : ℚ}, buildRoot B₂ fuel₂ s₂ = .ok (T₂, some V₂, s₂') →
        prettyTree text B₂.domain.vars V₂ 0 T₂ = .ok t → T₂.view rs₂ V₂ = some v := by
  have key : ∀ {B : ABuilder K} {rs : List String} {bs : ABounds}, BuilderOk B rs bs → rs <+: B.domain.vars →
      ∀ {fuel : ℕ} {s s' : B.rng.State} {T : ATree K} {V : ℚ}, buildRoot B fuel s = .ok (T, some V, s') →
      ∃ v, T.view rs V = some v ∧ (v.Halved 1 ∧ ∀ q s, treeVolume B rs V none q T s = .ok (v.volume, T, s)) ∧
        ∀ d, prettyTree text B.domain.vars V d T = .ok (v.render text d) := by
    intro B rs bs hB hrs fuel s s' T V h
    obtain ⟨hV, stk', g⟩ := buildRoot_grown hB h
    cases hV
    have hne := (cellVolume_pos hB.wide).ne'
    obtain ⟨v, h1, h2⟩ := g.printed hB hne text hrs (builderBounds_spec hB.reals hB.bounds).length_eq.symm
    have := g.stated hB hne v h1
    rw [div_self hne] at this
    exact ⟨v, h1, this, h2⟩
  obtain ⟨v, hv, hst, hp⟩ := key hB hrs h
  refine ⟨_, v, hp 0, hv, hst, fun {B₂ rs₂ bs₂} hB₂ hrs₂ hn₂ {fuel₂ s₂ s₂' T₂ V₂} h₂ hp₂ => ?_⟩
  obtain ⟨v₂, hv₂, -, hp'⟩ := key hB₂ hrs₂ h₂
  have he : v₂.render text 0 = v.render text 0 := Except.ok.inj ((hp' 0).symm.trans hp₂)
  obtain ⟨rfl, -⟩ := render_inj ht v₂ v 0 [] [] (view_plain hn₂ T₂ v₂ hv₂) (view_plain hn T v hv) (by rw [he])
  exact hv₂
end

/-! ### The hypotheses are met, and what goes wrong -/

/-- Numbers in unary can be told apart. -/
theorem unary_shareText : ShareText unaryShow where
  inj p q h := by
    have h1 := (unary_ok p).2
    rw [h, (unary_ok q).2] at h1
    exact (Option.some.inj h1).symm
  plain q c hc := by
    have : c = '-' ∨ c = '+' ∨ c = '1' ∨ c = '/' := by
      simp only [unaryShow, List.cons_append, List.mem_cons, List.mem_append, List.mem_replicate] at hc
      rcases hc with h | h | h | h
      · split at h
        · exact .inl h
        · exact .inr (.inl h)
      · exact .inr (.inr (.inl h.2))
      · exact .inr (.inr (.inr h))
      · exact .inr (.inr (.inl h.2))
    rcases this with rfl | rfl | rfl | rfl <;> decide

/-- Over one real variable a tree is printed, whatever the solver answers. -/
example (solve : List Formula → Bool) (s : ℕ) : ∃ T V s' t v, buildRoot (unitBuilder solve) 3 s = .ok (T, some V, s') ∧
    prettyTree unaryShow ["x"] V 0 T = .ok t ∧ T.view ["x"] V = some v ∧ v.Halved 1 := by
  obtain ⟨T, s', stk', h, -⟩ := buildRoot_ok (unitBuilder_ok solve) (d := 2) (fun _ _ k h => by simpa [unitBuilder] using h) (fuel := 3) (by norm_num) s
  obtain ⟨t, v, h1, h2, h3, -⟩ := tree_text_partial (unitBuilder_ok solve) (List.prefix_refl _) (by simp [PlainName]) unary_shareText h
  exact ⟨T, _, s', t, v, h, h1, h2, h3.1⟩

/-- What is printed is the view with the names at the same positions of the list of all variables. -/
theorem prettyTree_view {K : Type} {text : ℚ → List Char} {vars : List String} {V : ℚ} (hV : V ≠ 0) : ∀ (T : ATree K) (v : TreeView) (d : ℕ),
    (∀ c ∈ T.leaves, c.labels ≠ []) → T.view vars V = some v → prettyTree text vars V d T = .ok (v.render text d)
  | .leaf c, v, d, hl, h => by
    simp only [ATree.view, Option.some.injEq] at h
    subst h
    have : ¬(c.labels.length = 0 ∨ V = 0) := by
      simp only [List.length_eq_zero_iff, not_or]
      exact ⟨hl c (by simp [ATree.leaves]), hV⟩
    by_cases he : c.empty = true
    · simp [prettyTree, he, TreeView.render, treeIndent_eq]
    · simp only [Bool.not_eq_true] at he
      simp only [prettyTree, he, Bool.false_eq_true, if_false, if_neg this, TreeView.render, treeIndent_eq]
  | .node c sp l r, v, d, hl, h => by
    simp only [ATree.view] at h
    split at h
    · rename_i n a b h1 h2 h3
      cases h
      rw [prettyTree, h1, prettyTree_view hV l a (d + 1) (fun c hc => hl c (by simp [ATree.leaves, hc])) h2,
        prettyTree_view hV r b (d + 1) (fun c hc => hl c (by simp [ATree.leaves, hc])) h3]
      simp only [TreeView.render, treeIndent_eq]
    · cases h

/-- **C104, negation**: over the domain with the variables a, b (Boolean), x and y (real) a tree that splits on x is printed as a tree that splits
on a. -/
theorem tree_text_wrong : ∃ T V s, buildRoot fullBuilder 2 (0 : ℕ) = .ok (T, some V, s) ∧
    T.view ["x", "y"] V = some (.split "x" 5 (.cell 1 (1/2)) (.cell 1 (1/2))) ∧
    ∀ text, prettyTree text fullBuilder.domain.vars V 0 T = .ok ((TreeView.split "a" 5 (.cell 1 (1/2)) (.cell 1 (1/2))).render text 0) := by
  have h : (match buildRoot fullBuilder 2 (0 : ℕ) with
      | .ok (T, some V, _) => decide (V ≠ 0 ∧ T.view ["x", "y"] V = some (.split "x" 5 (.cell 1 (1/2)) (.cell 1 (1/2))) ∧
          T.view fullBuilder.domain.vars V = some (.split "a" 5 (.cell 1 (1/2)) (.cell 1 (1/2))) ∧ T.leaves.all (fun c => !c.labels.isEmpty) = true)
      | _ => false) = true := by decide +kernel
  split at h
  · rename_i T V s hb
    replace h := of_decide_eq_true h
    refine ⟨T, V, s, hb, h.2.1, fun text => prettyTree_view h.1 T _ 0 ?_ h.2.2.1⟩
    intro c hc
    have := List.all_eq_true.mp h.2.2.2 c hc
    simpa using this
  · cases h

/-- The two texts are different, for texts of numbers that can be told apart. -/
theorem tree_text_wrong_differs {text : ℚ → List Char} (ht : ShareText text) :
    (TreeView.split "a" 5 (.cell 1 (1/2)) (.cell 1 (1/2))).render text 0 ≠ (TreeView.split "x" 5 (.cell 1 (1/2)) (.cell 1 (1/2))).render text 0 := by
  intro h
  have := (render_inj ht (.split "a" 5 (.cell 1 (1/2)) (.cell 1 (1/2))) (.split "x" 5 (.cell 1 (1/2)) (.cell 1 (1/2))) 0 [] []
    (by simp [TreeView.Plain, PlainName]) (by simp [TreeView.Plain, PlainName]) (by rw [h])).1
  simp at this

end Pywmi
