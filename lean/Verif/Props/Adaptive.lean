import Verif.Sample.Adaptive
import Verif.Props.Sample
import Verif.Props.Piecewise

set_option linter.unusedSectionVars false
set_option linter.unusedSimpArgs false

/-!
# C36 – C38: the tree of adaptive rejection
-/

namespace Pywmi
open Formula Prog

/-! ### Specification -/

section
variable {K : Type} [Field K] [LinearOrder K]

/-- SPEC: a number lies between two bounds, each closed or open. -/
def inSide (b : (ℚ × Bool) × (ℚ × Bool)) (x : K) : Prop :=
  (if b.1.2 then (b.1.1 : K) ≤ x else (b.1.1 : K) < x) ∧ (if b.2.2 then x ≤ (b.2.1 : K) else x < (b.2.1 : K))

/-- SPEC: a point lies in a cell. -/
def inCell (bs : ABounds) (xs : List K) : Prop :=
  xs.length = bs.length ∧ ∀ i b, bs[i]? = some b → inSide b (xs.getD i 0)

end

/-- SPEC: the volume of a box. -/
def cellVolume (bs : ABounds) : ℚ := (bs.map fun b => b.2.1 - b.1.1).prod

/-- SPEC: the leaves of a tree. -/
def ATree.leaves {K : Type} : ATree K → List (ACell K)
  | .leaf c => [c]
  | .node _ _ l r => l.leaves ++ r.leaves

/-- SPEC: a node that was split. -/
def ATree.isNode {K : Type} : ATree K → Bool
  | .leaf _ => false
  | .node _ _ _ _ => true

/-- SPEC: the nodes of a tree with the splits on the path from the root (last split first), and whether the path takes the side
`>` of a split whose side `<=` was split again. -/
def ATree.cells {K : Type} : ATree K → List ASplit → Bool → List (List ASplit × Bool × ACell K)
  | .leaf c, path, stale => [(path, stale, c)]
  | .node c sp l r, path, stale =>
    (path, stale, c) :: (l.cells ((sp, true) :: path) stale ++ r.cells ((sp, false) :: path) (stale || l.isNode))

/-! ### Cells -/

theorem lowerBounds_length (bs : ABounds) (sp : ℕ × ℚ) : (lowerBounds bs sp).length = bs.length := by simp [lowerBounds]
theorem upperBounds_length (bs : ABounds) (sp : ℕ × ℚ) : (upperBounds bs sp).length = bs.length := by simp [upperBounds]

theorem lowerBounds_zero (b) (bs : ABounds) (v : ℚ) : lowerBounds (b :: bs) (0, v) = (b.1, (v, true)) :: bs := by
  simp only [lowerBounds, List.mapIdx_cons]
  congr 1
  refine List.ext_getElem (by simp) fun i h1 h2 => by simp
theorem lowerBounds_succ (b) (bs : ABounds) (k : ℕ) (v : ℚ) : lowerBounds (b :: bs) (k + 1, v) = b :: lowerBounds bs (k, v) := by
  simp only [lowerBounds, List.mapIdx_cons]
  congr 1
  refine List.ext_getElem (by simp) fun i h1 h2 => by simp
theorem upperBounds_zero (b) (bs : ABounds) (v : ℚ) : upperBounds (b :: bs) (0, v) = ((v, false), b.2) :: bs := by
  simp only [upperBounds, List.mapIdx_cons]
  congr 1
  refine List.ext_getElem (by simp) fun i h1 h2 => by simp
theorem upperBounds_succ (b) (bs : ABounds) (k : ℕ) (v : ℚ) : upperBounds (b :: bs) (k + 1, v) = b :: upperBounds bs (k, v) := by
  simp only [upperBounds, List.mapIdx_cons]
  congr 1
  refine List.ext_getElem (by simp) fun i h1 h2 => by simp

/-- The split halves a side. -/
def halves (bs : ABounds) (sp : ℕ × ℚ) : Prop := ∃ b, bs[sp.1]? = some b ∧ sp.2 = b.1.1 + (b.2.1 - b.1.1) / 2

theorem volume_halves (bs : ABounds) : ∀ (k : ℕ) (v : ℚ), halves bs (k, v) →
    cellVolume (lowerBounds bs (k, v)) = cellVolume bs / 2 ∧ cellVolume (upperBounds bs (k, v)) = cellVolume bs / 2 := by
  induction bs with
  | nil => rintro k v ⟨b, hb, _⟩; simp at hb
  | cons b bs ih =>
    rintro k v ⟨b', hb, hv⟩
    cases k with
    | zero =>
      simp only [List.getElem?_cons_zero, Option.some.injEq] at hb
      subst hb
      simp only at hv
      subst hv
      simp only [lowerBounds_zero, upperBounds_zero, cellVolume, List.map_cons, List.prod_cons]
      constructor <;> ring
    | succ k =>
      simp only [List.getElem?_cons_succ] at hb
      obtain ⟨h1, h2⟩ := ih k v ⟨b', hb, hv⟩
      simp only [cellVolume] at h1 h2
      simp only [lowerBounds_succ, upperBounds_succ, cellVolume, List.map_cons, List.prod_cons, h1, h2]
      constructor <;> ring

/-- Every side has a positive width. -/
def Wide (bs : ABounds) : Prop := ∀ b ∈ bs, b.1.1 < b.2.1

theorem wide_halves {bs : ABounds} (h : Wide bs) {sp : ℕ × ℚ} (hs : halves bs sp) :
    Wide (lowerBounds bs sp) ∧ Wide (upperBounds bs sp) := by
  obtain ⟨b0, hb0, hv⟩ := hs
  have h0 := h b0 (List.mem_of_getElem? hb0)
  constructor
  · intro b hb
    obtain ⟨i, hi⟩ := List.mem_iff_getElem?.mp hb
    simp only [lowerBounds, List.getElem?_mapIdx, Option.map_eq_some_iff] at hi
    obtain ⟨c, hc, rfl⟩ := hi
    split_ifs with e
    · exact h c (List.mem_of_getElem? hc)
    · simp only [not_not] at e
      subst e
      rw [hb0] at hc
      cases hc
      simp only [hv]
      linarith
  · intro b hb
    obtain ⟨i, hi⟩ := List.mem_iff_getElem?.mp hb
    simp only [upperBounds, List.getElem?_mapIdx, Option.map_eq_some_iff] at hi
    obtain ⟨c, hc, rfl⟩ := hi
    split_ifs with e
    · exact h c (List.mem_of_getElem? hc)
    · simp only [not_not] at e
      subst e
      rw [hb0] at hc
      cases hc
      simp only [hv]
      linarith

section
variable {K : Type} [Field K] [LinearOrder K] [IsStrictOrderedRing K]

theorem inCell_split {bs : ABounds} (h : Wide bs) {sp : ℕ × ℚ} (hs : halves bs sp) (xs : List K) :
    (inCell bs xs ↔ inCell (lowerBounds bs sp) xs ∨ inCell (upperBounds bs sp) xs) ∧
    ¬ (inCell (lowerBounds bs sp) xs ∧ inCell (upperBounds bs sp) xs) := by
  obtain ⟨b0, hb0, hv⟩ := hs
  have hw := h b0 (List.mem_of_getElem? hb0)
  have hlo : (b0.1.1 : K) < (sp.2 : K) := by rw [hv]; exact_mod_cast (by linarith)
  have hhi : (sp.2 : K) < (b0.2.1 : K) := by rw [hv]; exact_mod_cast (by linarith)
  have low : inCell (lowerBounds bs sp) xs ↔ xs.length = bs.length ∧
      ∀ i b, bs[i]? = some b → inSide (if i ≠ sp.1 then b else (b.1, (sp.2, true))) (xs.getD i 0) := by
    simp only [inCell, lowerBounds, List.length_mapIdx, List.getElem?_mapIdx, Option.map_eq_some_iff]
    refine and_congr_right fun _ => ⟨fun h i b hb => h i _ ⟨b, hb, rfl⟩, ?_⟩
    rintro h i _ ⟨b, hb, rfl⟩
    exact h i b hb
  have up : inCell (upperBounds bs sp) xs ↔ xs.length = bs.length ∧
      ∀ i b, bs[i]? = some b → inSide (if i ≠ sp.1 then b else ((sp.2, false), b.2)) (xs.getD i 0) := by
    simp only [inCell, upperBounds, List.length_mapIdx, List.getElem?_mapIdx, Option.map_eq_some_iff]
    refine and_congr_right fun _ => ⟨fun h i b hb => h i _ ⟨b, hb, rfl⟩, ?_⟩
    rintro h i _ ⟨b, hb, rfl⟩
    exact h i b hb
  rw [low, up]
  have key : ∀ x : K, (inSide b0 x ↔ inSide (b0.1, (sp.2, true)) x ∨ inSide ((sp.2, false), b0.2) x) ∧
      ¬ (inSide (b0.1, (sp.2, true)) x ∧ inSide ((sp.2, false), b0.2) x) := by
    intro x
    simp only [inSide, if_true, Bool.false_eq_true, if_false]
    refine ⟨⟨fun ⟨h1, h2⟩ => ?_, ?_⟩, fun ⟨h1, h2⟩ => absurd h1.2 (not_le.mpr h2.1)⟩
    · rcases le_or_gt x (sp.2 : K) with hx | hx
      · exact .inl ⟨h1, hx⟩
      · exact .inr ⟨hx, h2⟩
    · rintro (⟨h1, h2⟩ | ⟨h1, h2⟩)
      · refine ⟨h1, ?_⟩
        split_ifs
        · exact (h2.trans_lt hhi).le
        · exact h2.trans_lt hhi
      · refine ⟨?_, h2⟩
        split_ifs
        · exact (hlo.trans h1).le
        · exact hlo.trans h1
  constructor
  · constructor
    · rintro ⟨hl, hin⟩
      rcases (key _).1.mp (hin sp.1 b0 hb0) with h1 | h1
      · refine .inl ⟨hl, fun i b hb => ?_⟩
        split_ifs with e
        · exact hin i b hb
        · simp only [not_not] at e
          subst e
          rw [hb0] at hb; cases hb
          exact h1
      · refine .inr ⟨hl, fun i b hb => ?_⟩
        split_ifs with e
        · exact hin i b hb
        · simp only [not_not] at e
          subst e
          rw [hb0] at hb; cases hb
          exact h1
    · rintro (⟨hl, hin⟩ | ⟨hl, hin⟩)
      · refine ⟨hl, fun i b hb => ?_⟩
        have := hin i b hb
        split_ifs at this with e
        · exact this
        · simp only [not_not] at e
          subst e
          rw [hb0] at hb; cases hb
          exact (key _).1.mpr (.inl this)
      · refine ⟨hl, fun i b hb => ?_⟩
        have := hin i b hb
        split_ifs at this with e
        · exact this
        · simp only [not_not] at e
          subst e
          rw [hb0] at hb; cases hb
          exact (key _).1.mpr (.inr this)
  · rintro ⟨⟨_, h1⟩, ⟨_, h2⟩⟩
    have a := h1 sp.1 b0 hb0
    have b := h2 sp.1 b0 hb0
    simp only [ne_eq, not_true_eq_false, if_false] at a b
    exact (key _).2 ⟨a, b⟩

/-! ### What a run of the builder produces -/

/-- The samples of a node: rows of its cell, labelled by the support. -/
structure Sampled (B : ABuilder K) (rs : List String) (bs : ABounds) (c : ACell K) : Prop where
  bounds : c.bounds = bs
  labels : c.labels = c.samples.map fun row => truth (rowEnv B.domain.vars row) B.support
  rows : ∀ row ∈ c.samples, rowOk (cellDomain B.domain rs bs) row
  count : B.count ≤ c.samples.length

/-- How a tree comes about: bounds, volume, stack before, tree, stack after. -/
inductive Grown (B : ABuilder K) (rs : List String) : ABounds → ℚ → List ASplit → ATree K → List ASplit → Prop
  | stop {bs vol stk c} : Sampled B rs bs c → c.volume = vol → c.empty = false → c.asked = none → Grown B rs bs vol stk (.leaf c) stk
  | empty {bs vol stk c} : Sampled B rs bs c → c.volume = vol → c.empty = true → c.asked = some stk →
      countTrue c.labels = 0 → askOracle B rs stk = .ok false → Grown B rs bs vol stk (.leaf c) stk
  | node {bs vol stk c sp l r x stk1 stk2} : Sampled B rs bs c → c.volume = vol → c.empty = false →
      (c.asked = none ∨ c.asked = some stk ∧ askOracle B rs stk = .ok true) → halves bs sp →
      Grown B rs (lowerBounds bs sp) (vol / 2) ((sp, true) :: stk) l (x :: stk1) →
      Grown B rs (upperBounds bs sp) (vol / 2) ((sp, false) :: stk1) r stk2 → Grown B rs bs vol stk (.node c sp l r) stk2

/-- The hypotheses on a builder: a lawful generator and power, a box with positive widths, a typed support, and samples. -/
structure BuilderOk (B : ABuilder K) (rs : List String) (bs : ABounds) : Prop where
  rng : RngOk B.rng
  pow : PowOk B.pypow
  box : BoxOk B.domain
  wt : wt .bool B.support = true
  syms : ∀ p ∈ syms B.support, p.1 ∈ B.domain.vars
  count : 0 < B.count
  reals : B.domain.realVars = .ok rs
  bounds : builderBounds B.domain = .ok bs
  wide : Wide bs
  some : bs ≠ []

theorem bestSplit_some (sc : ℕ → ℚ → ℚ → ℚ → K) : ∀ (bs : ABounds) (all : ABounds) (i : ℕ) (best : Option ((ℕ × ℚ) × K)),
    all.drop i = bs → (∀ p, best = some p → halves all p.1) → (best ≠ none ∨ bs ≠ []) →
    ∃ p, bestSplit sc bs i best = some p ∧ halves all p.1 := by
  intro bs
  induction bs with
  | nil =>
    intro all i best _ h hne
    cases best with
    | none => simp at hne
    | some p => exact ⟨p, rfl, h p rfl⟩
  | cons b bs ih =>
    intro all i best hd h _
    have hb : all[i]? = some b := by
      have : (all.drop i)[0]? = some b := by rw [hd]; rfl
      simpa [List.getElem?_drop] using this
    have hd' : all.drop (i + 1) = bs := by
      rw [← List.tail_drop, hd]; rfl
    have hh : halves all (i, b.1.1 + (b.2.1 - b.1.1) / 2) := ⟨b, hb, rfl⟩
    simp only [bestSplit]
    cases best with
    | none =>
      refine ih all (i + 1) _ hd' ?_ (.inl (by simp))
      rintro p ⟨⟩
      exact hh
    | some q =>
      obtain ⟨q1, q2⟩ := q
      refine ih all (i + 1) _ hd' ?_ (.inl (by simp only; split_ifs <;> simp))
      intro p hp
      simp only at hp
      split_ifs at hp <;> cases hp
      · exact hh
      · exact h _ rfl

theorem mapE_splits {rs : List String} {stk : List ASplit} (h : ∀ p ∈ stk, p.1.1 < rs.length) :
    ∃ fs, mapE (splitAssertion rs) stk = .ok fs ∧ List.Forall₂ (fun p f => ∃ v, rs[p.1.1]? = some v ∧
      f = if p.2 then Formula.le (.sym v .real) (.realC p.1.2) else Formula.lt (.realC p.1.2) (.sym v .real)) stk fs := by
  refine Pywmi.mapE_ok fun p hp => ?_
  have : rs[p.1.1]? = some (rs[p.1.1]'(h p hp)) := List.getElem?_eq_getElem _
  refine ⟨_, ?_, _, this, rfl⟩
  simp only [splitAssertion, this]
  split_ifs <;> rfl

theorem Grown.dims {B : ABuilder K} {rs : List String} {bs vol stk T stk'} (h : Grown B rs bs vol stk T stk') :
    (∀ p ∈ stk, p.1.1 < bs.length) → ∀ p ∈ stk', p.1.1 < bs.length := by
  induction h with
  | stop => exact id
  | empty => exact id
  | node _ _ _ _ hs _ _ ih1 ih2 =>
    intro h
    obtain ⟨b, hb, _⟩ := hs
    obtain ⟨hlt, _⟩ := List.getElem?_eq_some_iff.mp hb
    rw [lowerBounds_length] at ih1
    rw [upperBounds_length] at ih2
    have h1 := ih1 (by
      intro p hp
      rcases List.mem_cons.mp hp with rfl | hp
      · exact hlt
      · exact h p hp)
    refine ih2 ?_
    intro p hp
    rcases List.mem_cons.mp hp with rfl | hp
    · exact hlt
    · exact h1 p (List.mem_cons_of_mem _ hp)

/-- The stack afterwards extends the stack before, properly when the node was split. -/
theorem Grown.stack {B : ABuilder K} {rs : List String} {bs vol stk T stk'} (h : Grown B rs bs vol stk T stk') :
    ∃ ext, stk' = ext ++ stk ∧ (ext = [] ↔ T.isNode = false) := by
  induction h with
  | stop => exact ⟨[], rfl, by simp [ATree.isNode]⟩
  | empty => exact ⟨[], rfl, by simp [ATree.isNode]⟩
  | @node bs vol stk c sp l r x stk1 stk2 _ _ _ _ _ _ _ ih1 ih2 =>
    obtain ⟨e1, h1, _⟩ := ih1
    obtain ⟨e2, h2, _⟩ := ih2
    have : ∃ e, stk1 = e ++ stk := by
      cases e1 with
      | nil => simp only [List.nil_append, List.cons.injEq] at h1; exact ⟨[], h1.2⟩
      | cons y e =>
        simp only [List.cons_append, List.cons.injEq] at h1
        exact ⟨e ++ [(sp, true)], by rw [h1.2]; simp⟩
    obtain ⟨e, he⟩ := this
    refine ⟨e2 ++ (sp, false) :: e, by rw [h2, he]; simp, by simp [ATree.isNode]⟩

theorem cellDomain_box {D : Domain} (hD : BoxOk D) {rs : List String} (hr : D.realVars = .ok rs) {bs : ABounds} (hl : bs.length = rs.length)
    (hw : ∀ b ∈ bs, b.1.1 ≤ b.2.1) : BoxOk (cellDomain D rs bs) := by
  have hrs : rs = D.vars.filter fun v => D.varTypes.lookup v = some .real := by
    have := hD.wf.realVars
    rw [hr] at this
    exact Except.ok.inj this
  have hnd : rs.Nodup := hrs ▸ hD.wf.nodup.filter _
  have hkeys : (List.zipWith (fun v (b : (ℚ × Bool) × (ℚ × Bool)) => (v, ((some b.1.1, some b.2.1) : Bounds))) rs bs).map (·.1) = rs := by
    rw [List.map_zipWith]
    simp only
    clear hnd hrs hr
    induction rs generalizing bs with
    | nil => rfl
    | cons r rs ih =>
      cases bs with
      | nil => simp at hl
      | cons b bs =>
        simp only [List.zipWith_cons_cons, List.cons.injEq, true_and]
        exact ih (by simpa using hl) fun b hb => hw b (by simp [hb])
  have heq : (cellDomain D rs bs).varDomains =
      List.zipWith (fun v (b : (ℚ × Bool) × (ℚ × Bool)) => (v, ((some b.1.1, some b.2.1) : Bounds))) rs bs := by
    simp only [cellDomain]
    exact dictOf_nodup (by rw [hkeys]; exact hnd)
  refine ⟨⟨hD.wf.nodup, hD.wf.typesNodup, hD.wf.types, ?_, ?_⟩, ?_⟩
  · rw [heq, hkeys]; exact hnd
  · intro v
    rw [heq, hkeys]
    show v ∈ rs ↔ (v, Ty.real) ∈ D.varTypes
    rw [← hD.wf.doms, hD.wf.mem_real, hrs]
  · intro v b hb
    have := mem_of_dictGet hb
    rw [heq, List.mem_iff_getElem?] at this
    obtain ⟨i, hi⟩ := this
    simp only [List.getElem?_zipWith] at hi
    split at hi
    · rename_i v' b' _ hb'
      simp only [Option.some.injEq, Prod.mk.injEq] at hi
      exact ⟨_, _, hi.2.symm, hw b' (List.mem_of_getElem? hb')⟩
    · cases hi

theorem buildTree_spec {B : ABuilder K} {rs : List String} {bs0 : ABounds} (hB : BuilderOk B rs bs0) {V : ℚ} (hV : V ≠ 0) :
    ∀ (fuel : ℕ) (dom : Domain) (bs : ABounds) (vol : ℚ) (depth : ℕ) (s : B.rng.State) (stk : List ASplit),
      BoxOk dom → (∀ row : List K, rowOk dom row → rowOk (cellDomain B.domain rs bs) row) → bs.length = rs.length → bs ≠ [] → Wide bs →
      (∀ p ∈ stk, p.1.1 < rs.length) →
      (∃ T s' stk', buildTree B rs (some V) fuel dom bs (some vol) depth s stk = .ok (T, s', stk') ∧ Grown B rs bs vol stk T stk') ∨
      (buildTree B rs (some V) fuel dom bs (some vol) depth s stk = .error .fuel ∧
        ∀ d, (∀ r k, d ≤ k → B.stop r (1 / 2 ^ k) k = true) → vol / V = 1 / 2 ^ depth → depth ≤ d → depth + fuel ≤ d) := by
  intro fuel
  induction fuel with
  | zero => exact fun dom bs vol depth s stk _ _ _ _ _ _ => .inr ⟨rfl, fun d _ _ h => h⟩
  | succ fuel ih =>
    intro dom bs vol depth s stk hdom hrow hlen hne hw hstk
    obtain ⟨⟨rows, s1, e1, e2, e3⟩, -⟩ := uniform_correct hB.rng hdom B.count s
    have e4 := evalMask_ok (rows := rows) hB.pow hB.box.wf hB.wt hB.syms
    have sampled : ∀ v e a, Sampled B rs bs ⟨rows, rows.map fun row => truth (rowEnv B.domain.vars row) B.support, v, bs, e, a⟩ :=
      fun v e a => ⟨rfl, rfl, fun row hr => hrow row (e3 row hr), e2.ge⟩
    have hc : B.count ≠ 0 := hB.count.ne'
    simp only [buildTree, e1, e4, if_neg hc, if_neg hV]
    generalize hlab : rows.map (fun row => truth (rowEnv B.domain.vars row) B.support) = labels at *
    by_cases hst : B.stop ((countTrue labels : ℚ) / (B.count : ℚ)) (vol / V) depth = true
    · rw [if_pos hst]
      exact .inl ⟨_, _, _, rfl, .stop (sampled _ _ _) rfl rfl rfl⟩
    rw [if_neg hst]
    have hdepth : ∀ d, (∀ r k, d ≤ k → B.stop r (1 / 2 ^ k) k = true) → vol / V = 1 / 2 ^ depth → depth + 1 ≤ d := fun d hd hvol => by
      by_contra h
      exact hst (hvol ▸ hd _ _ (by omega))
    have hhalve : vol / V = 1 / 2 ^ depth → vol / 2 / V = 1 / 2 ^ (depth + 1) := fun h => by
      rw [div_right_comm, h, pow_succ, div_div]
    obtain ⟨fs, hfs, -⟩ := mapE_splits hstk
    have hask : askOracle B rs stk = .ok (B.solve (B.support :: fs)) := by simp only [askOracle, hfs]
    rw [hask]
    simp only
    -- the choice to split
    have splitCase : ∀ asked : Option (List ASplit), (asked = none ∨ asked = some stk ∧ askOracle B rs stk = .ok true) →
        ∀ sc : ℕ → ℚ → ℚ → ℚ → K, (∃ T s' stk',
          (match bestSplit sc bs 0 none with
          | none => Except.error PyErr.typeError
          | some (sp, _) =>
            match buildTree B rs (some V) fuel (cellDomain B.domain rs (lowerBounds bs sp)) (lowerBounds bs sp) (some (vol / 2)) (depth + 1) s1
                ((sp, true) :: stk) with
            | .error e => .error e
            | .ok (l, s, stk) =>
              match popSplit stk with
              | .error e => .error e
              | .ok stk =>
                match buildTree B rs (some V) fuel (cellDomain B.domain rs (upperBounds bs sp)) (upperBounds bs sp) (some (vol / 2)) (depth + 1) s
                    ((sp, false) :: stk) with
                | .error e => .error e
                | .ok (r, s, stk) => .ok (ATree.node ⟨rows, labels, vol, bs, false, asked⟩ sp l r, s, stk)) = .ok (T, s', stk') ∧
            Grown B rs bs vol stk T stk') ∨
          ((match bestSplit sc bs 0 none with
          | none => Except.error PyErr.typeError
          | some (sp, _) =>
            match buildTree B rs (some V) fuel (cellDomain B.domain rs (lowerBounds bs sp)) (lowerBounds bs sp) (some (vol / 2)) (depth + 1) s1
                ((sp, true) :: stk) with
            | .error e => .error e
            | .ok (l, s, stk) =>
              match popSplit stk with
              | .error e => .error e
              | .ok stk =>
                match buildTree B rs (some V) fuel (cellDomain B.domain rs (upperBounds bs sp)) (upperBounds bs sp) (some (vol / 2)) (depth + 1) s
                    ((sp, false) :: stk) with
                | .error e => .error e
                | .ok (r, s, stk) => .ok (ATree.node ⟨rows, labels, vol, bs, false, asked⟩ sp l r, s, stk)) = .error .fuel ∧
            ∀ d, (∀ r k, d ≤ k → B.stop r (1 / 2 ^ k) k = true) → vol / V = 1 / 2 ^ depth → depth ≤ d → depth + (fuel + 1) ≤ d) := by
      intro asked hasked sc
      obtain ⟨⟨sp, q⟩, hbest, hhalf⟩ := bestSplit_some sc bs bs 0 none rfl (by simp) (.inr hne)
      simp only at hhalf
      rw [hbest]
      simp only
      obtain ⟨w1, w2⟩ := wide_halves hw hhalf
      have hlt : sp.1 < rs.length := by
        obtain ⟨b, hb, _⟩ := hhalf
        rw [← hlen]
        exact (List.getElem?_eq_some_iff.mp hb).1
      have n1 : lowerBounds bs sp ≠ [] := fun h => hne (by simpa [lowerBounds_length] using congrArg List.length h)
      have n2 : upperBounds bs sp ≠ [] := fun h => hne (by simpa [upperBounds_length] using congrArg List.length h)
      have hstk1 : ∀ p ∈ ((sp, true) :: stk : List ASplit), p.1.1 < rs.length := by
        intro p hp
        rcases List.mem_cons.mp hp with rfl | hp
        · exact hlt
        · exact hstk p hp
      have len1 := (lowerBounds_length bs sp).trans hlen
      have len2 := (upperBounds_length bs sp).trans hlen
      rcases ih (cellDomain B.domain rs (lowerBounds bs sp)) (lowerBounds bs sp) (vol / 2) (depth + 1) s1 ((sp, true) :: stk)
        (cellDomain_box hB.box hB.reals len1 fun b hb => (w1 b hb).le) (fun _ h => h) len1 n1 w1 hstk1 with
        ⟨l, s2, stk1, h1, g1⟩ | ⟨h1, h1'⟩
      · rw [h1]
        simp only
        obtain ⟨ext, hext, _⟩ := g1.stack
        have hpop : ∃ x rest, stk1 = x :: rest := by
          cases ext with
          | nil => exact ⟨_, _, hext⟩
          | cons y e => exact ⟨_, _, hext⟩
        obtain ⟨x, rest, rfl⟩ := hpop
        simp only [popSplit]
        have hd1 := g1.dims (by rw [lowerBounds_length, hlen]; exact hstk1)
        rw [lowerBounds_length, hlen] at hd1
        have hstk2 : ∀ p ∈ ((sp, false) :: rest : List ASplit), p.1.1 < rs.length := by
          intro p hp
          rcases List.mem_cons.mp hp with rfl | hp
          · exact hlt
          · exact hd1 p (List.mem_cons_of_mem _ hp)
        rcases ih (cellDomain B.domain rs (upperBounds bs sp)) (upperBounds bs sp) (vol / 2) (depth + 1) s2 ((sp, false) :: rest)
          (cellDomain_box hB.box hB.reals len2 fun b hb => (w2 b hb).le) (fun _ h => h) len2 n2 w2 hstk2 with
          ⟨r, s3, stk2, h2, g2⟩ | ⟨h2, h2'⟩
        · rw [h2]
          exact .inl ⟨_, _, _, rfl, .node (sampled _ _ _) rfl rfl hasked hhalf g1 g2⟩
        · rw [h2]
          exact .inr ⟨rfl, fun d hd hvol _ => by have := h2' d hd (hhalve hvol) (hdepth d hd hvol); omega⟩
      · rw [h1]
        exact .inr ⟨rfl, fun d hd hvol _ => by have := h1' d hd (hhalve hvol) (hdepth d hd hvol); omega⟩
    by_cases hacc : countTrue labels > 0
    · rw [if_pos hacc]
      exact splitCase none (.inl rfl) _
    · rw [if_neg hacc]
      cases hsol : B.solve (B.support :: fs) with
      | true => exact splitCase (some stk) (.inr ⟨rfl, by rw [hask, hsol]⟩) _
      | false => exact .inl ⟨_, _, _, rfl, .empty (sampled _ _ _) rfl rfl rfl (by simpa using hacc) (by rw [hask, hsol])⟩


/-! ### C36 -/

theorem Grown.cellVol {B : ABuilder K} {rs : List String} {bs vol stk T stk'} (h : Grown B rs bs vol stk T stk') :
    vol = cellVolume bs → (∀ c ∈ T.leaves, c.volume = cellVolume c.bounds) ∧ (T.leaves.map (·.volume)).sum = vol := by
  induction h with
  | stop hs hv => intro e; subst e; simp [ATree.leaves, hv, hs.bounds]
  | empty hs hv => intro e; subst e; simp [ATree.leaves, hv, hs.bounds]
  | @node bs vol stk c sp l r x stk1 stk2 _ _ _ _ hh _ _ ih1 ih2 =>
    intro e
    obtain ⟨v1, v2⟩ := volume_halves bs sp.1 sp.2 hh
    obtain ⟨a1, a2⟩ := ih1 (by rw [v1, e])
    obtain ⟨b1, b2⟩ := ih2 (by rw [v2, e])
    refine ⟨fun c hc => ?_, ?_⟩
    · rcases List.mem_append.mp hc with hc | hc
      · exact a1 c hc
      · exact b1 c hc
    · rw [ATree.leaves, List.map_append, List.sum_append, a2, b2]; ring

open Classical in
theorem Grown.partition {B : ABuilder K} {rs : List String} {bs vol stk T stk'} (h : Grown B rs bs vol stk T stk') :
    Wide bs → ∀ xs : List K, T.leaves.countP (fun c => inCell c.bounds xs) = if inCell bs xs then 1 else 0 := by
  induction h with
  | stop hs => intro _ xs; simp [ATree.leaves, hs.bounds, List.countP_cons]
  | empty hs => intro _ xs; simp [ATree.leaves, hs.bounds, List.countP_cons]
  | @node bs vol stk c sp l r x stk1 stk2 _ _ _ _ hh _ _ ih1 ih2 =>
    intro hw xs
    obtain ⟨w1, w2⟩ := wide_halves hw hh
    obtain ⟨k1, k2⟩ := inCell_split hw hh xs
    rw [ATree.leaves, List.countP_append, ih1 w1, ih2 w2]
    by_cases h1 : inCell (lowerBounds bs sp) xs
    · have h2 : ¬ inCell (upperBounds bs sp) xs := fun h => k2 ⟨h1, h⟩
      rw [if_pos h1, if_neg h2, if_pos (k1.mpr (.inl h1))]
    · by_cases h2 : inCell (upperBounds bs sp) xs
      · rw [if_neg h1, if_pos h2, if_pos (k1.mpr (.inr h2))]
      · rw [if_neg h1, if_neg h2, if_neg (by rw [k1]; tauto)]

theorem cellVolume_pos {bs : ABounds} (h : Wide bs) : 0 < cellVolume bs := by
  refine List.prod_pos ?_
  intro x hx
  obtain ⟨b, hb, rfl⟩ := List.mem_map.mp hx
  exact sub_pos.mpr (h b hb)

theorem boundsVolume_eq {bs : ABounds} (h : bs ≠ []) : boundsVolume bs = some (cellVolume bs) := by
  have : ∀ (l : ABounds) (a : ℚ), l.foldl (fun v b => v * (b.2.1 - b.1.1)) a = a * (l.map fun b => b.2.1 - b.1.1).prod := by
    intro l
    induction l with
    | nil => intro a; simp
    | cons b l ih => intro a; rw [List.foldl_cons, ih, List.map_cons, List.prod_cons, mul_assoc]
  rw [boundsVolume, if_neg h, this, one_mul, cellVolume]

theorem builderBounds_spec {D : Domain} {rs : List String} {bs : ABounds} (hr : D.realVars = .ok rs) (hb : builderBounds D = .ok bs) :
    List.Forall₂ (fun v b => D.varDomains.lookup v = some (some b.1.1, some b.2.1)) rs bs := by
  simp only [builderBounds, hr] at hb
  refine (mapE_inv hb).imp fun v b h => ?_
  simp only [realBounds, dictGet] at h
  split at h
  · cases h
  · rename_i l u hl
    cases hq : D.varDomains.lookup v with
    | none => rw [hq] at hl; cases hl
    | some q => rw [hq] at hl; cases hl; cases h; rfl
  · cases h

theorem rowOk_root {D : Domain} (hD : BoxOk D) {rs : List String} {bs : ABounds} (hr : D.realVars = .ok rs) (hb : builderBounds D = .ok bs)
    (row : List K) (h : rowOk D row) : rowOk (cellDomain D rs bs) row := by
  have hf := builderBounds_spec hr hb
  have hrs : rs = D.vars.filter fun v => D.varTypes.lookup v = some .real := by
    have := hD.wf.realVars
    rw [hr] at this
    exact Except.ok.inj this
  have hlook : ∀ v l u, (cellDomain D rs bs).varDomains.lookup v = some (some l, some u) → D.varDomains.lookup v = some (some l, some u) := by
    intro v l u hv
    have hm := mem_of_dictGet hv
    have hkeys : ((List.zipWith (fun v (b : (ℚ × Bool) × (ℚ × Bool)) => (v, ((some b.1.1, some b.2.1) : Bounds))) rs bs).map (·.1)).Nodup := by
      have : (List.zipWith (fun v (b : (ℚ × Bool) × (ℚ × Bool)) => (v, ((some b.1.1, some b.2.1) : Bounds))) rs bs).map (·.1) = rs := by
        clear hrs hb hr hv hm
        induction hf with
        | nil => rfl
        | cons _ _ ih => simp only [List.zipWith_cons_cons, List.map_cons, ih]
      rw [this, hrs]
      exact hD.wf.nodup.filter _
    simp only [cellDomain, dictOf_nodup hkeys] at hm
    obtain ⟨i, hi⟩ := List.mem_iff_getElem?.mp hm
    simp only [List.getElem?_zipWith] at hi
    split at hi
    · rename_i v' b' h1 h2
      simp only [Option.some.injEq, Prod.mk.injEq] at hi
      obtain ⟨rfl, rfl, rfl⟩ := hi
      obtain ⟨i1, g1⟩ := List.getElem?_eq_some_iff.mp h1
      obtain ⟨i2, g2⟩ := List.getElem?_eq_some_iff.mp h2
      have := (List.forall₂_iff_get.mp hf).2 i i1 i2
      simp only [List.get_eq_getElem, g1, g2] at this
      exact this
    · cases hi
  refine List.Forall₂.imp (fun v x hx => ⟨hx.1, fun ht l u hl => hx.2 ht l u (hlook v l u hl)⟩) h

/-- The builder succeeds whenever the stopping criterion bounds the depth, also by way of the volume. -/
theorem buildRoot_halving {B : ABuilder K} {rs : List String} {bs : ABounds} (hB : BuilderOk B rs bs) {d : ℕ}
    (hd : ∀ r k, d ≤ k → B.stop r (1 / 2 ^ k) k = true) {fuel : ℕ} (hf : d < fuel) (s : B.rng.State) :
    ∃ T s' stk', buildRoot B fuel s = .ok (T, some (cellVolume bs), s') ∧ Grown B rs bs (cellVolume bs) [] T stk' := by
  have hlen : bs.length = rs.length := (builderBounds_spec hB.reals hB.bounds).length_eq.symm
  rcases buildTree_spec hB (cellVolume_pos hB.wide).ne' fuel B.domain bs (cellVolume bs) 0 s [] hB.box
    (rowOk_root hB.box hB.reals hB.bounds) hlen hB.some hB.wide (by simp) with ⟨T, s', stk', h, g⟩ | ⟨_, h⟩
  · exact ⟨T, s', stk', by simp only [buildRoot, hB.reals, hB.bounds, boundsVolume_eq hB.some, h], g⟩
  · have := h d hd (by rw [div_self (cellVolume_pos hB.wide).ne']; simp) (Nat.zero_le _)
    omega

theorem buildRoot_ok {B : ABuilder K} {rs : List String} {bs : ABounds} (hB : BuilderOk B rs bs) {d : ℕ}
    (hd : ∀ r v k, d ≤ k → B.stop r v k = true) {fuel : ℕ} (hf : d < fuel) (s : B.rng.State) :
    ∃ T s' stk', buildRoot B fuel s = .ok (T, some (cellVolume bs), s') ∧ Grown B rs bs (cellVolume bs) [] T stk' :=
  buildRoot_halving hB (fun r k hk => hd r _ k hk) hf s

theorem buildRoot_grown {B : ABuilder K} {rs : List String} {bs : ABounds} (hB : BuilderOk B rs bs) {fuel : ℕ} {s : B.rng.State}
    {T : ATree K} {V : Option ℚ} {s' : B.rng.State} (h : buildRoot B fuel s = .ok (T, V, s')) :
    V = some (cellVolume bs) ∧ ∃ stk', Grown B rs bs (cellVolume bs) [] T stk' := by
  have hlen : bs.length = rs.length := (builderBounds_spec hB.reals hB.bounds).length_eq.symm
  simp only [buildRoot, hB.reals, hB.bounds, boundsVolume_eq hB.some] at h
  rcases buildTree_spec hB (cellVolume_pos hB.wide).ne' fuel B.domain bs (cellVolume bs) 0 s [] hB.box
    (rowOk_root hB.box hB.reals hB.bounds) hlen hB.some hB.wide (by simp) with ⟨T', s1, stk', h', g⟩ | ⟨h', _⟩
  · rw [h'] at h
    cases h
    exact ⟨rfl, stk', g⟩
  · rw [h'] at h
    cases h

open Classical in
/-- **C36**: whatever the samples, the scores and the answers of the solver, a built tree partitions the box of the domain: a point
of the box lies in exactly one leaf and a point outside in none; the volume of a leaf is the volume of its bounds, and the
volumes of the leaves add up to the volume of the box. -/
theorem tree_partition {B : ABuilder K} {rs : List String} {bs : ABounds} (hB : BuilderOk B rs bs) {fuel : ℕ} {s : B.rng.State}
    {T : ATree K} {V : Option ℚ} {s' : B.rng.State} (h : buildRoot B fuel s = .ok (T, V, s')) :
    (∀ xs : List K, T.leaves.countP (fun c => inCell c.bounds xs) = if inCell bs xs then 1 else 0) ∧
    (∀ c ∈ T.leaves, c.volume = cellVolume c.bounds) ∧ (T.leaves.map (·.volume)).sum = cellVolume bs := by
  obtain ⟨_, stk', g⟩ := buildRoot_grown hB h
  exact ⟨g.partition hB.wide, g.cellVol rfl⟩

/-! ### The estimates -/

/-- SPEC: the estimate of a leaf: its volume times the average over its samples of the weight of the accepted ones. -/
def leafEstimate (B : ABuilder K) (weight : Option Formula) (cond : Formula) (c : ACell K) : K :=
  if c.empty then 0 else (c.volume : K) / (c.samples.length : K) *
    ((c.samples.filter fun row => truth (rowEnv B.domain.vars row) (.and [B.support, cond])).map (rowWeight B.domain weight)).sum

/-- SPEC: the estimate of a tree, the sum over its leaves. -/
def treeEstimate (B : ABuilder K) (weight : Option Formula) (cond : Formula) (T : ATree K) : K :=
  (T.leaves.map (leafEstimate B weight cond)).sum

/-- The cells of two trees are the same. -/
def SameCells (T T' : ATree K) : Prop :=
  T'.leaves.map (fun c => (c.bounds, c.volume, c.empty)) = T.leaves.map (fun c => (c.bounds, c.volume, c.empty))

theorem topUp_spec {B : ABuilder K} {rs : List String} {bs0 : ABounds} (hB : BuilderOk B rs bs0) (desired : Option ℕ) {c : ACell K} {bs : ABounds}
    (hc : Sampled B rs bs c) (hlen : bs.length = rs.length) (hw : Wide bs) (s : B.rng.State) : ∃ c' s', topUp B rs desired c s = .ok (c', s') ∧
      Sampled B rs bs c' ∧ c'.volume = c.volume ∧ c'.empty = c.empty ∧ c'.asked = c.asked ∧ (∀ n, desired = some n → n ≤ c'.samples.length) ∧
      (desired = none → c' = c ∧ s' = s) := by
  cases desired with
  | none => exact ⟨c, s, rfl, hc, rfl, rfl, rfl, by simp, fun _ => ⟨rfl, rfl⟩⟩
  | some n =>
    simp only [topUp]
    split_ifs with h
    · have hbox : BoxOk (cellDomain B.domain rs c.bounds) := by
        rw [hc.bounds]
        exact cellDomain_box hB.box hB.reals hlen fun b hb => (hw b hb).le
      obtain ⟨⟨rows, s1, e1, e2, e3⟩, -⟩ := uniform_correct hB.rng hbox (n - c.samples.length) s
      simp only [e1, evalMask_ok hB.pow hB.box.wf hB.wt hB.syms]
      refine ⟨_, _, rfl, ⟨hc.bounds, ?_, ?_, ?_⟩, rfl, rfl, rfl, ?_, by simp⟩
      · simp [hc.labels]
      · intro row hr
        rcases List.mem_append.mp hr with hr | hr
        · exact hc.rows row hr
        · have := e3 row hr
          rwa [hc.bounds] at this
      · simp only [List.length_append]
        exact hc.count.trans (Nat.le_add_right _ _)
      · rintro m ⟨⟩
        simp only [List.length_append, e2]
        omega
    · refine ⟨c, s, rfl, hc, rfl, rfl, rfl, ?_, by simp⟩
      rintro m ⟨⟩
      omega

theorem countTrue_map (rows : List (List K)) (p : List K → Bool) : countTrue (rows.map p) = (rows.filter p).length := by
  rw [countTrue, List.filter_map, List.length_map]; rfl

theorem leafEstimate_plain {B : ABuilder K} {rs : List String} {bs : ABounds} {c : ACell K} (hc : Sampled B rs bs c) (he : c.empty = false) :
    leafEstimate B none (.boolC true) c = (c.volume : K) * ((countTrue c.labels : K) / (c.labels.length : K)) := by
  rw [leafEstimate, he, hc.labels, countTrue_map, List.length_map]
  have : rowWeight (K := K) B.domain none = fun _ => 1 := rfl
  simp only [this, List.map_const', List.sum_replicate, nsmul_eq_mul, mul_one, Bool.false_eq_true, if_false, truth, truthAll, Bool.and_true]
  ring

theorem treeVolume_spec {B : ABuilder K} {rs : List String} {bs0 : ABounds} (hB : BuilderOk B rs bs0) {V : ℚ} (hV : V ≠ 0)
    (desired : Option ℕ) {bs vol stk T stk'} (h : Grown B rs bs vol stk T stk') :
    bs.length = rs.length → Wide bs → ∀ (query : Option Formula) (s : B.rng.State), ∃ v T' s',
      treeVolume B rs V desired query T s = .ok (v, T', s') ∧ Grown B rs bs vol stk T' stk' ∧ SameCells T T' ∧
      (v : K) * (V : K) = treeEstimate B none (.boolC true) T' ∧
      (∀ n, desired = some n → ∀ c ∈ T'.leaves, c.empty = false → n ≤ c.samples.length) ∧ (desired = none → T' = T ∧ s' = s) := by
  have hVK : (V : K) ≠ 0 := by exact_mod_cast hV
  induction h with
  | @stop bs vol stk c hs hv he ha =>
    intro hlen hw query s
    obtain ⟨c', s', e1, e2, e3, e4, e5, e6, e7⟩ := topUp_spec hB desired hs hlen hw s
    have hl : ¬ (c'.labels.length = 0 ∨ V = 0) := by
      rw [e2.labels, List.length_map]
      have := e2.count
      have := hB.count
      rintro (h | h)
      · omega
      · exact hV h
    refine ⟨_, .leaf c', s', by simp only [treeVolume, he, Bool.false_eq_true, if_false, e1, if_neg hl]; rfl, .stop e2 (e3.trans hv) (e4.trans he) (e5.trans ha), ?_, ?_, ?_, ?_⟩
    · simp only [SameCells, ATree.leaves, List.map_cons, List.map_nil, e2.bounds, hs.bounds, e3, e4]
    · simp only [treeEstimate, ATree.leaves, List.map_cons, List.map_nil, List.sum_cons, List.sum_nil, add_zero,
        leafEstimate_plain e2 (e4.trans he)]
      push_cast
      field_simp
    · intro n hn c hc _
      simp only [ATree.leaves, List.mem_singleton] at hc
      subst hc
      exact e6 n hn
    · intro hn
      obtain ⟨rfl, rfl⟩ := e7 hn
      exact ⟨rfl, rfl⟩
  | @empty bs vol stk c hs hv he ha h0 hk =>
    intro hlen hw query s
    refine ⟨0, .leaf c, s, by simp only [treeVolume, he, if_true], .empty hs hv he ha h0 hk, rfl, ?_, ?_, fun _ => ⟨rfl, rfl⟩⟩
    · simp [treeEstimate, ATree.leaves, leafEstimate, he]
    · intro n hn c' hc' hf
      simp only [ATree.leaves, List.mem_singleton] at hc'
      subst hc'
      rw [he] at hf; cases hf
  | @node bs vol stk c sp l r x stk1 stk2 hs hv he ha hh _ _ ih1 ih2 =>
    intro hlen hw query s
    obtain ⟨w1, w2⟩ := wide_halves hw hh
    obtain ⟨v1, l', s1, a1, a2, a3, a4, a5, a6⟩ := ih1 ((lowerBounds_length bs sp).trans hlen) w1 none s
    obtain ⟨v2, r', s2, b1, b2, b3, b4, b5, b6⟩ := ih2 ((upperBounds_length bs sp).trans hlen) w2 none s1
    refine ⟨v1 + v2, .node c sp l' r', s2, by simp only [treeVolume, he, Bool.false_eq_true, if_false, a1, b1],
      .node hs hv he ha hh a2 b2, ?_, ?_, ?_, ?_⟩
    · simp only [SameCells, ATree.leaves, List.map_append] at a3 b3 ⊢
      rw [a3, b3]
    · simp only [treeEstimate, ATree.leaves, List.map_append, List.sum_append] at a4 b4 ⊢
      rw [← a4, ← b4]
      push_cast
      ring
    · intro n hn c' hc' hf
      rcases List.mem_append.mp hc' with hc' | hc'
      · exact a5 n hn c' hc' hf
      · exact b5 n hn c' hc' hf
    · intro hn
      obtain ⟨rfl, rfl⟩ := a6 hn
      obtain ⟨rfl, rfl⟩ := b6 hn
      exact ⟨rfl, rfl⟩

theorem maskRows_zip {α : Type} (rows : List α) (p q : α → Bool) :
    maskRows rows ((rows.map q).zipWith (· && ·) (rows.map p)) = rows.filter fun r => p r && q r := by
  induction rows with
  | nil => rfl
  | cons a rows ih =>
    simp only [List.map_cons, List.zipWith_cons_cons, maskRows, List.filter_cons, ih, Bool.and_comm]

/-- A query that may be absent, as a condition. -/
def queryCond : Option Formula → Formula
  | none => .boolC true
  | some q => q

theorem treeWeighted_spec {B : ABuilder K} {rs : List String} {bs0 : ABounds} (hB : BuilderOk B rs bs0) {V : ℚ} (hV : V ≠ 0)
    {w : Formula} (hw : wt .real w = true) (hsw : ∀ p ∈ syms w, p.1 ∈ B.domain.vars) {query : Option Formula}
    (hq : ∀ q, query = some q → wt .bool q = true ∧ ∀ p ∈ syms q, p.1 ∈ B.domain.vars)
    {bs vol stk T stk'} (h : Grown B rs bs vol stk T stk') :
    ∃ a, treeWeighted B V w query T = .ok a ∧ a * (V : K) = treeEstimate B (some w) (queryCond query) T := by
  have hVK : (V : K) ≠ 0 := by exact_mod_cast hV
  induction h with
  | @stop bs vol stk c hs hv he ha =>
    have hl : ¬ (c.samples.length = 0 ∨ V = 0) := by
      have := hs.count
      have := hB.count
      rintro (h | h)
      · omega
      · exact hV h
    have hmask : ∃ ls, queryLabels B query c = .ok ls ∧ maskRows c.samples ls =
        c.samples.filter fun row => truth (rowEnv B.domain.vars row) (.and [B.support, queryCond query]) := by
      cases query with
      | none =>
        refine ⟨_, rfl, ?_⟩
        rw [hs.labels, maskRows_map]
        simp [truth, truthAll, queryCond]
      | some q =>
        obtain ⟨q1, q2⟩ := hq q rfl
        refine ⟨_, by simp only [queryLabels, evalMask_ok hB.pow hB.box.wf q1 q2]; rfl, ?_⟩
        rw [hs.labels, maskRows_zip]
        simp [truth, truthAll, queryCond]
    obtain ⟨ls, hls, hm⟩ := hmask
    refine ⟨_, by simp only [treeWeighted, he, Bool.false_eq_true, if_false, hls, hm, evalNums_ok hB.pow hB.box.wf hw hsw, if_neg hl]; rfl, ?_⟩
    simp only [treeEstimate, ATree.leaves, List.map_cons, List.map_nil, List.sum_cons, List.sum_nil, add_zero, leafEstimate, he,
      Bool.false_eq_true, if_false, foldl_add, zero_add]
    have : rowWeight (K := K) B.domain (some w) = fun row => value (rowEnv B.domain.vars row) w := rfl
    rw [this]
    push_cast
    field_simp
  | @empty bs vol stk c hs hv he ha h0 hk =>
    refine ⟨0, by simp only [treeWeighted, he, if_true], ?_⟩
    simp [treeEstimate, ATree.leaves, leafEstimate, he]
  | @node bs vol stk c sp l r x stk1 stk2 hs hv he ha hh _ _ ih1 ih2 =>
    obtain ⟨a, a1, a2⟩ := ih1
    obtain ⟨b, b1, b2⟩ := ih2
    refine ⟨a + b, by simp only [treeWeighted, a1, b1], ?_⟩
    simp only [treeEstimate, ATree.leaves, List.map_append, List.sum_append] at a2 b2 ⊢
    rw [← a2, ← b2]
    ring

/-- The weight as the engine sees it. -/
theorem rowWeight_proper {D : Domain} (weight : Option Formula) : rowWeight (K := K) D (properWeight weight) = rowWeight D weight := by
  cases weight with
  | none => rfl
  | some w =>
    simp only [properWeight]
    split_ifs with h
    · funext row
      simp [h, rowWeight, value]
    · rfl

theorem treeEstimate_proper (B : ABuilder K) (weight : Option Formula) (cond : Formula) (T : ATree K) :
    treeEstimate B (properWeight weight) cond T = treeEstimate B weight cond T := by
  simp only [treeEstimate]
  congr 1
  refine List.map_congr_left fun c _ => ?_
  simp only [leafEstimate, rowWeight_proper]

theorem properWeight_some {weight : Option Formula} {w : Formula} (h : properWeight weight = some w) : weight = some w := by
  cases weight with
  | none => cases h
  | some v =>
    simp only [properWeight] at h
    split_ifs at h
    exact h

/-- **C36**: `compute_volume` on a built tree succeeds; its value is the sum over the cells of the volume of the cell times the
average over at least `n` samples of that cell of the weight of the accepted ones. -/
theorem adaptiveVolume_correct {B : ABuilder K} {rs : List String} {bs : ABounds} (hB : BuilderOk B rs bs) {fuel : ℕ} {s0 : B.rng.State}
    {T : ATree K} {V : Option ℚ} {s : B.rng.State} (h : buildRoot B fuel s0 = .ok (T, V, s)) {weight : Option Formula}
    (hw : ∀ w, weight = some w → wt .real w = true ∧ ∀ p ∈ syms w, p.1 ∈ B.domain.vars) (n : ℕ) :
    ∃ v T' s', adaptiveVolume B rs (cellVolume bs) weight n T s = .ok (v, T', s') ∧ SameCells T T' ∧
      v = treeEstimate B weight (.boolC true) T' ∧
      (∀ c ∈ T'.leaves, c.empty = false → n ≤ c.samples.length ∧ ∀ row ∈ c.samples, rowOk (cellDomain B.domain rs c.bounds) row) := by
  obtain ⟨_, stk', g⟩ := buildRoot_grown hB h
  have hlen : bs.length = rs.length := (builderBounds_spec hB.reals hB.bounds).length_eq.symm
  have hV := (cellVolume_pos hB.wide).ne'
  obtain ⟨v, T', s', e1, e2, e3, e4, e5, _⟩ := treeVolume_spec hB hV (some n) g hlen hB.wide none s
  have hrows : ∀ {bs vol stk T stk'}, Grown B rs bs vol stk T stk' → ∀ c ∈ T.leaves, ∀ row ∈ c.samples,
      rowOk (cellDomain B.domain rs c.bounds) row := by
    intro bs vol stk T stk' g
    induction g with
    | stop hs => intro c hc; simp only [ATree.leaves, List.mem_singleton] at hc; subst hc; rw [hs.bounds]; exact hs.rows
    | empty hs => intro c hc; simp only [ATree.leaves, List.mem_singleton] at hc; subst hc; rw [hs.bounds]; exact hs.rows
    | node _ _ _ _ _ _ _ ih1 ih2 =>
      intro c hc
      rcases List.mem_append.mp hc with hc | hc
      · exact ih1 c hc
      · exact ih2 c hc
  have hleaf := fun c hc he => (⟨e5 n rfl c hc he, hrows e2 c hc⟩ : n ≤ c.samples.length ∧ _)
  cases hp : properWeight weight with
  | none =>
    refine ⟨_, T', s', by simp only [adaptiveVolume, e1, hp]; rfl, e3, ?_, hleaf⟩
    rw [← treeEstimate_proper, hp, ← e4]
    push_cast
    rfl
  | some w =>
    obtain ⟨w1, w2⟩ := hw w (properWeight_some hp)
    obtain ⟨a, a1, a2⟩ := treeWeighted_spec hB hV w1 w2 (query := none) (by simp) e2
    refine ⟨_, T', s', by simp only [adaptiveVolume, e1, hp, a1]; rfl, e3, ?_, hleaf⟩
    rw [← treeEstimate_proper, hp]
    exact a2

theorem leafEstimate_bounds {B : ABuilder K} {cond : Formula} {c : ACell K} (h : 0 ≤ c.volume) :
    0 ≤ leafEstimate B none cond c ∧ leafEstimate B none cond c ≤ (c.volume : K) := by
  have hv : (0 : K) ≤ (c.volume : K) := by exact_mod_cast h
  unfold leafEstimate
  split_ifs
  · exact ⟨le_rfl, hv⟩
  · have : rowWeight (K := K) B.domain none = fun _ => 1 := rfl
    simp only [this, List.map_const', List.sum_replicate, nsmul_eq_mul, mul_one]
    refine ⟨by positivity, ?_⟩
    have hle : ((c.samples.filter fun row => truth (rowEnv B.domain.vars row) (.and [B.support, cond])).length : K) ≤ c.samples.length := by
      exact_mod_cast List.length_filter_le _ _
    rw [div_mul_eq_mul_div]
    exact div_le_of_le_mul₀ (Nat.cast_nonneg _) hv (mul_le_mul_of_nonneg_left hle hv)

/-- **C36**: without weight the reported volume lies between 0 and the volume of the box. -/
theorem adaptiveVolume_bounds {B : ABuilder K} {rs : List String} {bs : ABounds} (hB : BuilderOk B rs bs) {fuel : ℕ} {s0 : B.rng.State}
    {T : ATree K} {V : Option ℚ} {s : B.rng.State} (h : buildRoot B fuel s0 = .ok (T, V, s)) (n : ℕ) :
    ∃ v T' s', adaptiveVolume B rs (cellVolume bs) none n T s = .ok (v, T', s') ∧ 0 ≤ v ∧ v ≤ (cellVolume bs : K) := by
  obtain ⟨v, T', s', e1, e2, e3, _⟩ := adaptiveVolume_correct hB h (weight := none) (by simp) n
  obtain ⟨_, p2, p3⟩ := tree_partition hB h
  obtain ⟨_, stk', g⟩ := buildRoot_grown hB h
  have hpos : ∀ c ∈ T.leaves, 0 ≤ c.volume := by
    have : ∀ {bs vol stk T stk'}, Grown B rs bs vol stk T stk' → 0 ≤ vol → ∀ c ∈ T.leaves, 0 ≤ c.volume := by
      intro bs vol stk T stk' g
      induction g with
      | stop _ hv => intro h c hc; simp only [ATree.leaves, List.mem_singleton] at hc; subst hc; rw [hv]; exact h
      | empty _ hv => intro h c hc; simp only [ATree.leaves, List.mem_singleton] at hc; subst hc; rw [hv]; exact h
      | node _ _ _ _ _ _ _ ih1 ih2 =>
        intro h c hc
        rcases List.mem_append.mp hc with hc | hc
        · exact ih1 (by linarith) c hc
        · exact ih2 (by linarith) c hc
    exact this g (cellVolume_pos hB.wide).le
  have hvol : T'.leaves.map (·.volume) = T.leaves.map (·.volume) := by
    have := congrArg (List.map fun p : ABounds × ℚ × Bool => p.2.1) e2
    simpa [SameCells, List.map_map, Function.comp_def] using this
  have hpos' : ∀ c ∈ T'.leaves, 0 ≤ c.volume := by
    intro c hc
    have : c.volume ∈ T'.leaves.map (·.volume) := List.mem_map_of_mem hc
    rw [hvol] at this
    obtain ⟨c', hc', e⟩ := List.mem_map.mp this
    rw [← e]
    exact hpos c' hc'
  refine ⟨v, T', s', e1, ?_, ?_⟩
  · rw [e3]
    refine List.sum_nonneg ?_
    intro x hx
    obtain ⟨c, hc, rfl⟩ := List.mem_map.mp hx
    exact (leafEstimate_bounds (hpos' c hc)).1
  · rw [e3, ← p3, ← hvol]
    have : (((T'.leaves.map (·.volume)).sum : ℚ) : K) = (T'.leaves.map fun c => (c.volume : K)).sum := by
      generalize T'.leaves = L
      induction L with
      | nil => simp
      | cons a L ih => simp [ih]
    rw [this]
    exact List.sum_le_sum fun c hc => (leafEstimate_bounds (hpos' c hc)).2

end
end Pywmi
