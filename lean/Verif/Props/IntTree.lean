import Verif.Xsdd.IntTree
import Verif.Props.Vtree
import Verif.Props.Primal

set_option linter.unusedSectionVars false
set_option linter.unusedSimpArgs false

/-!
# Properties of integration trees and the bami vtree (C51)
-/

namespace Pywmi
namespace IntTree
variable {α L : Type} [DecidableEq α] [DecidableEq L]

/-! ## Specification -/

/-- Two sets of variables without common or interacting members. -/
def Apart (R : α → α → Prop) (a b : List α) : Prop := ∀ x ∈ a, ∀ y ∈ b, x ≠ y ∧ ¬ R x y

theorem Apart.symm {R : α → α → Prop} (hR : ∀ x y, R x y → R y x) {a b : List α} (h : Apart R a b) : Apart R b a :=
  fun x hx y hy => ⟨Ne.symm (h y hy x hx).1, fun h' => (h y hy x hx).2 (hR _ _ h')⟩

theorem Apart.mono {R : α → α → Prop} {a b a' b' : List α} (h : Apart R a b) (ha : ∀ x ∈ a', x ∈ a)
    (hb : ∀ x ∈ b', x ∈ b) : Apart R a' b' := fun x hx y hy => h x (ha x hx) y (hb y hy)

mutual
/-- Different branches of the tree do not interact; stored weights are positive. -/
def Sep (R : α → α → Prop) : IntTree α → Prop
  | .var _ => True
  | .line _ t => Sep R t
  | .split _ l r => Sep R l ∧ Sep R r ∧ Apart R l.conVars r.conVars
  | .parallel _ ts ws => ts ≠ [] ∧ SepL R ts ∧ ts.Pairwise (fun t u => Apart R t.conVars u.conVars) ∧
      ∀ w, ws = some w → w.length = ts.length ∧ ∀ x ∈ w, 0 < x
/-- The same for every child. -/
def SepL (R : α → α → Prop) : List (IntTree α) → Prop
  | [] => True
  | t :: ts => Sep R t ∧ SepL R ts
end

theorem sepL_iff (R : α → α → Prop) (ts : List (IntTree α)) : SepL R ts ↔ ∀ t ∈ ts, Sep R t := by
  induction ts with
  | nil => simp [SepL]
  | cons t ts ih => simp [SepL, ih]

theorem mem_conVarsL (ts : List (IntTree α)) (x : α) : x ∈ conVarsL ts ↔ ∃ t ∈ ts, x ∈ t.conVars := by
  induction ts with
  | nil => simp [conVarsL]
  | cons t ts ih => simp [conVarsL, ih]

theorem sizeL_eq (ts : List (IntTree α)) : sizeL ts = (ts.map fun t => 3 + t.size).sum := by
  induction ts with
  | nil => rfl
  | cons t ts ih => simp [sizeL, ih]

theorem sepExists (R : α → α → Prop) : ∀ t : IntTree α, Sep R t → ∃ x, x ∈ t.conVars
  | .var v, _ => ⟨v, by simp [conVars]⟩
  | .line v _, _ => ⟨v, by simp [conVars]⟩
  | .split _ l r, h => by
    obtain ⟨x, hx⟩ := sepExists R l h.1
    exact ⟨x, by simp [conVars, hx]⟩
  | .parallel _ [] _, h => absurd rfl h.1
  | .parallel _ (t :: ts) _, h => by
    obtain ⟨x, hx⟩ := sepExists R t h.2.1.1
    exact ⟨x, by simp [conVars, conVarsL, hx]⟩

/-! ## Distribution of literals -/

theorem meets_iff (s t : List α) : meets s t = true ↔ ∃ x ∈ s, x ∈ t := by simp [meets]

theorem distribute_spec {l2c : List (L × List α)} {left right : List α} (lits : List L)
    (h : ∀ lit ∈ lits, ¬ (meets (conts l2c lit) left = true ∧ meets (conts l2c lit) right = true)) :
    ∃ l r m, distribute l2c left right lits = .ok (l, r, m) ∧ (l ++ r ++ m).Perm lits ∧
      (∀ lit ∈ lits, meets (conts l2c lit) left = true → lit ∈ l) ∧
      (∀ lit ∈ lits, meets (conts l2c lit) right = true → lit ∈ r) := by
  induction lits with
  | nil => exact ⟨[], [], [], rfl, by simp, by simp, by simp⟩
  | cons lit lits ih =>
    obtain ⟨l, r, m, h1, h2, h3, h4⟩ := ih fun x hx => h x (List.mem_cons_of_mem _ hx)
    have hl := h lit (List.mem_cons_self ..)
    simp only [distribute, if_neg hl, h1]
    by_cases hleft : meets (conts l2c lit) left = true
    · rw [if_pos hleft]
      refine ⟨lit :: l, r, m, rfl, by simpa using h2, ?_, ?_⟩
      · intro x hx hm
        rcases List.mem_cons.mp hx with rfl | hx
        · exact List.mem_cons_self ..
        · exact List.mem_cons_of_mem _ (h3 x hx hm)
      · intro x hx hm
        rcases List.mem_cons.mp hx with rfl | hx
        · exact absurd ⟨hleft, hm⟩ hl
        · exact h4 x hx hm
    · rw [if_neg hleft]
      by_cases hright : meets (conts l2c lit) right = true
      · rw [if_pos hright]
        refine ⟨l, lit :: r, m, rfl, ?_, ?_, ?_⟩
        · have : (l ++ lit :: r ++ m).Perm (lit :: (l ++ r ++ m)) := by
            rw [List.append_assoc, List.append_assoc]
            exact List.perm_middle
          exact this.trans (h2.cons lit)
        · intro x hx hm
          rcases List.mem_cons.mp hx with rfl | hx
          · exact absurd hm hleft
          · exact h3 x hx hm
        · intro x hx hm
          rcases List.mem_cons.mp hx with rfl | hx
          · exact List.mem_cons_self ..
          · exact List.mem_cons_of_mem _ (h4 x hx hm)
      · rw [if_neg hright]
        refine ⟨l, r, lit :: m, rfl, List.perm_middle.trans (h2.cons lit), ?_, ?_⟩
        · intro x hx hm
          rcases List.mem_cons.mp hx with rfl | hx
          · exact absurd hm hleft
          · exact h3 x hx hm
        · intro x hx hm
          rcases List.mem_cons.mp hx with rfl | hx
          · exact absurd hm hright
          · exact h4 x hx hm

theorem rebalance_spec (l r m : List L) :
    ((rebalance l r m).1 ++ (rebalance l r m).2).Perm (l ++ r ++ m) ∧ (∀ x ∈ l, x ∈ (rebalance l r m).1) ∧
      ∀ x ∈ r, x ∈ (rebalance l r m).2 := by
  have hm : ∀ n k : ℕ, (m.take n ++ ((m.drop n).take k ++ (m.drop n).drop k)).Perm m := fun n k => by
    rw [List.take_append_drop, List.take_append_drop]
  unfold rebalance
  split
  · refine ⟨?_, by simp +contextual, by simp +contextual⟩
    simp only
    set n := min (r.length - l.length) m.length
    set k := (List.drop n m).length / 2
    have := hm n k
    refine List.Perm.trans ?_ (this.append_left (l ++ r))
    rw [List.perm_iff_count]
    intro a
    simp only [List.count_append]
    omega
  · refine ⟨?_, by simp +contextual, by simp +contextual⟩
    simp only
    set n := min (l.length - r.length) m.length
    set k := (List.drop n m).length / 2
    have := hm n k
    refine List.Perm.trans ?_ (this.append_left (l ++ r))
    rw [List.perm_iff_count]
    intro a
    simp only [List.count_append]
    omega

/-- The two sides differ by at most one literal whenever the remaining literals can make up the difference. -/
theorem rebalance_balanced (l r m : List L) (h : (l.length - r.length) + (r.length - l.length) ≤ m.length) :
    (rebalance l r m).1.length ≤ (rebalance l r m).2.length ∧
      (rebalance l r m).2.length ≤ (rebalance l r m).1.length + 1 := by
  unfold rebalance
  split <;> simp only [List.length_append, List.length_take, List.length_drop] <;> omega

theorem partitionLoop_perm (xs l r : List (ℕ × IntTree α)) (lw rw : ℕ) :
    ((partitionLoop xs l r lw rw).1 ++ (partitionLoop xs l r lw rw).2).Perm (l ++ r ++ xs) ∧
      (∀ x ∈ l, x ∈ (partitionLoop xs l r lw rw).1) ∧ ∀ x ∈ r, x ∈ (partitionLoop xs l r lw rw).2 := by
  induction xs generalizing l r lw rw with
  | nil => simp [partitionLoop]
  | cons x xs ih =>
    simp only [partitionLoop]
    split
    · obtain ⟨h1, h2, h3⟩ := ih (l ++ [x]) r (lw + x.1) rw
      refine ⟨h1.trans ?_, fun y hy => h2 y (by simp [hy]), h3⟩
      rw [List.append_assoc, List.append_assoc, List.append_assoc]
      exact (List.perm_middle (l₁ := r) (a := x) (l₂ := xs)).symm.append_left l
    · obtain ⟨h1, h2, h3⟩ := ih l (r ++ [x]) lw (rw + x.1)
      refine ⟨h1.trans ?_, h2, fun y hy => h3 y (by simp [hy])⟩
      simp

/-- With at least two trees of positive weight, both parts are non-empty. -/
theorem partitionTrees_spec (values : List (ℕ × IntTree α)) (h2 : 2 ≤ values.length) (hpos : ∀ p ∈ values, 0 < p.1) :
    ((partitionTrees values).1 ++ (partitionTrees values).2).Perm values ∧ (partitionTrees values).1 ≠ [] ∧
      (partitionTrees values).2 ≠ [] := by
  unfold partitionTrees
  have hperm := List.perm_insertionSort (fun x y : ℕ × IntTree α => y.1 ≤ x.1) values
  have hlen := hperm.length_eq
  obtain ⟨a, b, rest, hs⟩ : ∃ a b rest, values.insertionSort (fun x y => y.1 ≤ x.1) = a :: b :: rest := by
    match hv : values.insertionSort (fun x y => y.1 ≤ x.1) with
    | [] => rw [hv] at hlen; simp at hlen; omega
    | [a] => rw [hv] at hlen; simp at hlen; omega
    | a :: b :: rest => exact ⟨a, b, rest, hv⟩
  have ha : 0 < a.1 := hpos a (hperm.subset (by rw [hs]; simp))
  rw [hs] at hperm ⊢
  have hstep : partitionLoop (a :: b :: rest) [] [] 0 0 = partitionLoop rest [b] [a] (0 + b.1) (0 + a.1) := by
    simp only [partitionLoop, lt_self_iff_false, if_false, zero_add, if_pos ha, List.nil_append]
  rw [hstep]
  obtain ⟨h1, hl, hr⟩ := partitionLoop_perm rest [b] [a] (0 + b.1) (0 + a.1)
  refine ⟨h1.trans (List.Perm.trans ?_ hperm), List.ne_nil_of_mem (hl b (by simp)), List.ne_nil_of_mem (hr a (by simp))⟩
  exact List.Perm.swap _ _ _

theorem contSets_spec {l2c : List (L × List α)} (lits : List L) (h : ∀ lit ∈ lits, lit ∈ l2c.map (·.1)) :
    contSets l2c lits = .ok (lits.map (conts l2c)) := by
  induction lits with
  | nil => rfl
  | cons lit lits ih =>
    obtain ⟨c, hc⟩ := (lookup_isSome_iff l2c lit).mpr (h lit (List.mem_cons_self ..))
    simp only [contSets, hc, ih (fun x hx => h x (List.mem_cons_of_mem _ hx)), List.map_cons, conts, Option.getD_some]

theorem filter_both_perm (p : L → Bool) (l : List L) : (l.filter (fun x => !p x) ++ l.filter p).Perm l :=
  (List.perm_append_comm).trans (List.filter_append_perm p l)

/-! ## The vtree of an integration tree -/

/-- For every integration tree whose branches do not interact, and literals whose variables interact pairwise and cover
the variables of the tree, `create_vtree` fails no assertion and returns a vtree, without empty nodes, whose leaves are
exactly the literals. -/
theorem createVtree_spec {R : α → α → Prop} (hR : ∀ x y, R x y → R y x) {ord : List L → List L}
    (hord : ∀ l, (ord l).Perm l) {l2c : List (L × List α)} (n : ℕ) (t : IntTree α) (lits : List L) (hn : t.size ≤ n)
    (hsep : Sep R t) (hkey : ∀ lit ∈ lits, lit ∈ l2c.map (·.1))
    (hclique : ∀ lit ∈ lits, ∀ x ∈ conts l2c lit, ∀ y ∈ conts l2c lit, x = y ∨ R x y)
    (hcover : ∀ v ∈ t.conVars, ∃ lit ∈ lits, v ∈ conts l2c lit) :
    ∃ T, t.createVtree ord l2c n lits = .ok T ∧ T.Full ∧ T.leaves.Perm lits := by
  induction n generalizing t lits with
  | zero =>
    cases t with
    | var v => simp [size] at hn
    | line v t => simp [size] at hn
    | split v l r => simp [size] at hn
    | parallel v ts ws =>
      cases ts with
      | nil => exact absurd rfl hsep.1
      | cons t ts => simp only [size, sizeL] at hn; omega
  | succ n ih =>
    have hmem : ∀ x, x ∈ ord lits ↔ x ∈ lits := fun x => (hord lits).mem_iff
    match t with
    | .var v =>
      obtain ⟨lit0, hl0, hv0⟩ := hcover v (by simp [conVars])
      simp only [createVtree]
      split
      · rename_i hany
        refine ⟨_, rfl, ?_, ?_⟩
        · refine ⟨Vtree.full_of_createBalanced ?_ _, Vtree.full_of_createBalanced ?_ _⟩
          · obtain ⟨x, hx, hx'⟩ := List.any_eq_true.mp hany
            exact List.ne_nil_of_mem (List.mem_filter.mpr ⟨hx, hx'⟩)
          · exact List.ne_nil_of_mem (List.mem_filter.mpr ⟨(hmem lit0).mpr hl0, by simpa using hv0⟩)
        · simp only [Vtree.leaves, Vtree.createBalanced_leaves]
          have := filter_both_perm (fun lit => decide (v ∈ conts l2c lit)) (ord lits)
          refine List.Perm.trans ?_ (this.trans (hord lits))
          simp
      · refine ⟨_, rfl, Vtree.full_of_createBalanced (List.ne_nil_of_mem ((hmem lit0).mpr hl0)) _, ?_⟩
        rw [Vtree.createBalanced_leaves]
        exact hord lits
    | .line v t =>
      simp only [size] at hn
      obtain ⟨x0, hx0⟩ := sepExists R t hsep
      simp only [createVtree]
      split
      · rename_i hne
        obtain ⟨T, h1, h2, h3⟩ := ih t ((ord lits).filter fun lit => meets t.conVars (conts l2c lit)) (by omega) hsep
          (fun lit hl => hkey lit ((hmem lit).mp (List.mem_filter.mp hl).1))
          (fun lit hl => hclique lit ((hmem lit).mp (List.mem_filter.mp hl).1))
          (fun w hw => by
            obtain ⟨lit, hl, hc⟩ := hcover w (by simp [conVars, hw])
            exact ⟨lit, List.mem_filter.mpr ⟨(hmem lit).mpr hl, (meets_iff ..).mpr ⟨w, hw, hc⟩⟩, hc⟩)
        rw [h1]
        refine ⟨_, rfl, ⟨Vtree.full_of_createBalanced (fun h => hne.1 (by rw [h]; rfl)) _, h2⟩, ?_⟩
        simp only [Vtree.leaves, Vtree.createBalanced_leaves]
        exact (h3.append_left _).trans ((filter_both_perm _ _).trans (hord lits))
      · exact ih t lits (by omega) hsep hkey hclique fun w hw => hcover w (by simp [conVars, hw])
    | .split v l r =>
      simp only [size] at hn
      obtain ⟨sl, sr, hap⟩ := hsep
      obtain ⟨ll, rr, m, h1, h2, h3, h4⟩ := distribute_spec (l2c := l2c) (left := l.conVars) (right := r.conVars) (ord lits)
        (by
          rintro lit hl ⟨ha, hb⟩
          obtain ⟨x, hx, hx'⟩ := (meets_iff ..).mp ha
          obtain ⟨y, hy, hy'⟩ := (meets_iff ..).mp hb
          have hxy := hap x hx' y hy'
          rcases hclique lit ((hmem lit).mp hl) x hx y hy with h | h
          · exact hxy.1 h
          · exact hxy.2 h)
      obtain ⟨hp, hL, hRr⟩ := rebalance_spec ll rr m
      have hall := hp.trans (h2.trans (hord lits))
      have hsubl : ∀ x ∈ (rebalance ll rr m).1, x ∈ lits := fun x hx => hall.subset (by simp [hx])
      have hsubr : ∀ x ∈ (rebalance ll rr m).2, x ∈ lits := fun x hx => hall.subset (by simp [hx])
      obtain ⟨T1, a1, a2, a3⟩ := ih l (rebalance ll rr m).1 (by omega) sl (fun x hx => hkey x (hsubl x hx))
        (fun x hx => hclique x (hsubl x hx)) (fun w hw => by
          obtain ⟨lit, hl, hc⟩ := hcover w (by simp [conVars, hw])
          exact ⟨lit, hL lit (h3 lit ((hmem lit).mpr hl) ((meets_iff ..).mpr ⟨w, hc, hw⟩)), hc⟩)
      obtain ⟨T2, b1, b2, b3⟩ := ih r (rebalance ll rr m).2 (by omega) sr (fun x hx => hkey x (hsubr x hx))
        (fun x hx => hclique x (hsubr x hx)) (fun w hw => by
          obtain ⟨lit, hl, hc⟩ := hcover w (by simp [conVars, hw])
          exact ⟨lit, hRr lit (h4 lit ((hmem lit).mpr hl) ((meets_iff ..).mpr ⟨w, hc, hw⟩)), hc⟩)
      simp only [createVtree, h1, a1, b1]
      exact ⟨_, rfl, ⟨a2, b2⟩, (a3.append b3).trans hall⟩
    | .parallel v [] ws => exact absurd rfl hsep.1
    | .parallel v [t] ws =>
      simp only [createVtree]
      simp only [size, sizeL] at hn
      exact ih t lits (by omega) hsep.2.1.1 hkey hclique fun w hw => hcover w (by simp [conVars, conVarsL, hw])
    | .parallel v [t, u] ws =>
      simp only [createVtree]
      obtain ⟨_, s1, s2, _⟩ := hsep
      simp only [size, sizeL] at hn
      refine ih (.split v t u) lits (by simp only [size]; omega) ⟨s1.1, s1.2.1, ?_⟩ hkey hclique fun w hw =>
        hcover w (by simpa [conVars, conVarsL] using hw)
      exact (List.pairwise_cons.mp s2).1 u (by simp)
    | .parallel v (t :: u :: w :: ts) ws =>
      obtain ⟨_, s1, s2, s3⟩ := hsep
      set as := t :: u :: w :: ts with has
      have hsz : 3 ≤ as.length := by simp [has]
      obtain ⟨weights, hw1, hw2, hw3⟩ : ∃ weights, childWeights l2c (ord lits) as ws = .ok weights ∧
          weights.length = as.length ∧ ∀ x ∈ weights, 0 < x := by
        cases ws with
        | some ws => exact ⟨ws, rfl, s3 ws rfl⟩
        | none =>
          refine ⟨_, by simp only [childWeights, contSets_spec (ord lits) fun x hx => hkey x ((hmem x).mp hx)]; rfl,
            by simp, ?_⟩
          intro x hx
          obtain ⟨a, ha, rfl⟩ := List.mem_map.mp hx
          obtain ⟨y, hy⟩ := sepExists R a ((sepL_iff R as).mp s1 a ha)
          obtain ⟨lit, hl, hc⟩ := hcover y (by simp only [conVars, List.mem_append]; right; exact (mem_conVarsL as y).mpr ⟨a, ha, hy⟩)
          exact List.length_pos_of_mem (List.mem_filter.mpr ⟨List.mem_map_of_mem ((hmem lit).mpr hl),
            (meets_iff ..).mpr ⟨y, hc, hy⟩⟩)
      have hzip : (weights.zip as).map (·.2) = as := List.map_snd_zip (by omega)
      have hzipl : (weights.zip as).map (·.1) = weights := List.map_fst_zip (by omega)
      obtain ⟨p1, p2, p3⟩ := partitionTrees_spec (weights.zip as) (by simp [List.length_zip]; omega) (fun p hp =>
        hw3 p.1 (by rw [← hzipl]; exact List.mem_map_of_mem hp))
      set P := partitionTrees (weights.zip as)
      have hperm : (P.1.map (·.2) ++ P.2.map (·.2)).Perm as := by
        have := p1.map (·.2)
        rwa [List.map_append, hzip] at this
      have hpw : (P.1.map (·.2) ++ P.2.map (·.2)).Pairwise (fun t u => Apart R t.conVars u.conVars) :=
        (hperm.pairwise_iff fun h => h.symm hR).mpr s2
      obtain ⟨q1, q2, q3⟩ := List.pairwise_append.mp hpw
      have hpos : ∀ p ∈ P.1 ++ P.2, 0 < p.1 := fun p hp =>
        hw3 p.1 (by rw [← hzipl]; exact List.mem_map_of_mem (p1.subset hp))
      have hsepm : ∀ a ∈ P.1.map (·.2) ++ P.2.map (·.2), Sep R a := fun a ha => (sepL_iff R as).mp s1 a (hperm.subset ha)
      have hcv : ∀ x, x ∈ conVarsL (P.1.map (·.2)) ++ conVarsL (P.2.map (·.2)) ↔ x ∈ conVarsL as := by
        intro x
        rw [List.mem_append, mem_conVarsL, mem_conVarsL, mem_conVarsL]
        constructor
        · rintro (⟨a, ha, hx⟩ | ⟨a, ha, hx⟩)
          · exact ⟨a, hperm.subset (by simp only [List.mem_append]; exact .inl ha), hx⟩
          · exact ⟨a, hperm.subset (by simp only [List.mem_append]; exact .inr ha), hx⟩
        · rintro ⟨a, ha, hx⟩
          rcases List.mem_append.mp (hperm.symm.subset ha) with h | h
          · exact .inl ⟨a, h, hx⟩
          · exact .inr ⟨a, h, hx⟩
      have hsize : sizeL (P.1.map (·.2)) + sizeL (P.2.map (·.2)) = sizeL as := by
        rw [sizeL_eq, sizeL_eq, sizeL_eq, ← List.sum_append, ← List.map_append]
        exact (hperm.map _).sum_eq
      have hge : ∀ l : List (ℕ × IntTree α), l ≠ [] → 3 ≤ sizeL (l.map (·.2)) := by
        intro l hl
        cases l with
        | nil => exact absurd rfl hl
        | cons p l => simp only [List.map_cons, sizeL]; omega
      have g1 := hge _ p2
      have g2 := hge _ p3
      have hw1' : childWeights l2c (ord lits) (t :: u :: w :: ts) ws = .ok weights := hw1
      have hP : partitionTrees (weights.zip (t :: u :: w :: ts)) = P := rfl
      rw [has]
      simp only [createVtree, hw1', hP]
      simp only [size] at hn
      refine ih _ lits ?_ ⟨⟨by simpa using p2, ?_, q1, ?_⟩, ⟨by simpa using p3, ?_, q2, ?_⟩, ?_⟩ hkey hclique ?_
      · simp only [size]; omega
      · exact (sepL_iff _ _).mpr fun a ha => hsepm a (by simp only [List.mem_append]; exact .inl ha)
      · rintro w' hw'
        cases hw'
        refine ⟨by simp, fun x hx => ?_⟩
        obtain ⟨p, hp, rfl⟩ := List.mem_map.mp hx
        exact hpos p (by simp only [List.mem_append]; exact .inl hp)
      · exact (sepL_iff _ _).mpr fun a ha => hsepm a (by simp only [List.mem_append]; exact .inr ha)
      · rintro w' hw'
        cases hw'
        refine ⟨by simp, fun x hx => ?_⟩
        obtain ⟨p, hp, rfl⟩ := List.mem_map.mp hx
        exact hpos p (by simp only [List.mem_append]; exact .inr hp)
      · intro x hx y hy
        simp only [conVars, Option.toList_none, List.nil_append] at hx hy
        obtain ⟨a, ha, hxa⟩ := (mem_conVarsL _ _).mp hx
        obtain ⟨b, hb, hyb⟩ := (mem_conVarsL _ _).mp hy
        exact q3 a ha b hb x hxa y hyb
      · intro x hx
        apply hcover
        simp only [conVars, Option.toList_none, List.nil_append, List.mem_append] at hx ⊢
        rcases hx with h | h
        · exact .inl h
        · right
          exact (hcv x).mp (List.mem_append.mpr h)

end IntTree

namespace IntTreeFactory
open IntTree
variable {α : Type} [DecidableEq α]

/-! ## The factory -/

/-- The invariant of the factory after the vertices `added`: every root is a tree of non-interacting branches, its stored
variables and height are right, different roots do not interact, and the roots hold exactly the added vertices. -/
structure FInv (R : α → α → Prop) (F : IntTreeFactory α) (added : List α) : Prop where
  sep : ∀ r ∈ F.roots, Sep R r.1
  conts : ∀ r ∈ F.roots, ∀ x, x ∈ r.2.1 ↔ x ∈ r.1.conVars
  apart : F.roots.Pairwise fun r s => Apart R r.1.conVars s.1.conVars
  height : ∀ r ∈ F.roots, r.2.2 = r.1.depth
  all : ∀ x, x ∈ added ↔ ∃ r ∈ F.roots, x ∈ r.1.conVars

theorem replaceRoots_perm (p : IntTree α × List α × ℕ → Bool) (new : IntTree α × List α × ℕ)
    (rs : List (IntTree α × List α × ℕ)) (h : rs.filter p ≠ []) :
    (replaceRoots p new rs).Perm (new :: rs.filter fun r => !p r) := by
  induction rs with
  | nil => simp at h
  | cons r rs ih =>
    simp only [replaceRoots]
    by_cases hp : p r = true
    · simp [hp]
    · have hp' : p r = false := by simpa using hp
      simp only [List.filter_cons, hp', Bool.false_eq_true, if_false] at h
      simp only [hp', Bool.false_eq_true, if_false, List.filter_cons, Bool.not_false, if_true]
      exact ((ih h).cons r).trans (List.Perm.swap _ _ _)

theorem maxHeight_eq (rs : List (IntTree α × List α × ℕ)) (h : ∀ r ∈ rs, r.2.2 = r.1.depth) :
    maxHeight rs = depthL (rs.map (·.1)) := by
  induction rs with
  | nil => rfl
  | cons r rs ih =>
    have h1 := h r (List.mem_cons_self ..)
    have h2 := ih fun x hx => h x (List.mem_cons_of_mem _ hx)
    simp only [maxHeight, List.foldr_cons, List.map_cons, depthL] at h2 ⊢
    rw [h1, h2]

/-- Adding a fresh vertex never fails, keeps the invariant, and the new root has the announced height. -/
theorem addNode_spec {R : α → α → Prop} (hR : ∀ x y, R x y → R y x) {F : IntTreeFactory α} {added : List α}
    (hF : FInv R F added) {v : α} (hv : v ∉ added) {nb : List α} (hl : F.connected.lookup v = some nb)
    (hnb : ∀ u, u ∈ nb ↔ R v u) :
    ∃ F' new, F.addNode v = .ok F' ∧ F'.connected = F.connected ∧ FInv R F' (v :: added) ∧ new ∈ F'.roots ∧
      v ∈ new.1.conVars ∧ F.getNewHeight v = .ok new.1.depth := by
  have htouch : ∀ r ∈ F.roots, touches nb r = true ↔ ∃ u ∈ r.1.conVars, R v u := by
    intro r hr
    simp only [touches, List.any_eq_true, decide_eq_true_eq, hnb, hF.conts r hr]
    exact ⟨fun ⟨u, a, b⟩ => ⟨u, b, a⟩, fun ⟨u, a, b⟩ => ⟨u, b, a⟩⟩
  have hsplit := List.filter_append_perm (touches nb) F.roots
  have hpw : (F.roots.filter (touches nb) ++ F.roots.filter fun r => !touches nb r).Pairwise
      (fun r s => Apart R r.1.conVars s.1.conVars) := (hsplit.pairwise_iff fun h => h.symm hR).mpr hF.apart
  obtain ⟨hp1, hp2, hp3⟩ := List.pairwise_append.mp hpw
  have hmemf : ∀ r ∈ F.roots.filter (touches nb), r ∈ F.roots := fun r hr => (List.mem_filter.mp hr).1
  have hmemn : ∀ r ∈ F.roots.filter (fun r => !touches nb r), r ∈ F.roots := fun r hr => (List.mem_filter.mp hr).1
  have hvn : ∀ r ∈ F.roots, v ∉ r.1.conVars := fun r hr h => hv ((hF.all v).mpr ⟨r, hr, h⟩)
  -- it is enough to describe the new root
  have key : ∀ (new : IntTree α × List α × ℕ) (roots : List (IntTree α × List α × ℕ)),
      roots.Perm (new :: F.roots.filter fun r => !touches nb r) → Sep R new.1 → (∀ x, x ∈ new.2.1 ↔ x ∈ new.1.conVars) →
      new.2.2 = new.1.depth → (∀ x, x ∈ new.1.conVars ↔ x = v ∨ ∃ r ∈ F.roots.filter (touches nb), x ∈ r.1.conVars) →
      FInv R ⟨F.connected, roots⟩ (v :: added) ∧ new ∈ roots ∧ v ∈ new.1.conVars := by
    intro new roots hperm h1 h2 h3 h4
    have hmem : ∀ r, r ∈ roots ↔ r = new ∨ r ∈ F.roots.filter fun r => !touches nb r := fun r => by
      rw [hperm.mem_iff, List.mem_cons]
    refine ⟨⟨?_, ?_, ?_, ?_, ?_⟩, (hmem new).mpr (.inl rfl), (h4 v).mpr (.inl rfl)⟩
    · intro r hr
      rcases (hmem r).mp hr with rfl | hr
      · exact h1
      · exact hF.sep r (hmemn r hr)
    · intro r hr
      rcases (hmem r).mp hr with rfl | hr
      · exact h2
      · exact hF.conts r (hmemn r hr)
    · refine (hperm.pairwise_iff fun h => h.symm hR).mpr (List.pairwise_cons.mpr ⟨?_, hp2⟩)
      intro r hr x hx y hy
      rcases (h4 x).mp hx with rfl | ⟨s, hs, hxs⟩
      · refine ⟨fun e => hvn r (hmemn r hr) (e ▸ hy), fun hxy => ?_⟩
        have ht := (htouch r (hmemn r hr)).mpr ⟨y, hy, hxy⟩
        have := (List.mem_filter.mp hr).2
        simp [ht] at this
      · exact hp3 s hs r hr x hxs y hy
    · intro r hr
      rcases (hmem r).mp hr with rfl | hr
      · exact h3
      · exact hF.height r (hmemn r hr)
    · intro x
      rw [List.mem_cons, hF.all]
      constructor
      · rintro (rfl | ⟨r, hr, hx⟩)
        · exact ⟨new, (hmem new).mpr (.inl rfl), (h4 x).mpr (.inl rfl)⟩
        · by_cases ht : touches nb r = true
          · exact ⟨new, (hmem new).mpr (.inl rfl), (h4 x).mpr (.inr ⟨r, List.mem_filter.mpr ⟨hr, ht⟩, hx⟩)⟩
          · exact ⟨r, (hmem r).mpr (.inr (List.mem_filter.mpr ⟨hr, by simpa using ht⟩)), hx⟩
      · rintro ⟨r, hr, hx⟩
        rcases (hmem r).mp hr with rfl | hr
        · rcases (h4 x).mp hx with h | ⟨s, hs, hxs⟩
          · exact .inl h
          · exact .inr ⟨s, hmemf s hs, hxs⟩
        · exact .inr ⟨r, hmemn r hr, hx⟩
  match hf : F.roots.filter (touches nb) with
  | [] =>
    have hnone : F.roots.filter (fun r => !touches nb r) = F.roots := by
      rw [List.filter_eq_self]
      intro r hr
      have := List.filter_eq_nil_iff.mp hf r hr
      simpa using this
    have hper : (F.roots ++ [(IntTree.var v, [v], 1)]).Perm ((IntTree.var v, [v], 1) :: F.roots.filter fun r => !touches nb r) := by
      rw [hnone]; exact List.perm_append_singleton _ _
    obtain ⟨k1, k2, k3⟩ := key (.var v, [v], 1) _ hper trivial (by simp [conVars]) (by simp [depth])
      (by rw [hf]; simp [conVars])
    refine ⟨_, _, ?_, ?_, k1, k2, k3, ?_⟩
    · simp only [addNode, assocGet, hl, hf]
    · rfl
    · simp only [getNewHeight, assocGet, hl, hf, depth]
  | [(t, c, h)] =>
    have hr : (t, c, h) ∈ F.roots := hmemf _ (by rw [hf]; simp)
    have hh := hF.height _ hr
    have hc := hF.conts _ hr
    simp only at hh hc
    obtain ⟨k1, k2, k3⟩ := key (.line v t, c ∪ [v], h + 1) _ (replaceRoots_perm _ _ _ (by rw [hf]; simp))
      (by simpa [IntTree.Sep] using hF.sep _ hr) (by intro x; simp [conVars, List.mem_union_iff, hc, or_comm])
      (by simp [depth, hh, Nat.add_comm]) (by rw [hf]; simp [conVars])
    refine ⟨_, _, ?_, ?_, k1, k2, k3, ?_⟩
    · simp only [addNode, assocGet, hl, hf]
    · rfl
    · simp only [getNewHeight, assocGet, hl, hf, depth, hh, Nat.add_comm]
  | [(t, c, h), (t', c', h')] =>
    have hr : (t, c, h) ∈ F.roots := hmemf _ (by rw [hf]; simp)
    have hr' : (t', c', h') ∈ F.roots := hmemf _ (by rw [hf]; simp)
    have hh := hF.height _ hr
    have hc := hF.conts _ hr
    have hh' := hF.height _ hr'
    have hc' := hF.conts _ hr'
    simp only at hh hc hh' hc'
    rw [hf] at hp1
    have hap := (List.pairwise_cons.mp hp1).1 (t', c', h') (by simp)
    obtain ⟨k1, k2, k3⟩ := key (.split (some v) t t', (c ∪ c') ∪ [v], max h h' + 1) _
      (replaceRoots_perm _ _ _ (by rw [hf]; simp)) ⟨hF.sep _ hr, hF.sep _ hr', hap⟩
      (by intro x; simp only [conVars, List.mem_union_iff, hc, hc', List.mem_append, Option.toList_some,
        List.mem_singleton, List.mem_cons, List.not_mem_nil, or_false]; tauto)
      (by simp [depth, hh, hh', Nat.add_comm]) (by rw [hf]; simp [conVars])
    refine ⟨_, _, ?_, ?_, k1, k2, k3, ?_⟩
    · simp only [addNode, assocGet, hl, hf]
    · rfl
    · simp only [getNewHeight, assocGet, hl, hf, depth, hh, hh', Nat.add_comm]
  | a :: b :: c :: rs =>
    have hrs : ∀ r ∈ a :: b :: c :: rs, r ∈ F.roots := fun r hr => hmemf r (by rw [hf]; exact hr)
    have hcu : ∀ (l : List (IntTree α × List α × ℕ)), (∀ r ∈ l, r ∈ F.roots) → ∀ x,
        x ∈ l.foldr (fun r s => r.2.1 ∪ s) [] ↔ ∃ r ∈ l, x ∈ r.1.conVars := by
      intro l
      induction l with
      | nil => simp
      | cons r l ih =>
        intro hl' x
        simp only [List.foldr_cons, List.mem_union_iff, ih (fun r hr => hl' r (List.mem_cons_of_mem _ hr)),
          hF.conts r (hl' r (List.mem_cons_self ..)), List.mem_cons, exists_eq_or_imp]
    rw [hf] at hp1
    have hmax := maxHeight_eq (a :: b :: c :: rs) fun r hr => hF.height r (hrs r hr)
    obtain ⟨k1, k2, k3⟩ := key (.parallel (some v) ((a :: b :: c :: rs).map (·.1)) none,
        ((a :: b :: c :: rs).foldr (fun r s => r.2.1 ∪ s) []) ∪ [v], maxHeight (a :: b :: c :: rs) + 1) _
      (replaceRoots_perm _ _ _ (by rw [hf]; simp))
      ⟨by simp, (sepL_iff _ _).mpr (fun t ht => by
        obtain ⟨r, hr, rfl⟩ := List.mem_map.mp ht
        exact hF.sep r (hrs r hr)), List.pairwise_map.mpr hp1, by simp⟩
      (by
        intro x
        rw [List.mem_union_iff, hcu _ hrs]
        simp only [conVars, Option.toList_some, List.mem_append, List.mem_singleton, mem_conVarsL, List.mem_map, exists_exists_and_eq_and]
        exact or_comm)
      (by simp only [depth]; rw [hmax]; omega)
      (by
        intro x
        rw [hf]
        simp only [conVars, Option.toList_some, List.mem_append, List.mem_singleton, mem_conVarsL, List.mem_map, exists_exists_and_eq_and])
    refine ⟨_, _, ?_, ?_, k1, k2, k3, ?_⟩
    · simp only [addNode, assocGet, hl, hf]
    · rfl
    · simp only [getNewHeight, assocGet, hl, hf, depth]
      rw [hmax, Nat.add_comm]

/-- The combined tree of a non-empty factory has non-interacting branches and exactly the added variables. -/
theorem getIntTree_spec {R : α → α → Prop} {F : IntTreeFactory α} {added : List α} (hF : FInv R F added)
    (hne : added ≠ []) : ∃ t, F.getIntTree = some t ∧ Sep R t ∧ ∀ x, x ∈ t.conVars ↔ x ∈ added := by
  unfold getIntTree
  have hall := hF.all
  have hsep := hF.sep
  have hap := hF.apart
  match hf : F.roots with
  | [] =>
    exfalso
    obtain ⟨x, hx⟩ := List.exists_mem_of_ne_nil _ hne
    obtain ⟨r, hr, _⟩ := (hall x).mp hx
    rw [hf] at hr; simp at hr
  | [r] =>
    rw [hf] at hall hsep
    exact ⟨_, rfl, hsep r (by simp), fun x => by rw [hall]; simp⟩
  | [r, s] =>
    rw [hf] at hall hsep hap
    exact ⟨_, rfl, ⟨hsep r (by simp), hsep s (by simp), (List.pairwise_cons.mp hap).1 s (by simp)⟩, fun x => by
      rw [hall]; simp [conVars]⟩
  | a :: b :: c :: rs =>
    rw [hf] at hall hsep hap
    refine ⟨_, rfl, ⟨by simp, (sepL_iff _ _).mpr (fun t ht => by
      obtain ⟨r, hr, rfl⟩ := List.mem_map.mp ht
      exact hsep r hr), List.pairwise_map.mpr hap, by simp⟩, fun x => ?_⟩
    rw [hall]
    simp only [conVars, Option.toList_none, List.nil_append, mem_conVarsL, List.mem_map, exists_exists_and_eq_and]

theorem leastLoop_spec (F : IntTreeFactory α) (h : α → ℕ) (vs : List α) (hh : ∀ v ∈ vs, F.getNewHeight v = .ok (h v))
    (done best : List α) (low : Option ℕ)
    (hlow : match low with | none => done = [] | some l => (∃ v ∈ done, h v = l) ∧ ∀ v ∈ done, l ≤ h v)
    (hbest : best.Sublist done ∧ ∀ v ∈ done, v ∈ best ↔ ∀ w ∈ done, h v ≤ h w) :
    ∃ best', F.leastLoop vs low best = .ok best' ∧ best'.Sublist (done ++ vs) ∧
      ∀ v ∈ done ++ vs, v ∈ best' ↔ ∀ w ∈ done ++ vs, h v ≤ h w := by
  induction vs generalizing done best low with
  | nil => exact ⟨best, rfl, by simpa using hbest.1, by simpa using hbest.2⟩
  | cons v vs ih =>
    have key := fun low' best' hl hb => ih (fun w hw => hh w (List.mem_cons_of_mem _ hw)) (done ++ [v]) best' low' hl hb
    simp only [List.append_assoc, List.cons_append, List.nil_append] at key
    simp only [leastLoop, hh v (List.mem_cons_self ..)]
    cases low with
    | none =>
      simp only at hlow
      subst hlow
      exact key (some (h v)) [v] (by simp) (by simp)
    | some l =>
      obtain ⟨⟨w0, hw0, hw0l⟩, hle⟩ := hlow
      simp only
      split
      · rename_i heq
        refine key (some l) (best ++ [v]) ⟨⟨w0, by simp [hw0], hw0l⟩, ?_⟩ ⟨hbest.1.append_right _, ?_⟩
        · intro w hw
          rcases List.mem_append.mp hw with h' | h'
          · exact hle w h'
          · rw [List.mem_singleton.mp h']; omega
        · intro x hx
          simp only [List.mem_append, List.mem_singleton] at hx ⊢
          constructor
          · rintro (hb | rfl) w hw
            · have hxd := hbest.1.subset hb
              have hmin := (hbest.2 x hxd).mp hb
              rcases hw with hw | rfl
              · exact hmin w hw
              · have := hmin w0 hw0; omega
            · rcases hw with hw | rfl
              · have := hle w hw; omega
              · exact le_rfl
          · intro hmin
            rcases hx with hx | rfl
            · exact .inl ((hbest.2 x hx).mpr fun w hw => hmin w (.inl hw))
            · exact .inr rfl
      · split
        · rename_i hne hlt
          refine key (some (h v)) [v] ⟨⟨v, by simp, rfl⟩, ?_⟩ ⟨List.sublist_append_right _ _, ?_⟩
          · intro w hw
            rcases List.mem_append.mp hw with h' | h'
            · have := hle w h'; omega
            · rw [List.mem_singleton.mp h']
          · intro x hx
            simp only [List.mem_append, List.mem_singleton] at hx ⊢
            constructor
            · rintro rfl w (hw | rfl)
              · have := hle w hw; omega
              · exact le_rfl
            · intro hmin
              rcases hx with hx | rfl
              · have := hmin v (.inr rfl)
                have := hle x hx
                omega
              · rfl
        · rename_i hne hlt
          refine key (some l) best ⟨⟨w0, by simp [hw0], hw0l⟩, ?_⟩ ⟨hbest.1.trans (List.sublist_append_left _ _), ?_⟩
          · intro w hw
            rcases List.mem_append.mp hw with h' | h'
            · exact hle w h'
            · rw [List.mem_singleton.mp h']; omega
          · intro x hx
            simp only [List.mem_append, List.mem_singleton] at hx ⊢
            constructor
            · intro hb w hw
              have hxd := hbest.1.subset hb
              have hmin := (hbest.2 x hxd).mp hb
              rcases hw with hw | rfl
              · exact hmin w hw
              · have := hmin w0 hw0; omega
            · intro hmin
              rcases hx with hx | rfl
              · exact (hbest.2 x hx).mpr fun w hw => hmin w (.inl hw)
              · have := hmin w0 (.inl hw0); omega

/-- `get_least_depth_increase` returns exactly the nodes whose root would get the least height, in order. -/
theorem getLeastDepthIncrease_spec (F : IntTreeFactory α) (h : α → ℕ) {vs : List α}
    (hh : ∀ v ∈ vs, F.getNewHeight v = .ok (h v)) :
    ∃ best, F.getLeastDepthIncrease vs = .ok best ∧ best.Sublist vs ∧ ∀ v ∈ vs, v ∈ best ↔ ∀ w ∈ vs, h v ≤ h w := by
  unfold getLeastDepthIncrease
  split
  · rename_i hlen
    obtain ⟨v, rfl⟩ := List.length_eq_one_iff.mp hlen
    exact ⟨_, rfl, List.Sublist.refl _, by simp⟩
  · obtain ⟨best, h1, h2, h3⟩ := leastLoop_spec F h vs hh [] [] none rfl (by simp)
    exact ⟨best, h1, by simpa using h2, by simpa using h3⟩

theorem exists_argmin (h : α → ℕ) {vs : List α} (hne : vs ≠ []) : ∃ v ∈ vs, ∀ w ∈ vs, h v ≤ h w := by
  induction vs with
  | nil => exact absurd rfl hne
  | cons v vs ih =>
    by_cases hvs : vs = []
    · subst hvs; exact ⟨v, by simp, by simp⟩
    · obtain ⟨m, hm, hmin⟩ := ih hvs
      by_cases hle : h v ≤ h m
      · refine ⟨v, by simp, fun w hw => ?_⟩
        rcases List.mem_cons.mp hw with rfl | hw
        · exact le_rfl
        · exact hle.trans (hmin w hw)
      · refine ⟨m, by simp [hm], fun w hw => ?_⟩
        rcases List.mem_cons.mp hw with rfl | hw
        · omega
        · exact hmin w hw

end IntTreeFactory

namespace Bami
open IntTree IntTreeFactory PrimalGraph

section
variable {α L : Type} [DecidableEq α] [DecidableEq L]

/-- The loop of `bami` never fails and ends with a factory holding every vertex. -/
theorem loop_spec {tie : List α → List α} (htie : ∀ l, (tie l).Perm l) {R : α → α → Prop} (hR : ∀ x y, R x y → R y x)
    {V : List α} (n : ℕ) (G : PrimalGraph α) (F : IntTreeFactory α) (added : List α) (fs : List (α × Fill α))
    (hI : PrimalGraph.Inv G) (hfs : G.fills = some fs) (hn : fs.length ≤ n) (hF : FInv R F added)
    (hconn : ∀ v ∈ V, ∃ nb, F.connected.lookup v = some nb ∧ ∀ u, u ∈ nb ↔ R v u)
    (hkeys : ∀ v, v ∈ G.connected.map (·.1) ↔ v ∈ V ∧ v ∉ added) (hadd : ∀ v ∈ added, v ∈ V) :
    ∃ F' added', loop tie n G F = .ok F' ∧ FInv R F' added' ∧ ∀ v, v ∈ added' ↔ v ∈ V := by
  induction n generalizing G F added fs with
  | zero =>
    have : fs = [] := List.eq_nil_of_length_eq_zero (by omega)
    subst this
    refine ⟨F, added, by simp [loop, hfs], hF, fun v => ⟨hadd v, fun hv => ?_⟩⟩
    by_contra hva
    have := ((hI.fills _ hfs).2.1 v).mpr ((hkeys v).mpr ⟨hv, hva⟩)
    simp at this
  | succ n ih =>
    obtain ⟨i1, i2, _⟩ := hI.fills fs hfs
    match hfs0 : fs with
    | [] =>
      refine ⟨F, added, by simp [loop, hfs], hF, fun v => ⟨hadd v, fun hv => ?_⟩⟩
      by_contra hva
      have := (i2 v).mpr ((hkeys v).mpr ⟨hv, hva⟩)
      simp at this
    | f0 :: fs0 =>
      have hcne : G.connected ≠ [] := by
        intro h
        have := (i2 f0.1).mp (by simp)
        rw [h] at this; simp at this
      obtain ⟨vs, m, g1, g2, g3⟩ := getMinfills_spec hI (by rw [hfs]; rfl) hcne
      have hvsne : vs ≠ [] := by
        obtain ⟨fs', h1, ⟨w, f, h2, h3⟩, _⟩ := g2
        exact List.ne_nil_of_mem ((g3 fs' h1 w).mpr ⟨f, h2, h3⟩)
      have hvskey : ∀ v ∈ vs, v ∈ G.connected.map (·.1) := by
        intro v hv
        obtain ⟨f, h1, _⟩ := (g3 _ hfs v).mp hv
        exact (i2 v).mp ((lookup_isSome_iff _ v).mp ⟨f, h1⟩)
      have hvsn : vs.Nodup := by
        have hd : G.getMinfills = .ok (((f0 :: fs0).filter fun p => decide (p.2.1 = m)).map (·.1)) := by
          obtain ⟨fs', h1, h2⟩ := g2
          rw [hfs] at h1; cases h1
          simp only [getMinfills, hfs, (minimum_fills i1).mpr h2]
        rw [hd] at g1; cases g1
        exact i1.sublist ((List.filter_sublist).map _)
      have htmem : ∀ v, v ∈ tie vs ↔ v ∈ vs := fun v => (htie vs).mem_iff
      -- heights
      have hheight : ∀ v, ∃ h, v ∈ tie vs → F.getNewHeight v = .ok h := by
        intro v
        by_cases hv : v ∈ tie vs
        · obtain ⟨hvV, hva⟩ := (hkeys v).mp (hvskey v ((htmem v).mp hv))
          obtain ⟨nb, hl, hnb⟩ := hconn v hvV
          obtain ⟨_, new, _, _, _, _, _, h⟩ := addNode_spec hR hF hva hl hnb
          exact ⟨_, fun _ => h⟩
        · exact ⟨0, fun h => absurd h hv⟩
      choose h hh using hheight
      obtain ⟨best, b1, b2, b3⟩ := getLeastDepthIncrease_spec F h hh
      have hbne : best ≠ [] := by
        obtain ⟨v, hv, hmin⟩ := exists_argmin h (vs := tie vs) (fun e => hvsne (by
          have := (htie vs).length_eq; rw [e] at this; exact List.eq_nil_of_length_eq_zero this.symm))
        exact List.ne_nil_of_mem ((b3 v hv).mpr hmin)
      have hbkey : ∀ v ∈ best, v ∈ G.connected.map (·.1) := fun v hv => hvskey v ((htmem v).mp (b2.subset hv))
      have hbn : best.Nodup := ((htie vs).nodup_iff.mpr hvsn).sublist b2
      -- look ahead
      obtain ⟨v, rest, G', l1, l2, l3, l4⟩ : ∃ v rest G', G.getLowestFutureMinfill best = .ok (v :: rest, G') ∧
          v ∈ best ∧ Same G G' ∧ PrimalGraph.Inv G' := by
        by_cases hlen : best.length = 1
        · obtain ⟨v, rfl⟩ := List.length_eq_one_iff.mp hlen
          exact ⟨v, [], G, by simp [getLowestFutureMinfill], by simp,
            ⟨fun _ => rfl, ⟨_, _, hfs, hfs, fun _ => rfl⟩, rfl⟩, hI⟩
        · have h2 : 2 ≤ best.length := by
            have := List.length_pos_of_ne_nil hbne
            omega
          obtain ⟨μ, low, H, _, k1, k2, k3, k4⟩ := getLowestFutureMinfill_spec hI (by rw [hfs]; rfl) hbkey hbn h2
          obtain ⟨w, hw, hmin⟩ := exists_argmin μ hbne
          have hwl := (k4 w).mpr ⟨hw, hmin⟩
          cases low with
          | nil => simp at hwl
          | cons v rest => exact ⟨v, rest, H, k1, ((k4 v).mp (by simp)).1, k2, k3⟩
      obtain ⟨hvV, hva⟩ := (hkeys v).mp (hbkey v l2)
      obtain ⟨nb, hl, hnb⟩ := hconn v hvV
      obtain ⟨F', _, a1, a2, a3, _⟩ := addNode_spec hR hF hva hl hnb
      obtain ⟨_, gs, _, hgs, _⟩ := l3.fills
      obtain ⟨G'', fs', r1, r2, r3, _, r5, _⟩ := remove_spec l4 (by rw [hgs]; rfl) ((l3.conn.keys v).mp (hbkey v l2))
      have hkeys' : ∀ w, w ∈ G''.connected.map (·.1) ↔ w ∈ V ∧ w ∉ v :: added := by
        intro w
        rw [r5, ← l3.conn.keys, hkeys, List.mem_cons]
        tauto
      obtain ⟨j1, j2, _⟩ := r3.fills fs' r2
      have hlen : fs'.length < (f0 :: fs0).length := by
        have hnd : (v :: fs'.map (·.1)).Nodup := by
          refine List.nodup_cons.mpr ⟨fun hm => ?_, j1⟩
          have := (hkeys' v).mp ((j2 v).mp hm)
          exact this.2 (by simp)
        have hsub : v :: fs'.map (·.1) ⊆ (f0 :: fs0).map (·.1) := by
          intro w hw
          rw [i2, hkeys]
          rcases List.mem_cons.mp hw with rfl | hw
          · exact ⟨hvV, hva⟩
          · have := (hkeys' w).mp ((j2 w).mp hw)
            exact ⟨this.1, fun h => this.2 (by simp [h])⟩
        have := (List.subperm_of_subset hnd hsub).length_le
        simp only [List.length_cons, List.length_map] at this ⊢
        omega
      obtain ⟨F'', added', z1, z2, z3⟩ := ih G'' F' (v :: added) fs' r3 r2 (by simp only [List.length_cons] at hlen hn ⊢; omega)
        a3 (by rw [a2]; exact hconn) hkeys' (fun w hw => by
          rcases List.mem_cons.mp hw with rfl | hw
          · exact hvV
          · exact hadd w hw)
      refine ⟨F'', added', ?_, z2, z3⟩
      rw [loop]
      simp only [hfs, g1, b1, l1, a1, r1, z1]

/-- From the conversion tables on, `bami` fails no assertion and returns a vtree without empty nodes whose leaves are
exactly the literals, whatever the order of sets and ties, as soon as some literal mentions a variable. -/
theorem fromTables_correct {ord : List L → List L} (hord : ∀ l, (ord l).Perm l) {tie : List α → List α}
    (htie : ∀ l, (tie l).Perm l) {l2c : List (L × List α)} {ks : List α} (hn : (l2c.map (·.1)).Nodup)
    (hgroups : ∀ p ∈ l2c, p.2.Nodup ∧ ∀ v ∈ p.2, v ∈ ks) (hks : ∀ v ∈ ks, ∃ p ∈ l2c, v ∈ p.2) (hne : ks ≠ []) :
    ∃ T, fromTables ord tie l2c ks = .ok T ∧ T.Full ∧ T.leaves.Perm (l2c.map (·.1)) := by
  obtain ⟨G, h1, h2, h3, h4⟩ := interaction_spec ks (l2c.map (·.2)) true false (by
    intro g hg
    obtain ⟨p, hp, rfl⟩ := List.mem_map.mp hg
    exact hgroups p hp)
  have hf : G.fills = some [] := by
    obtain ⟨G', k1, k2, _⟩ := addAllEdges_spec (l2c.map (·.2)) (make_simple ks true false) (by
      intro g hg
      obtain ⟨p, hp, rfl⟩ := List.mem_map.mp hg
      exact ⟨(hgroups p hp).1, fun v hv => (make_vertices ks true false v).mpr ((hgroups p hp).2 v hv)⟩)
    have : interaction ks (l2c.map (·.2)) true false = .ok G' := k1
    rw [h1] at this; cases this
    rw [k2]; rfl
  obtain ⟨G', fs, c1, c2, c3, c4, _⟩ := computeAllFills_spec h3 hf
  obtain ⟨i1, i2, _⟩ := c4.fills fs c2
  have hR : ∀ x y, Adj G.connected x y → Adj G.connected y x := h3.symm
  have hlen : fs.length ≤ G.connected.length := by
    have := (List.subperm_of_subset i1 (fun v hv => (i2 v).mp hv)).length_le
    simpa [c3] using this
  obtain ⟨F, added, l1, l2, l3⟩ := loop_spec htie hR (V := ks) G.connected.length G' ⟨G.connected, []⟩ [] fs c4 c2 hlen
    ⟨by simp, by simp, by simp, by simp, by simp⟩
    (fun v hv => by
      obtain ⟨nb, hl⟩ := (lookup_isSome_iff _ v).mpr ((h2 v).mpr hv)
      exact ⟨nb, hl, fun u => by unfold Adj; rw [hl]; simp⟩)
    (fun v => by rw [c3, h2]; simp) (by simp)
  obtain ⟨t, t1, t2, t3⟩ := getIntTree_spec l2 (by
    obtain ⟨v, hv⟩ := List.exists_mem_of_ne_nil _ hne
    exact List.ne_nil_of_mem ((l3 v).mpr hv))
  have hconts : ∀ p ∈ l2c, conts l2c p.1 = p.2 := fun p hp => by
    unfold conts; rw [assoc_of_mem hn (k := p.1) (v := p.2) hp]; rfl
  obtain ⟨T, z1, z2, z3⟩ := createVtree_spec hR hord (l2c := l2c) t.size t (l2c.map (·.1)) le_rfl t2 (fun _ h => h)
    (by
      intro lit hl x hx y hy
      obtain ⟨p, hp, rfl⟩ := List.mem_map.mp hl
      rw [hconts p hp] at hx hy
      by_cases hxy : x = y
      · exact .inl hxy
      · exact .inr ((h4 x y).mpr ⟨hxy, p.2, List.mem_map_of_mem hp, hx, hy⟩))
    (by
      intro v hv
      obtain ⟨p, hp, hvp⟩ := hks v ((l3 v).mp ((t3 v).mp hv))
      exact ⟨p.1, List.mem_map_of_mem hp, by rw [hconts p hp]; exact hvp⟩)
  refine ⟨T, ?_, z2, z3⟩
  simp only [fromTables, h1, c1, l1, t1, z1]

/-- If no literal mentions a variable, `bami` dereferences None. -/
theorem fromTables_no_variables {ord : List L → List L} {tie : List α → List α} {l2c : List (L × List α)}
    (h : ∀ p ∈ l2c, p.2 = []) : fromTables ord tie l2c [] = .error .attributeError := by
  have hadd : ∀ gs : List (List α), (∀ g ∈ gs, g = []) → ∀ G : PrimalGraph α, addAllEdges gs G = .ok G := by
    intro gs
    induction gs with
    | nil => intro _ G; rfl
    | cons g gs ih =>
      intro hg G
      have : g = [] := hg g (List.mem_cons_self ..)
      subst this
      simp only [addAllEdges, addEdges, assocModifyAll]
      exact ih (fun g hg' => hg g (List.mem_cons_of_mem _ hg')) _
  have h1 : interaction ([] : List α) (l2c.map (·.2)) true false = .ok ⟨[], some [], none⟩ := by
    unfold interaction
    rw [hadd _ (by intro g hg; obtain ⟨p, hp, rfl⟩ := List.mem_map.mp hg; exact h p hp)]
    rfl
  simp only [fromTables, h1]
  rfl
end

/-! ## The conversion tables -/

theorem mem_addKeys (ks vs : List String) (x : String) : x ∈ addKeys ks vs ↔ x ∈ ks ∨ x ∈ vs := by
  simp only [addKeys, List.mem_append, List.mem_filter, decide_eq_true_eq]
  tauto

/-- The tables built so far: literals listed once, their variables listed once and known, and no others known. -/
structure Tables (l2c : List (String × List String)) (ks lits : List String) : Prop where
  keys : (l2c.map (·.1)).Nodup
  lits : ∀ l, l ∈ l2c.map (·.1) ↔ l ∈ lits
  groups : ∀ p ∈ l2c, p.2.Nodup ∧ ∀ v ∈ p.2, v ∈ ks
  known : ∀ v ∈ ks, ∃ p ∈ l2c, v ∈ p.2

theorem Tables.add {l2c : List (String × List String)} {ks lits : List String} (h : Tables l2c ks lits) {lit : String}
    (hl : lit ∉ lits) {vs : List String} (hvs : vs.Nodup) : Tables (assocSet l2c lit vs) (addKeys ks vs) (lits ++ [lit]) := by
  have hfresh : lit ∉ l2c.map (·.1) := fun hm => hl ((h.lits lit).mp hm)
  rw [assocSet_fresh hfresh]
  refine ⟨?_, ?_, ?_, ?_⟩
  · rw [← assocSet_fresh hfresh]; exact assocSet_nodup h.keys _ _
  · intro l; rw [List.map_append, List.mem_append, h.lits, List.mem_append]; rfl
  · intro p hp
    rcases List.mem_append.mp hp with hp | hp
    · exact ⟨(h.groups p hp).1, fun v hv => (mem_addKeys ..).mpr (.inl ((h.groups p hp).2 v hv))⟩
    · rw [List.mem_singleton.mp hp]
      exact ⟨hvs, fun v hv => (mem_addKeys ..).mpr (.inr hv)⟩
  · intro v hv
    rcases (mem_addKeys ..).mp hv with hv | hv
    · obtain ⟨p, hp, hvp⟩ := h.known v hv
      exact ⟨p, by simp [hp], hvp⟩
    · exact ⟨(lit, vs), by simp, hv⟩

theorem convertAtoms_spec (A : List (Formula × String)) {l2c : List (String × List String)} {ks lits : List String}
    (h : Tables l2c ks lits) (hlin : ∀ p ∈ A, ∃ d, linFromSmt p.1 = .ok d) (hn : (lits ++ A.map (·.2)).Nodup) :
    ∃ l2c' ks', convertAtoms A l2c ks = .ok (l2c', ks') ∧ Tables l2c' ks' (lits ++ A.map (·.2)) ∧
      (∀ v ∈ ks, v ∈ ks') ∧ (∀ p ∈ A, ∀ d, linFromSmt p.1 = .ok d → ∀ v ∈ linVars d, v ∈ ks') := by
  induction A generalizing l2c ks lits with
  | nil => exact ⟨l2c, ks, rfl, by simpa using h, fun _ h => h, by simp⟩
  | cons p A ih =>
    obtain ⟨f, lit⟩ := p
    obtain ⟨d, hd⟩ := hlin (f, lit) (by simp)
    simp only [List.map_cons] at hn
    have hl : lit ∉ lits := fun hm => (List.nodup_append.mp hn).2.2 lit hm lit (by simp) rfl
    obtain ⟨l2c', ks', h1, h2, h3, h4⟩ := ih (h.add hl (vs := (linVars d).dedup) (List.nodup_dedup _))
      (fun p hp => hlin p (List.mem_cons_of_mem _ hp)) (by simpa using hn)
    simp only at hd
    refine ⟨l2c', ks', by simp only [convertAtoms, hd, h1], by simpa using h2,
      fun v hv => h3 v ((mem_addKeys ..).mpr (.inl hv)), ?_⟩
    intro p hp d' hd' v hv
    rcases List.mem_cons.mp hp with rfl | hp
    · simp only [hd] at hd'
      cases hd'
      exact h3 v ((mem_addKeys ..).mpr (.inr (List.mem_dedup.mpr hv)))
    · exact h4 p hp d' hd' v hv

theorem convertBools_spec (labels : List (String × Formula × Formula)) (B : List (String × String))
    {l2c : List (String × List String)} {ks lits : List String} (h : Tables l2c ks lits)
    (hn : (lits ++ B.map (·.2)).Nodup) :
    Tables (convertBools labels B l2c ks).1 (convertBools labels B l2c ks).2 (lits ++ B.map (·.2)) ∧
      ∀ v ∈ ks, v ∈ (convertBools labels B l2c ks).2 := by
  induction B generalizing l2c ks lits with
  | nil => exact ⟨by simpa [convertBools] using h, fun _ h => h⟩
  | cons p B ih =>
    obtain ⟨name, lit⟩ := p
    simp only [List.map_cons] at hn
    have hl : lit ∉ lits := fun hm => (List.nodup_append.mp hn).2.2 lit hm lit (by simp) rfl
    simp only [convertBools]
    cases hlab : labels.lookup name with
    | some q =>
      obtain ⟨pos, neg⟩ := q
      simp only
      obtain ⟨h1, h2⟩ := ih (h.add hl (vs := (pos.syms.map (·.1) ++ neg.syms.map (·.1)).dedup) (List.nodup_dedup _))
        (by simpa using hn)
      exact ⟨by simpa using h1, fun v hv => h2 v ((mem_addKeys ..).mpr (.inl hv))⟩
    | none =>
      simp only
      have h0 := h.add hl (vs := []) (by simp)
      have : addKeys ks [] = ks := by simp [addKeys]
      rw [this] at h0
      obtain ⟨h1, h2⟩ := ih h0 (by simpa using hn)
      exact ⟨by simpa using h1, h2⟩

/-- The literals of a linked table are the literals of its Booleans and abstractions. -/
theorem linked_literals {info : LiteralInfo} (h : info.Linked) (l : String) :
    l ∈ info.literals.map (·.1) ↔ l ∈ info.abstractions.map (·.2) ++ info.booleans.map (·.2) := by
  obtain ⟨_, h1, h2⟩ := h
  simp only [List.mem_map, List.mem_append, Prod.exists, exists_and_right, exists_eq_right]
  constructor
  · rintro ⟨v, hv⟩
    cases v with
    | bool n => exact .inr ⟨n, (h1 l n).mp hv⟩
    | atom f => exact .inl ⟨f, (h2 l f).mp hv⟩
  · rintro (⟨f, hf⟩ | ⟨n, hn⟩)
    · exact ⟨_, (h2 l f).mpr hf⟩
    · exact ⟨_, (h1 l n).mpr hn⟩

/-- `bami` on a linked table of literals with linear inequalities, at least one of which mentions a variable (or without
inequalities at all): no assertion fails, and the leaves of the vtree are exactly the literals, each once, whatever the
order of sets and of ties. -/
theorem bami_correct_partial {ord tie : List String → List String} (hord : ∀ l, (ord l).Perm l) (htie : ∀ l, (tie l).Perm l)
    {info : LiteralInfo} (hlinked : info.Linked) (hlits : (info.abstractions.map (·.2) ++ info.booleans.map (·.2)).Nodup)
    (labels : List (String × Formula × Formula)) (hlin : ∀ p ∈ info.abstractions, ∃ d, linFromSmt p.1 = .ok d)
    (hvar : info.abstractions = [] ∨ ∃ p ∈ info.abstractions, ∃ d, linFromSmt p.1 = .ok d ∧ linVars d ≠ []) :
    ∃ T, bami ord tie info labels = .ok T ∧ T.leaves.Perm (info.literals.map (·.1)) ∧ (info.literals ≠ [] → T.Full) := by
  unfold bami
  by_cases hA : info.abstractions = []
  · rw [if_pos (by rw [hA]; rfl)]
    exact ⟨_, rfl, by rw [Vtree.createBalanced_leaves], fun h => Vtree.full_of_createBalanced (by simpa using h) _⟩
  · rw [if_neg (by simpa using hA)]
    obtain ⟨l2c, ks, h1, h2, _, h4⟩ := convertAtoms_spec info.abstractions (l2c := []) (ks := []) (lits := [])
      ⟨by simp, by simp, by simp, by simp⟩ hlin (by simpa using (List.nodup_append.mp hlits).1)
    obtain ⟨b1, b2⟩ := convertBools_spec labels info.booleans h2 (by simpa using hlits)
    simp only [List.nil_append] at b1
    have hne : (convertBools labels info.booleans l2c ks).2 ≠ [] := by
      obtain ⟨p, hp, d, hd, hv⟩ := hvar.resolve_left hA
      obtain ⟨v, hv⟩ := List.exists_mem_of_ne_nil _ hv
      exact List.ne_nil_of_mem (b2 v (h4 p hp d hd v hv))
    obtain ⟨T, z1, z2, z3⟩ := fromTables_correct hord htie b1.keys b1.groups b1.known hne
    refine ⟨T, by simp only [conversionTables, h1, z1], ?_, fun _ => z2⟩
    refine z3.trans ((List.perm_ext_iff_of_nodup b1.keys hlinked.1.1).mpr fun l => ?_)
    rw [b1.lits, linked_literals hlinked]

/-- The full claim fails: a problem whose only inequality is the constant one `0 ≤ 1` makes `bami` raise. -/
theorem bami_constant_raises (ord tie : List String → List String) :
    ∃ info : LiteralInfo, LiteralInfo.make [(.le (.realC 0) (.realC 1), "p")] [] = .ok info ∧ info.Linked ∧
      bami ord tie info [] = .error .attributeError := by
  obtain ⟨L, h1, h2, h3, h4⟩ := LiteralInfo.make_linked (A := [(.le (.realC 0) (.realC 1), "p")]) (B := []) (by simp)
    (by simp) (by simp)
  refine ⟨L, h1, h2, ?_⟩
  have hl : linFromSmt (.le (.realC 0) (.realC 1)) = .ok [([], -1)] := by decide +kernel
  unfold bami conversionTables
  rw [h3, h4, if_neg (by simp)]
  simp only [convertAtoms, hl, convertBools]
  exact fromTables_no_variables (by decide)

/-- A concrete table meeting the hypotheses: a Boolean and two inequalities over x and y. -/
theorem bami_sample : ∃ info : LiteralInfo,
    LiteralInfo.make [(.le (.sym "x" .real) (.realC 1), "p"), (.le (.sym "x" .real) (.sym "y" .real), "q")] [("a", "b_0")] = .ok info ∧
      info.Linked ∧ (info.abstractions.map (·.2) ++ info.booleans.map (·.2)).Nodup ∧
      (∀ p ∈ info.abstractions, ∃ d, linFromSmt p.1 = .ok d) ∧
      (∃ p ∈ info.abstractions, ∃ d, linFromSmt p.1 = .ok d ∧ linVars d ≠ []) := by
  obtain ⟨L, h1, h2, h3, h4⟩ := LiteralInfo.make_linked
    (A := [(.le (.sym "x" .real) (.realC 1), "p"), (.le (.sym "x" .real) (.sym "y" .real), "q")]) (B := [("a", "b_0")])
    (by simp) (by simp) (by simp)
  have hx : linFromSmt (.le (.sym "x" .real) (.realC 1)) = .ok [(["x"], 1), ([], -1)] := by decide +kernel
  have hy : linFromSmt (.le (.sym "x" .real) (.sym "y" .real)) = .ok [(["x"], 1), (["y"], -1)] := by decide +kernel
  refine ⟨L, h1, h2, by rw [h3, h4]; simp, ?_, ?_⟩
  · rw [h3]
    simp only [List.forall_mem_cons]
    exact ⟨⟨_, hx⟩, ⟨_, hy⟩, by simp⟩
  · rw [h3]
    exact ⟨_, List.mem_cons_self .., _, hx, by simp [linVars]⟩

end Bami
end Pywmi
