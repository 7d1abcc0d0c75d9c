import Verif.Xsdd.Groups
import Verif.Props.PieceInv
import Verif.Props.Literals

set_option linter.unusedSectionVars false
set_option linter.unusedSimpArgs false

/-!
# C48: variable groups factorise the weight
-/

namespace Pywmi

open PExpr

section
variable {K : Type} [Field K] [LinearOrder K] [IsStrictOrderedRing K]

theorem mem_of_lookupG {gs : List VarGroup} {k : List String} {p : Dict} (h : gs.lookup k = some p) : (k, p) ∈ gs := by
  obtain ⟨l1, l2, rfl, _⟩ := List.lookup_eq_some_iff.mp h
  simp

/-- The product of the values of the groups. -/
def groupsVal (ρ : String → K) (gs : List VarGroup) : K := (gs.map fun g => polyEval ρ g.2).prod

theorem groupsVal_set {gs : List VarGroup} {k : List String} {p q : Dict} (ρ : String → K) (hk : (gs.map (·.1)).Nodup)
    (h : gs.lookup k = some p) : groupsVal ρ (assocSet gs k (mulDict p q)) = groupsVal ρ gs * polyEval ρ q := by
  induction gs with
  | nil => cases h
  | cons g gs ih =>
    obtain ⟨k', p'⟩ := g
    simp only [List.map_cons, List.nodup_cons] at hk
    by_cases e : k' = k
    · subst e
      simp only [List.lookup_cons_self, Option.some.injEq] at h
      subst h
      simp only [assocSet, if_true, groupsVal, List.map_cons, List.prod_cons, mulDict_eval]
      ring
    · have hl : gs.lookup k = some p := by
        rw [List.lookup_cons] at h
        have : (k == k') = false := by simpa using Ne.symm e
        rw [this] at h
        exact h
      have := ih hk.2 hl
      simp only [groupsVal] at this
      simp only [assocSet, if_neg e, groupsVal, List.map_cons, List.prod_cons, this]
      ring

theorem groupMul_val {gs : List VarGroup} (hk : (gs.map (·.1)).Nodup) (k : List String) (q : Dict) (ρ : String → K) :
    groupsVal ρ (groupMul gs k q) = groupsVal ρ gs * polyEval ρ q := by
  unfold groupMul
  cases h : gs.lookup k with
  | some p => rw [Option.getD_some]; exact groupsVal_set ρ hk h
  | none =>
    have hn : k ∉ gs.map (·.1) := fun hm => by
      obtain ⟨g, hg, e⟩ := List.mem_map.mp hm
      have := List.lookup_eq_none_iff.mp h g hg
      simp [e] at this
    rw [assocSet_fresh hn, groupsVal, List.map_append, List.prod_append]
    simp only [List.map_cons, List.map_nil, List.prod_cons, List.prod_nil, mul_one, mulDict_eval, Option.getD_none]
    simp [groupsVal, polyEval, polyConst]

end

/-- SPEC: disjoint groups with polynomials over their own variables. -/
structure VarGroupsOk (gs : List VarGroup) : Prop where
  keys : (gs.map (·.1)).Nodup
  small : ∀ g ∈ gs, g.1.length ≤ 1
  own : ∀ g ∈ gs, ∀ m ∈ g.2, ∀ n ∈ m.1, n ∈ g.1

theorem groupMul_ok {gs : List VarGroup} (h : VarGroupsOk gs) {k : List String} {q : Dict} (hk : k.length ≤ 1)
    (hq : q ≠ [] ∧ ∀ m ∈ q, ∀ n ∈ m.1, n ∈ k) : VarGroupsOk (groupMul gs k q) ∧
      ∀ l, l ∈ (groupMul gs k q).map (·.1) ↔ l = k ∨ l ∈ gs.map (·.1) := by
  refine ⟨⟨assocSet_nodup h.keys _ _, fun g hg => ?_, fun g hg => ?_⟩, fun l => ?_⟩
  · rcases (mem_assocSet h.keys _ _ _).mp hg with rfl | ⟨hg, _⟩
    · exact hk
    · exact h.small g hg
  · rcases (mem_assocSet h.keys _ _ _).mp hg with rfl | ⟨hg, _⟩
    · simp only
      have hp : ∀ m ∈ (gs.lookup k).getD (polyConst 1), ∀ n ∈ m.1, n ∈ k := by
        cases hl : gs.lookup k with
        | none => simp [polyConst]
        | some p => exact h.own (k, p) (mem_of_lookupG hl)
      obtain ⟨d, h1, _⟩ := polyMul_eval (K := ℚ) ((gs.lookup k).getD (polyConst 1)) q
      simp only [mulDict, h1]
      exact dictTimes_keys (P := fun m => ∀ n ∈ m, n ∈ k) (P1 := fun m => ∀ n ∈ m, n ∈ k) (P2 := fun m => ∀ n ∈ m, n ∈ k)
        (fun k1 k2 a b _ n hn => by
          have := (List.perm_insertionSort _ _).mem_iff.mp hn
          rcases List.mem_append.mp this with h | h
          · exact a n h
          · exact b n h) hp hq.2 h1
    · exact h.own g hg
  · show l ∈ (assocSet _ _ _).map (·.1) ↔ _
    rw [assocSet_keys]
    split
    · rename_i hm
      exact ⟨.inr, fun h => h.elim (fun e => e ▸ hm) id⟩
    · simp [or_comm]

theorem monoFold_ok (k : Mono) : ∀ gs, VarGroupsOk gs →
    VarGroupsOk (k.foldl (fun d v => groupMul d [v] [([v], 1)]) gs) ∧
      (∀ l, l ∈ (k.foldl (fun d v => groupMul d [v] [([v], 1)]) gs).map (·.1) ↔ (∃ v ∈ k, l = [v]) ∨ l ∈ gs.map (·.1)) := by
  induction k with
  | nil => intro gs h; exact ⟨h, by simp⟩
  | cons v k ih =>
    intro gs h
    obtain ⟨h1, h2⟩ := groupMul_ok h (k := [v]) (q := [([v], 1)]) (by simp) ⟨by simp, by simp⟩
    obtain ⟨h3, h4⟩ := ih _ h1
    refine ⟨h3, fun l => ?_⟩
    rw [List.foldl_cons, h4, h2]
    simp only [List.mem_cons, exists_eq_or_imp, ← or_assoc]
    rw [or_comm (a := ∃ v ∈ k, l = [v])]

section
variable {K : Type} [Field K] [LinearOrder K] [IsStrictOrderedRing K]

theorem monoFold_val (k : Mono) (ρ : String → K) : ∀ gs, VarGroupsOk gs →
    groupsVal ρ (k.foldl (fun d v => groupMul d [v] [([v], 1)]) gs) = groupsVal ρ gs * monoEval ρ k := by
  induction k with
  | nil => intro gs _; simp
  | cons v k ih =>
    intro gs h
    have h1 := (groupMul_ok h (k := [v]) (q := [([v], 1)]) (by simp) ⟨by simp, by simp⟩).1
    rw [List.foldl_cons, ih _ h1, groupMul_val h.keys]
    simp [polyEval, monoEval]
    ring

/-- **C48**: the groups have pairwise disjoint sets of variables and polynomials over their own variables; together they contain
exactly the given real variables and the variables of the weight; the product of their polynomials is the weight at every
point; at most one group is constant; and for a weight with at most one term every group has at most one variable. -/
theorem varGroups_correct {d : Dict} {reals : List String} (hr : reals.Nodup) :
    (varGroups d reals).Pairwise (fun g h => ∀ v ∈ g.1, v ∉ h.1) ∧
    (∀ g ∈ varGroups d reals, ∀ m ∈ g.2, ∀ n ∈ m.1, n ∈ g.1) ∧
    (∀ v, (∃ g ∈ varGroups d reals, v ∈ g.1) ↔ v ∈ reals ∨ ∃ m ∈ d, v ∈ m.1) ∧
    (∀ ρ : String → K, ((varGroups d reals).map fun g => polyEval ρ g.2).prod = polyEval ρ d) ∧
    ((varGroups d reals).filter fun g => g.1 = []).length ≤ 1 ∧
    (d.length ≤ 1 → ∀ g ∈ varGroups d reals, g.1.length ≤ 1) := by
  have hpv : ∀ v, v ∈ polyVars d ↔ ∃ m ∈ d, v ∈ m.1 := fun v => by simp [polyVars]
  -- the groups of the weight itself
  have own : (ownGroups d).Pairwise (fun g h => ∀ v ∈ g.1, v ∉ h.1) ∧
      (∀ g ∈ ownGroups d, ∀ m ∈ g.2, ∀ n ∈ m.1, n ∈ g.1) ∧
      (∀ v, (∃ g ∈ ownGroups d, v ∈ g.1) ↔ ∃ m ∈ d, v ∈ m.1) ∧
      (∀ ρ : String → K, ((ownGroups d).map fun g => polyEval ρ g.2).prod = polyEval ρ d) ∧
      ((ownGroups d).filter fun g => g.1 = []).length ≤ 1 ∧
      (d.length ≤ 1 → ∀ g ∈ ownGroups d, g.1.length ≤ 1) := by
    unfold ownGroups
    split
    · simp [polyConst, polyEval]
    · rename_i p
      have e0 : VarGroupsOk [] := ⟨by simp, by simp, by simp⟩
      obtain ⟨f1, f2⟩ := monoFold_ok p.1 [] e0
      obtain ⟨g1, g2⟩ := groupMul_ok f1 (k := []) (q := polyConst p.2) (by simp) ⟨by simp [polyConst], by simp [polyConst]⟩
      have hval : ∀ ρ : String → K, groupsVal ρ (monoGroups p) = polyEval ρ [p] := fun ρ => by
        rw [monoGroups, groupMul_val f1.keys, monoFold_val p.1 ρ [] e0]
        simp [groupsVal, polyEval, polyConst, mul_comm]
      refine ⟨?_, g1.own, fun v => ?_, hval, ?_, fun _ => g1.small⟩
      · have hk := g1.keys
        unfold List.Nodup at hk
        rw [List.pairwise_map] at hk
        refine hk.imp_of_mem fun {a b} ha hb hne v hva hvb => hne ?_
        have h1 := g1.small a ha
        have h2 := g1.small b hb
        have len1 : ∀ l : List String, l.length ≤ 1 → v ∈ l → l = [v] := by
          intro l hl hv
          match l, hl with
          | [w], _ => rw [List.mem_singleton] at hv; rw [hv]
        rw [len1 _ h1 hva, len1 _ h2 hvb]
      · constructor
        · rintro ⟨g, hg, hv⟩
          have := (g2 g.1).mp (List.mem_map_of_mem hg)
          rcases this with h | h
          · rw [h] at hv; cases hv
          · rcases (f2 _).mp h with ⟨w, hw, e⟩ | h
            · rw [e, List.mem_singleton] at hv
              exact ⟨p, by simp, hv ▸ hw⟩
            · cases h
        · rintro ⟨m, hm, hv⟩
          rw [List.mem_singleton] at hm
          subst hm
          obtain ⟨g, hg, e⟩ := List.mem_map.mp ((g2 [v]).mpr (.inr ((f2 [v]).mpr (.inl ⟨v, hv, rfl⟩))))
          exact ⟨g, hg, by rw [e]; simp⟩
      · have hk := g1.keys
        have : (((monoGroups p).filter fun g => g.1 = []).map (·.1)).Nodup :=
          hk.sublist (List.Sublist.map _ List.filter_sublist)
        have hall : ∀ x ∈ ((monoGroups p).filter fun g => g.1 = []).map (·.1), x = [] := by
          intro x hx
          obtain ⟨g, hg, rfl⟩ := List.mem_map.mp hx
          simpa using (List.mem_filter.mp hg).2
        by_contra hlt
        have hlen : 2 ≤ (((monoGroups p).filter fun g => g.1 = []).map (·.1)).length := by
          rw [List.length_map]; omega
        revert this hall hlen
        generalize ((monoGroups p).filter fun g => g.1 = []).map (·.1) = L
        intro this hall hlen
        match L, hlen with
        | a :: b :: t, _ =>
          have e1 := hall a (by simp)
          have e2 := hall b (by simp)
          subst e1
          simp [e2] at this
    · rename_i hne1 hne2
      refine ⟨by simp, ?_, fun v => by simp [hpv], by simp, ?_, fun h => ?_⟩
      · intro g hg m hm n hn
        rw [List.mem_singleton] at hg
        subst hg
        exact (hpv n).mpr ⟨m, hm, hn⟩
      · exact (List.length_filter_le _ _).trans (by simp)
      · exfalso
        match d, h with
        | [], _ => exact hne1 rfl
        | [p], _ => exact hne2 p rfl
  obtain ⟨o1, o2, o3, o4, o5, o6⟩ := own
  unfold varGroups
  refine ⟨?_, ?_, fun v => ?_, fun ρ => ?_, ?_, fun hd g hg => ?_⟩
  · rw [List.pairwise_append]
    refine ⟨?_, o1, ?_⟩
    · rw [List.pairwise_map]
      refine (hr.filter _).imp fun {a b} hab v hva hvb => hab ?_
      rw [List.mem_singleton] at hva hvb
      rw [← hva, hvb]
    · intro a ha b hb v hva hvb
      obtain ⟨w, hw, rfl⟩ := List.mem_map.mp ha
      rw [List.mem_singleton] at hva
      subst hva
      have := (List.mem_filter.mp hw).2
      simp only [decide_eq_true_eq] at this
      exact this ((hpv _).mpr ((o3 _).mp ⟨b, hb, hvb⟩))
  · intro g hg
    rcases List.mem_append.mp hg with hg | hg
    · obtain ⟨w, hw, rfl⟩ := List.mem_map.mp hg
      simp [polyConst]
    · exact o2 g hg
  · constructor
    · rintro ⟨g, hg, hv⟩
      rcases List.mem_append.mp hg with hg | hg
      · obtain ⟨w, hw, rfl⟩ := List.mem_map.mp hg
        rw [List.mem_singleton] at hv
        exact .inl (hv ▸ (List.mem_filter.mp hw).1)
      · exact .inr ((o3 v).mp ⟨g, hg, hv⟩)
    · intro h
      by_cases hm : v ∈ polyVars d
      · obtain ⟨g, hg, hv⟩ := (o3 v).mpr ((hpv v).mp hm)
        exact ⟨g, List.mem_append_right _ hg, hv⟩
      · have hv : v ∈ reals := h.resolve_right fun h => hm ((hpv v).mpr h)
        exact ⟨([v], polyConst 1), List.mem_append_left _ (List.mem_map.mpr ⟨v, List.mem_filter.mpr ⟨hv, by simpa using hm⟩, rfl⟩),
          by simp⟩
  · rw [List.map_append, List.prod_append, o4, List.map_map]
    have : ∀ l : List String, (l.map ((fun g : VarGroup => polyEval ρ g.2) ∘ fun v => ([v], polyConst 1))).prod = 1 := by
      intro l
      induction l with
      | nil => rfl
      | cons a l ih => rw [List.map_cons, List.prod_cons, ih]; simp [polyEval, polyConst]
    rw [this, one_mul]
  · rw [List.filter_append, List.length_append]
    have : ((List.map (fun v => (([v], polyConst 1) : VarGroup)) (reals.filter fun v => v ∉ polyVars d)).filter
        fun g => g.1 = []) = [] := by
      rw [List.filter_eq_nil_iff]
      intro g hg
      obtain ⟨w, _, rfl⟩ := List.mem_map.mp hg
      simp
    rw [this]
    simpa using o5
  · rcases List.mem_append.mp hg with hg | hg
    · obtain ⟨w, hw, rfl⟩ := List.mem_map.mp hg
      simp
    · exact o6 hd g hg

/-- The terms of a polynomial have one monomial each and add up to it. -/
theorem getTerms_correct (d : Dict) : (∀ t ∈ getTerms d, t.length = 1) ∧
    ∀ ρ : String → K, ((getTerms d).map fun t => polyEval ρ t).sum = polyEval ρ d := by
  refine ⟨fun t ht => ?_, fun ρ => ?_⟩
  · obtain ⟨p, _, rfl⟩ := List.mem_map.mp ht
    rfl
  · rw [getTerms, List.map_map, polyEval]
    congr 1
    exact List.map_congr_left fun p _ => by simp [polyEval]

end

/-- The groups of `3 x² y` over the variables x, y, z. -/
example : (varGroups [(["x", "x", "y"], 3)] ["x", "y", "z"]).map (·.1) = [["z"], ["x"], ["y"], []] := by decide +kernel

end Pywmi
