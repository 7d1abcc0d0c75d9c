import Verif.Props.Factor
import Verif.Props.Groups
import Verif.Props.Xsdd
import Verif.Props.Primal

set_option linter.unusedSectionVars false
set_option linter.unusedSimpArgs false

/-!
# The tables of the factorised engine
-/

namespace Pywmi
open Formula Prog Sdd

/-! ### Conjuncts -/

/-- SPEC: a formula that every way to satisfy the other formula satisfies, because it is one of its conjuncts. -/
inductive Conjunct (a : Formula) : Formula → Prop where
  | here : Conjunct a a
  | inside (as : List Formula) (x : Formula) : x ∈ as → Conjunct a x → Conjunct a (.and as)

theorem Conjunct.truth {K : Type} [Field K] [LinearOrder K] {a f : Formula} (h : Conjunct a f) (σ : Env K) (hf : truth σ f = true) :
    truth σ a = true := by
  induction h with
  | here => exact hf
  | inside as x hx _ ih =>
    simp only [Formula.truth, truthAll_eq, List.all_eq_true] at hf
    exact ih (hf x hx)

theorem extractList_le {as : List Formula} : ∀ {T T' : LitTables} {gs : List Formula}, extractList as T = .ok (gs, T') → T.Le T' := by
  induction as with
  | nil =>
    intro T T' gs h
    simp only [extractList, Except.ok.injEq, Prod.mk.injEq] at h
    rw [← h.2]; exact .refl _
  | cons a as ih =>
    intro T T' gs h
    simp only [extractList] at h
    cases h1 : extractRec a T with
    | error e => rw [h1] at h; cases h
    | ok p =>
      obtain ⟨r, T1⟩ := p
      rw [h1] at h
      simp only at h
      cases h2 : extractList as T1 with
      | error e => rw [h2] at h; cases h
      | ok q =>
        obtain ⟨rs, T2⟩ := q
        rw [h2] at h
        cases h
        exact (extract_again a _ _ _ h1).1.trans (ih h2)

theorem extractList_mem {as : List Formula} : ∀ {T T' : LitTables} {gs : List Formula}, extractList as T = .ok (gs, T') →
    ∀ x ∈ as, ∃ g ∈ gs, ∃ U U' : LitTables, extractRec x U = .ok (g, U') ∧ U'.Le T' := by
  induction as with
  | nil => intro _ _ _ _ x hx; cases hx
  | cons a as ih =>
    intro T T' gs h x hx
    simp only [extractList] at h
    cases h1 : extractRec a T with
    | error e => rw [h1] at h; cases h
    | ok p =>
      obtain ⟨r, T1⟩ := p
      rw [h1] at h
      simp only at h
      cases h2 : extractList as T1 with
      | error e => rw [h2] at h; cases h
      | ok q =>
        obtain ⟨rs, T2⟩ := q
        rw [h2] at h
        cases h
        rcases List.mem_cons.mp hx with rfl | hx
        · exact ⟨r, by simp, T, T1, h1, extractList_le h2⟩
        · obtain ⟨g, hg, U, U', hU, hU'⟩ := ih h2 x hx
          exact ⟨g, by simp [hg], U, U', hU, hU'⟩

/-- The literal of a comparison that is a conjunct is implied by the abstracted formula. -/
theorem extract_conjunct {K : Type} [Field K] [LinearOrder K] {a l r : Formula} (ha : a = .le l r ∨ a = .lt l r) {f : Formula}
    (h : Conjunct a f) : ∀ {T T' : LitTables} {g : Formula}, extractRec f T = .ok (g, T') →
    ∃ c lit, normalizeAtom a = .ok c ∧ T'.abstractions.lookup c = some lit ∧ ∀ τ : Env K, truth τ g = true → τ.b lit = true := by
  induction h with
  | here =>
    intro T T' g h
    have h' : extractTest T a [l, r] = .ok (g, T') := by
      rcases ha with rfl | rfl <;> simpa only [extractRec] using h
    unfold extractTest at h'
    split at h'
    · cases hc : normalizeAtom a with
      | error e => rw [hc] at h'; cases h'
      | ok c =>
        rw [hc] at h'
        simp only at h'
        cases hl : T.abstractions.lookup c with
        | some x =>
          rw [hl] at h'
          cases h'
          exact ⟨c, x, rfl, hl, fun τ h => by simpa [Formula.truth] using h⟩
        | none =>
          rw [hl] at h'
          cases h'
          exact ⟨c, _, rfl, lookup_snoc _ hl, fun τ h => by simpa [Formula.truth] using h⟩
    · cases h'
  | inside as x hx _ ih =>
    intro T T' g h
    simp only [extractRec] at h
    cases hl : extractList as T with
    | error e => rw [hl] at h; cases h
    | ok p =>
      obtain ⟨gs, T1⟩ := p
      rw [hl] at h
      cases h
      obtain ⟨y, hy, U, U', hU, hle⟩ := extractList_mem hl x hx
      obtain ⟨c, lit, h1, h2, h3⟩ := ih hU
      refine ⟨c, lit, h1, lookup_prefix hle.1 h2, fun τ ht => h3 τ ?_⟩
      rw [truth_mkAnd, List.all_eq_true] at ht
      exact ht y hy

/-- The number of a comparison that is a conjunct is implied by the diagram. -/
theorem conjunct_number {a l r : Formula} (ha : a = .le l r ∨ a = .lt l r) {f g : Formula} (h : Conjunct a f) {L : LiteralInfo}
    (hwt : wt .bool f = true) (he : extractLiterals f = .ok (g, L)) {s : Sdd}
    (hs : ∀ β, s.eval β = truth (nameEnv (K := ℝ) L.numbered β) g) :
    ∃ c n, normalizeAtom a = .ok c ∧ L.at? n = some (.atom c) ∧ ∀ β, s.eval β = true → β n = true := by
  obtain ⟨hL, _⟩ := extractLiterals_correct (K := ℝ) hwt he
  unfold extractLiterals at he
  cases hr : extractRec f ⟨[], []⟩ with
  | error e => rw [hr] at he; cases he
  | ok p =>
    obtain ⟨g', T⟩ := p
    rw [hr] at he
    simp only at he
    cases hm : LiteralInfo.make T.abstractions T.booleans with
    | error e => rw [hm] at he; cases he
    | ok L' =>
      rw [hm] at he
      cases he
      obtain ⟨c, lit, h1, h2, h3⟩ := extract_conjunct (K := ℝ) ha h hr
      have hA : L.abstractions = T.abstractions := by
        unfold LiteralInfo.make at hm
        split at hm
        · cases hm
        · cases hm; rfl
      have hlit : (lit, LitVal.atom c) ∈ L.literals := (hL.2.2 lit c).mpr (by rw [hA]; exact mem_of_dictGet h2)
      obtain ⟨i, hi, hp⟩ := List.mem_iff_getElem.mp hlit
      refine ⟨c, i + 1, h1, ?_, fun β hβ => ?_⟩
      · simp [LiteralInfo.at?, List.getElem?_eq_getElem hi, hp]
      · rw [hs] at hβ
        have := h3 _ hβ
        have hn : L.numbered.lookup lit = some (i + 1) :=
          (LiteralInfo.lookup_mapIdx_key hL.1.1 _ 1 (i + 1)).mpr ⟨by simpa using hi, by omega, by simp [hp]⟩
        simpa [nameEnv, hn] using this

/-! ### Groups of literals -/

/-- The position of the group of a variable. -/
def groupOf (groups : List VarGroup) (v : String) : ℕ := groups.findIdx fun g => v ∈ g.1

theorem groupOf_spec {groups : List VarGroup} {v : String} (h : ∃ g ∈ groups, v ∈ g.1) :
    getGroup groups v = .ok (groupOf groups v) ∧ ∃ hl : groupOf groups v < groups.length, v ∈ (groups[groupOf groups v]).1 := by
  have hl : groups.findIdx (fun g => decide (v ∈ g.1)) < groups.length :=
    List.findIdx_lt_length_of_exists (by simpa using h)
  refine ⟨by simp only [getGroup, if_pos hl, groupOf], hl, ?_⟩
  have := List.findIdx_getElem (w := hl)
  rw [decide_eq_true_eq] at this
  exact this

theorem groupOf_eq {groups : List VarGroup} (hd : groups.Pairwise fun g h => ∀ v ∈ g.1, v ∉ h.1) {i : ℕ} (hi : i < groups.length)
    {v : String} (hv : v ∈ (groups[i]).1) : groupOf groups v = i := by
  obtain ⟨_, hl, hm⟩ := groupOf_spec ⟨_, List.getElem_mem hi, hv⟩
  rcases lt_trichotomy (groupOf groups v) i with h | h | h
  · exact absurd hv (List.pairwise_iff_getElem.mp hd _ _ hl hi h v hm)
  · exact h
  · exact absurd hm (List.pairwise_iff_getElem.mp hd _ _ hi hl h v hv)

theorem atomGroups_fold {L : LiteralInfo} {groups : List VarGroup} (num : Formula × String → ℕ) (q : Formula × String → Dict)
    {ps : List (Formula × String)} : (∀ p ∈ ps, numberOf L p.2 = .ok (num p) ∧ linFromSmt p.1 = .ok (q p) ∧
      ∀ v ∈ linVars (q p), ∃ g ∈ groups, v ∈ g.1) → (ps.map num).Nodup → ∀ d0 : List (ℤ × List ℕ),
    ∃ d, foldE (atomGroups L groups) d0 ps = .ok d ∧
      (∀ p ∈ ps, ∀ k : ℤ, k.natAbs = num p → d.lookup k = some ((linVars (q p)).map (groupOf groups))) ∧
      ∀ k : ℤ, (∀ p ∈ ps, k.natAbs ≠ num p) → d.lookup k = d0.lookup k := by
  induction ps with
  | nil => intro _ _ d0; exact ⟨d0, rfl, by simp, fun _ _ => rfl⟩
  | cons p ps ih =>
    intro h hn d0
    obtain ⟨h1, h2, h3⟩ := h p (by simp)
    rw [List.map_cons, List.nodup_cons] at hn
    have hm : mapE (getGroup groups) (linVars (q p)) = .ok ((linVars (q p)).map (groupOf groups)) :=
      Prog.mapE_ok fun v hv => (groupOf_spec (h3 v hv)).1
    obtain ⟨d, i1, i2, i3⟩ := ih (fun x hx => h x (by simp [hx])) hn.2
      (assocSet (assocSet d0 (num p) ((linVars (q p)).map (groupOf groups))) (-(num p : ℤ)) ((linVars (q p)).map (groupOf groups)))
    refine ⟨d, ?_, ?_, ?_⟩
    · simp only [foldE, atomGroups, h1, h2, hm]
      exact i1
    · intro x hx k hk
      rcases List.mem_cons.mp hx with rfl | hx
      · rw [i3 k fun y hy e => hn.1 (List.mem_map.mpr ⟨y, hy, by rw [← e, hk]⟩), lookup_assocSet, lookup_assocSet]
        split
        · rfl
        · split
          · rfl
          · omega
      · exact i2 x hx k hk
    · intro k hk
      have := hk p (by simp)
      rw [i3 k fun y hy => hk y (by simp [hy]), lookup_assocSet, lookup_assocSet, if_neg (by omega), if_neg (by omega)]

theorem literalGroups_spec {L : LiteralInfo} (hL : L.Linked) (hlin : L.Linear) {groups : List VarGroup}
    (hv : ∀ p ∈ L.abstractions, ∀ q, linFromSmt p.1 = .ok q → ∀ v ∈ linVars q, ∃ g ∈ groups, v ∈ g.1) :
    ∃ d, literalGroups L [] groups = .ok d ∧
      (∀ (k : ℤ) c q, L.at? k.natAbs = some (.atom c) → linFromSmt c = .ok q →
        d.lookup k = some ((linVars q).map (groupOf groups))) ∧
      ∀ k : ℤ, (∀ c, L.at? k.natAbs ≠ some (.atom c)) → d.lookup k = none := by
  have hpos : ∀ p ∈ L.abstractions, ∃ i, ∃ hi : i < L.literals.length, L.literals[i] = (p.2, LitVal.atom p.1) := fun p hp =>
    List.mem_iff_getElem.mp ((hL.2.2 p.2 p.1).mpr hp)
  have hnum : ∀ {i} (hi : i < L.literals.length), L.numbered.lookup (L.literals[i]).1 = some (i + 1) := fun {i} hi =>
    (LiteralInfo.lookup_mapIdx_key hL.1.1 _ 1 (i + 1)).mpr ⟨by simpa using hi, by omega, by simp⟩
  set num : Formula × String → ℕ := fun p => (L.numbered.lookup p.2).getD 0 with hdef
  set q : Formula × String → Dict := fun p => match linFromSmt p.1 with | .ok d => d | .error _ => [] with hq
  have hqe : ∀ p ∈ L.abstractions, linFromSmt p.1 = .ok (q p) := fun p hp => by
    obtain ⟨l, r, h1, h2, h3⟩ := hlin p hp
    obtain ⟨d, hd, _⟩ := linFromSmt_linear (K := ℝ) h2 h3 h1
    simp only [hq, hd]
  have hne : ∀ p ∈ L.abstractions, ∀ i (hi : i < L.literals.length), L.literals[i] = (p.2, LitVal.atom p.1) → num p = i + 1 :=
    fun p hp i hi e => by
      have := hnum hi
      rw [e] at this
      simp only at this
      simp only [hdef, this, Option.getD_some]
  obtain ⟨d, h1, h2, h3⟩ := atomGroups_fold (L := L) (groups := groups) num q (ps := L.abstractions) (fun p hp => by
      obtain ⟨i, hi, e⟩ := hpos p hp
      have := hnum hi
      rw [e] at this
      simp only at this
      exact ⟨by simp only [numberOf, this, hdef, Option.getD_some], hqe p hp, hv p hp _ (hqe p hp)⟩) (by
      refine List.Nodup.map_on (fun p hp p' hp' e => ?_) (List.Nodup.of_map _ hL.1.2.1)
      obtain ⟨i, hi, e1⟩ := hpos p hp
      obtain ⟨j, hj, e2⟩ := hpos p' hp'
      rw [hne p hp i hi e1, hne p' hp' j hj e2] at e
      obtain rfl : i = j := by omega
      rw [e1] at e2
      simp only [Prod.mk.injEq, LitVal.atom.injEq] at e2
      exact Prod.ext e2.2 e2.1) []
  refine ⟨d, by simp only [literalGroups, h1, foldE], fun k c qc hk hc => ?_, fun k hk => ?_⟩
  · obtain ⟨i, hi, e1, e2⟩ := LiteralInfo.at?_mem hk
    have hmem : (c, (L.literals[i]).1) ∈ L.abstractions := (hL.2.2 _ _).mp (by rw [← e2]; exact List.getElem_mem hi)
    have := h2 _ hmem k (by rw [e1, hne _ hmem i hi (by rw [← e2])])
    rw [this]
    have := hqe _ hmem
    simp only [hc, Except.ok.injEq] at this
    rw [this]
  · rw [h3 k fun p hp e => ?_]
    · rfl
    · obtain ⟨i, hi, e1⟩ := hpos p hp
      rw [hne p hp i hi e1] at e
      exact hk p.1 (by rw [e]; simp [LiteralInfo.at?, List.getElem?_eq_getElem hi, e1])

/-! ### The order and the constant factor -/

theorem groupOrder_spec {reals : List String} {groups : List VarGroup} (h : ∀ g ∈ groups, ∀ v ∈ g.1, v ∈ reals) :
    ∃ os, groupOrder reals groups = .ok os ∧ os.Nodup ∧ ∀ i, i < groups.length → i ∈ os := by
  have hm : mapE (groupKey reals) groups = .ok (groups.map fun g => g.1.foldl (fun m v => max m (reals.idxOf v : ℤ)) (-1)) :=
    Prog.mapE_ok fun g hg => if_pos (List.all_eq_true.mpr fun v hv => by simpa using h g hg v hv)
  refine ⟨_, by simp only [groupOrder, hm]; rfl, ?_⟩
  set ks := groups.map fun g => g.1.foldl (fun m v => max m (reals.idxOf v : ℤ)) (-1)
  have hp := ((List.mergeSort_perm (ks.mapIdx fun i k => (k, i)) fun a b => decide (a.1 ≤ b.1)).map (·.2))
  have hr : (ks.mapIdx fun i k => (k, i)).map (·.2) = List.range groups.length := by
    apply List.ext_getElem
    · simp [ks]
    · intro i h1 h2; simp
  rw [hr] at hp
  exact ⟨hp.nodup_iff.mpr List.nodup_range, fun i hi => hp.mem_iff.mpr (List.mem_range.mpr hi)⟩

theorem constantGroup_spec {E : Type} {A : Algebra E} {eval : E → (String → ℝ) → ℝ} (hA : A.Sound eval) {groups : List VarGroup}
    (h1 : (groups.filter fun g => g.1 = []).length ≤ 1) :
    ∃ c, constantGroup A groups = .ok c ∧ ∀ ρ, eval c ρ = ((groups.filter fun g => g.1 = []).map fun g => polyEval ρ g.2).prod := by
  unfold constantGroup
  split
  · rename_i e
    exact ⟨_, rfl, fun ρ => by rw [e]; simp [Algebra.one, hA.real]⟩
  · rename_i g e
    exact ⟨_, rfl, fun ρ => by rw [e]; simp [polyToExpr_eval hA]⟩
  · rename_i n1 n2
    exfalso
    generalize groups.filter (fun g => decide (g.1 = [])) = gs at h1 n1 n2
    match gs, h1 with
    | [], _ => exact n1 rfl
    | [g], _ => exact n2 g rfl

/-- The groups with variables. -/
def realGroups (groups : List VarGroup) : Finset ℕ :=
  (Finset.range groups.length).filter fun i => ((groups[i]?).map (·.1)).getD [] ≠ []

def groupVars (groups : List VarGroup) (i : ℕ) : Finset String := (((groups[i]?).map (·.1)).getD []).toFinset

def groupPoly (groups : List VarGroup) (i : ℕ) : Dict := ((groups[i]?).map (·.2)).getD []

theorem prod_groups (groups : List VarGroup) (F : VarGroup → ℝ) :
    ((groups.filter fun g => g.1 = []).map F).prod * ∏ i ∈ realGroups groups, F ((groups[i]?).getD ([], [])) = (groups.map F).prod := by
  have e : ∀ gs : List VarGroup, ((gs.filter fun g => g.1 = []).map F).prod * ((gs.filter fun g => g.1 ≠ []).map F).prod = (gs.map F).prod := by
    intro gs
    induction gs with
    | nil => simp
    | cons g gs ih =>
      by_cases h : g.1 = []
      · simp only [List.filter_cons, h, decide_true, if_true, ne_eq, not_true, decide_false, Bool.false_eq_true, if_false, List.map_cons,
          List.prod_cons, mul_assoc]
        rw [ih]
      · simp only [List.filter_cons, h, decide_false, Bool.false_eq_true, if_false, ne_eq, not_false_iff, decide_true, if_true, List.map_cons,
          List.prod_cons]
        rw [← ih]; ring
  rw [← e groups]
  congr 1
  rw [realGroups, Finset.prod_filter, ← Fin.prod_univ_eq_prod_range (fun i => if ((groups[i]?).map (·.1)).getD [] ≠ [] then F ((groups[i]?).getD ([], [])) else 1)]
  have e2 : ∀ gs : List VarGroup, ((gs.filter fun g => g.1 ≠ []).map F).prod = (gs.map fun g => if g.1 ≠ [] then F g else 1).prod := by
    intro gs
    induction gs with
    | nil => rfl
    | cons g gs ih =>
      rw [List.filter_cons, List.map_cons, List.prod_cons]
      by_cases h : g.1 = []
      · rw [if_neg (by simp [h]), if_neg (by simp [h]), one_mul, ih]
      · rw [if_pos (by simp [h]), if_pos h, List.map_cons, List.prod_cons, ih]
  rw [e2, ← Fin.prod_univ_fun_getElem groups fun g => if g.1 ≠ [] then F g else 1]
  exact Finset.prod_congr rfl fun i _ => by simp

/-! ### Integrals over the real variables -/

section
open MeasureTheory Function

/-- The variables and their positions. -/
def posEquiv {rs : List String} (h : rs.Nodup) : Fin rs.length ≃ rs.toFinset where
  toFun i := ⟨rs[i], by simp⟩
  invFun v := ⟨rs.idxOf v.1, List.idxOf_lt_length_iff.mpr (List.mem_toFinset.mp v.2)⟩
  left_inv i := Fin.ext (List.Nodup.idxOf_getElem h i i.2)
  right_inv v := Subtype.ext (by simp)

theorem margin_reals {rs : List String} (h : rs.Nodup) (F : (String → ℝ) → ℝ) (σ : Env ℝ) :
    margin rs.toFinset F σ.r = ∫ x : Fin rs.length → ℝ, F (σ.setReals rs x).r := by
  have hmp := volume_measurePreserving_piCongrLeft (fun _ : rs.toFinset => ℝ) (posEquiv h)
  unfold margin
  rw [← hmp.integral_comp (MeasurableEquiv.measurableEmbedding _)]
  congr 1
  funext x
  congr 1
  funext n
  by_cases hn : n ∈ rs
  · rw [updateFinset_mem (List.mem_toFinset.mpr hn)]
    simp only [Env.setReals, List.idxOf_lt_length_iff, hn, dif_pos]
    have e : (⟨n, List.mem_toFinset.mpr hn⟩ : rs.toFinset) = posEquiv h ⟨rs.idxOf n, List.idxOf_lt_length_iff.mpr hn⟩ :=
      Subtype.ext (by simp [posEquiv])
    rw [e]
    exact Equiv.piCongrLeft_apply_apply (fun _ : rs.toFinset => ℝ) (posEquiv h) x _
  · rw [updateFinset_notMem (fun hm => hn (List.mem_toFinset.mp hm)), setReals_mem hn]
end

end Pywmi
