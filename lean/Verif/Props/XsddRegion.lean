import Verif.Props.Regions
import Verif.Xsdd.Engine
import Verif.Props.PieceInv

set_option linter.unusedSectionVars false
set_option linter.unusedSimpArgs false

/-!
# Convex regions as lists of linear inequalities (used for C57)
-/

namespace Pywmi
open Formula Prog

section
variable {K : Type} [Field K] [LinearOrder K] [IsStrictOrderedRing K]

/-! ### Normalised comparisons: boundary and variables -/

/-- The boundary of an exported inequality is where its form vanishes. -/
theorem linToSmt_strict {d : Dict} (hn : KeysNodup d) (hne : d ≠ []) {f : Formula} (h : linToSmt d = .ok f) (σ : Env K) :
    strictAt σ f ↔ polyEval σ.r d ≠ 0 := by
  unfold linToSmt at h
  rw [if_neg (by simpa using hne)] at h
  split at h
  · rename_i hc
    cases h
    obtain ⟨h1, h2⟩ := hc
    obtain ⟨p, rfl⟩ := List.length_eq_one_iff.mp h1
    obtain ⟨k, v⟩ := p
    have hk : k = [] := by
      by_contra hk
      rw [List.lookup_cons] at h2
      simp [beq_eq_false_iff_ne.mpr (Ne.symm hk)] at h2
    subst hk
    simp only [strictAt, value, linCoef, List.lookup_cons, beq_self_eq_true, Option.getD_some, polyEval_cons, polyEval_nil,
      monoEval_nil, mul_one, add_zero]
    push_cast
    rw [not_iff_not]
    constructor <;> intro h <;> linarith
  · obtain ⟨ts, hts, hspec⟩ := mapE_terms (K := K) (g := linTermSmt) (d := d.filter fun p => p.1 ≠ [])
      fun p hp => linTermSmt_spec (by simpa using (List.mem_filter.mp hp).2)
    rw [hts] at h
    simp only at h
    cases hs : mkPlus ts with
    | error e => rw [hs] at h; cases h
    | ok s =>
      rw [hs] at h
      cases h
      simp only [strictAt]
      rw [value_mkPlus hs, terms_sum hspec, polyEval_split σ.r hn, value]
      push_cast
      rw [not_iff_not]
      constructor <;> intro h <;> linarith

theorem linNormalize_scale {d : Dict} (h : WFLin d) (hne : d ≠ []) :
    ∃ c : ℚ, 0 < c ∧ linNormalize d = d.map fun p => (p.1, p.2 * c) := by
  obtain ⟨h1, -⟩ := linNormalize_factor h.2 hne
  unfold linNormalize
  rw [if_neg (by simpa using hne)]
  generalize (d.map fun p => |p.2|).foldl max 0 = f at h1
  refine ⟨f⁻¹, inv_pos.mpr h1, ?_⟩
  simp only
  rw [if_neg h1.ne', linMk_of_nonzero]
  · simp only [div_eq_mul_inv]
  · intro q hq
    obtain ⟨p, hp, rfl⟩ := List.mem_map.mp hq
    exact div_ne_zero (h.2 p hp) h1.ne'

/-- Where the sides of a comparison differ, the sides of the normalised comparison differ. -/
theorem normalizeAtom_strict {l r g c : Formula} (hl : wt .real l = true) (hr : wt .real r = true)
    (hg : g = .le l r ∨ g = .lt l r) (h : normalizeAtom g = .ok c) (σ : Env K) (hσ : value σ l ≠ value σ r) : strictAt σ c := by
  unfold normalizeAtom at h
  cases hq : linFromSmt g with
  | error e => rw [hq] at h; cases h
  | ok q =>
    rw [hq] at h
    obtain ⟨k, hk, he, _⟩ := linFromSmt_cmp (K := K) hl hr hg hq
    have hwf := linFromSmt_wf hl hr hg hq
    have hk' : (k : K) ≠ 0 := by exact_mod_cast hk.ne'
    have h0 : polyEval σ.r q ≠ 0 := by
      rw [he]; exact mul_ne_zero (sub_ne_zero.mpr hσ) hk'
    have hne : q ≠ [] := by rintro rfl; simp at h0
    obtain ⟨h1, -, -, p, hp, -⟩ := linNormalize_correct (K := K) hwf hne
    have hne' : linNormalize q ≠ [] := by intro h; rw [h] at hp; cases hp
    obtain ⟨m, hm, hs⟩ := linNormalize_scale hwf hne
    rw [linToSmt_strict h1.1 hne' h σ, hs, polyEval_scale]
    exact mul_ne_zero h0 (by exact_mod_cast hm.ne')
end

/-- The variables of a linear inequality are variables of the comparison it was read from. -/
theorem linFromSmt_vars {l r g : Formula} (hl : wt .real l = true) (hr : wt .real r = true) (hg : g = .le l r ∨ g = .lt l r) :
    (∀ q, linFromSmt g = .ok q → ∀ p ∈ q, ∀ n ∈ p.1, (n, Ty.real) ∈ syms l ++ syms r) ∧
    (∀ q, linFromSmt (.not g) = .ok q → ∀ p ∈ q, p.1.length ≤ 1 ∧ ∀ n ∈ p.1, (n, Ty.real) ∈ syms l ++ syms r) := by
  have hcmp : mathDict true g =
      match mathDict true l with
      | .ok a => match mathDict true r with
        | .ok b => .ok (lteDict a b)
        | .error e => .error e
      | .error e => .error e := by
    rcases hg with rfl | rfl
    · exact mathDict_le true l r
    · exact mathDict_lt true l r
  have key : ∀ d, mathDict true g = .ok d → ∀ p ∈ d, p.1.length ≤ 1 ∧ ∀ n ∈ p.1, (n, Ty.real) ∈ syms l ++ syms r := by
    intro d hd
    rw [hcmp] at hd
    cases ha : mathDict true l with
    | error e => rw [ha] at hd; cases hd
    | ok a =>
      rw [ha] at hd
      cases hb : mathDict true r with
      | error e => rw [hb] at hd; cases hd
      | ok b =>
        rw [hb] at hd
        cases hd
        have s1 := mathDict_sound (K := ℚ) true l hl (.inl rfl) a ha
        have s2 := mathDict_sound (K := ℚ) true r hr (.inl rfl) b hb
        exact lteDict_keys (P := fun k => k.length ≤ 1 ∧ ∀ n ∈ k, (n, Ty.real) ∈ syms l ++ syms r) (by simp)
          (fun p hp => ⟨(s1.keys p hp).2.1 rfl, fun n hn => List.mem_append_left _ ((s1.keys p hp).2.2 n hn)⟩)
          (fun p hp => ⟨(s2.keys p hp).2.1 rfl, fun n hn => List.mem_append_right _ ((s2.keys p hp).2.2 n hn)⟩)
  constructor
  · intro q hq p hp n hn
    unfold linFromSmt at hq
    cases hd : mathDict true g with
    | error e => rw [hd] at hq; cases hq
    | ok d =>
      rw [hd] at hq
      cases hq
      exact (key d hd p (List.mem_of_mem_filter hp)).2 n hn
  · intro q hq p hp
    unfold linFromSmt at hq
    rw [mathDict_not] at hq
    cases hd : mathDict true g with
    | error e => rw [hd] at hq; cases hq
    | ok d =>
      rw [hd] at hq
      cases hq
      have := List.mem_of_mem_filter hp
      obtain ⟨p', hp', rfl⟩ := List.mem_map.mp this
      exact key d hd p' hp'

theorem mem_syms_mkPlus {ts : List Formula} {f : Formula} (h : mkPlus ts = .ok f) {p : String × Ty} (hp : p ∈ syms f) :
    ∃ t ∈ ts, p ∈ syms t := by
  unfold mkPlus at h
  split at h <;> simp at h <;> subst h
  · exact ⟨_, by simp, hp⟩
  · exact mem_symsList.mp hp

theorem mem_syms_mkTimes {ts : List Formula} {f : Formula} (h : mkTimes ts = .ok f) {p : String × Ty} (hp : p ∈ syms f) :
    ∃ t ∈ ts, p ∈ syms t := by
  unfold mkTimes at h
  split at h <;> simp at h <;> subst h
  · exact ⟨_, by simp, hp⟩
  · exact mem_symsList.mp hp

/-- The variables of a normalised comparison are variables of the comparison. -/
theorem normalizeAtom_syms {l r g c : Formula} (hl : wt .real l = true) (hr : wt .real r = true)
    (hg : g = .le l r ∨ g = .lt l r) (h : normalizeAtom g = .ok c) : ∀ p ∈ syms c, p ∈ syms l ++ syms r := by
  unfold normalizeAtom at h
  cases hq : linFromSmt g with
  | error e => rw [hq] at h; cases h
  | ok q =>
    rw [hq] at h
    simp only at h
    have hv := (linFromSmt_vars hl hr hg).1 q hq
    have hv' : ∀ p ∈ linNormalize q, ∀ n ∈ p.1, (n, Ty.real) ∈ syms l ++ syms r := by
      intro p hp
      unfold linNormalize at hp
      split at hp
      · exact hv p hp
      · simp only at hp
        split at hp
        · exact hv p hp
        · obtain ⟨q', hq', rfl⟩ := List.mem_map.mp (List.mem_of_mem_filter hp)
          exact hv q' hq'
    generalize linNormalize q = d at h hv'
    unfold linToSmt at h
    intro p hp
    split at h
    · cases h; simp [syms] at hp
    split at h
    · cases h; simp [syms] at hp
    cases hm : mapE linTermSmt (d.filter fun p => p.1 ≠ []) with
    | error e => rw [hm] at h; cases h
    | ok ts =>
      rw [hm] at h
      simp only at h
      cases hs : mkPlus ts with
      | error e => rw [hs] at h; cases h
      | ok s =>
        rw [hs] at h
        cases h
        simp only [syms, List.append_nil] at hp
        obtain ⟨t, ht, hpt⟩ := mem_syms_mkPlus hs hp
        obtain ⟨e, he, hte⟩ := forall₂_mem_right (mapE_inv hm) t ht
        unfold linTermSmt at hte
        cases hk : mkTimes (e.1.map fun n => Formula.sym n .real) with
        | error e => rw [hk] at hte; cases hte
        | ok u =>
          rw [hk] at hte
          simp only [Except.ok.injEq] at hte
          have : p ∈ syms u := by
            subst hte
            split at hpt
            · simpa [syms, symsList] using hpt
            · exact hpt
          obtain ⟨v, hv1, hv2⟩ := mem_syms_mkTimes hk this
          obtain ⟨n, hn, rfl⟩ := List.mem_map.mp hv1
          simp only [syms, List.mem_singleton] at hv2
          subst hv2
          exact hv' e (List.mem_of_mem_filter he) n hn

/-! ### Inequalities of a region -/

theorem boundsW_decr (b : Bool) : (boundsW b).Decr := by
  apply Walker.decr_of
  · intro as n h; exact callsBelow_callAll h fun _ => callsBelow_ofExcept _ _ _
  · intro as n h
    show Prog.CallsBelow msize _ (if b then _ else _)
    split
    · exact callsBelow_callAll h fun _ => callsBelow_ofExcept _ _ _
    · trivial
  · intro as n h; show Prog.CallsBelow msize _ (if b then _ else _); split <;> trivial
  · intro as n h; show Prog.CallsBelow msize _ (if b then _ else _); split <;> trivial
  · intro a n h; exact ⟨h, fun _ => trivial⟩
  · intro l r; show Prog.CallsBelow msize _ (if b then _ else _); split <;> trivial
  · intros; trivial
  · intros; trivial
  · intros; trivial
  · intros; trivial
  · intros; trivial
  · intro m t n; show Prog.CallsBelow msize _ (if _ then _ else _); split <;> trivial
  · intros; trivial
  · intro q n; show Prog.CallsBelow msize _ (if _ then _ else _); split <;> trivial
  · exact fun l r => Walker.implies_default_below l r

/-- SPEC: a strict comparison, or its negation, with the sides of one of the given comparisons. -/
def LitOf (As : List Formula) (x : Formula) : Prop :=
  ∃ l r, (.le l r ∈ As ∨ .lt l r ∈ As) ∧ linTerm l = true ∧ linTerm r = true ∧ (x = .lt l r ∨ x = .not (.lt l r))

theorem mem_setUnion {a b : List Formula} {x : Formula} : x ∈ setUnion a b ↔ x ∈ a ∨ x ∈ b := by
  simp only [setUnion, List.mem_append, List.mem_filter, decide_not, Bool.not_eq_eq_eq_not, Bool.not_true, decide_eq_false_iff_not]
  tauto

section
variable {K : Type} [Field K] [LinearOrder K] [IsStrictOrderedRing K]

theorem region_walk {As : List Formula} (hA : ∀ a ∈ As, ∃ l r, (a = .le l r ∨ a = .lt l r) ∧ linTerm l = true ∧ linTerm r = true)
    {f : Formula} (h : RegionOf As f) :
    ∃ S, (boundsW false).walk f = .ok S ∧ (∀ x ∈ S, LitOf As x) ∧
      ∀ σ : Env K, (∀ a ∈ As, strictAt σ a) → (truth σ f = true ↔ ∀ x ∈ S, truth σ x = true) := by
  induction h with
  | all =>
    refine ⟨[], ?_, by simp, fun σ _ => by simp [truth]⟩
    rw [Walker.walk_eq (boundsW_decr _)]; rfl
  | pos a ha =>
    obtain ⟨l, r, hlr, hl, hr⟩ := hA a ha
    refine ⟨[.lt l r], ?_, ?_, fun σ hσ => ?_⟩
    · rw [Walker.walk_eq (boundsW_decr _)]; rcases hlr with rfl | rfl <;> rfl
    · simp only [List.mem_singleton, forall_eq]
      exact ⟨l, r, by rcases hlr with rfl | rfl <;> simp [ha], hl, hr, .inl rfl⟩
    · have := hσ a ha
      rcases hlr with rfl | rfl
      · simp only [truth, List.mem_singleton, forall_eq, decide_eq_true_eq]
        exact ⟨fun h => lt_of_le_of_ne h this, le_of_lt⟩
      · simp
  | neg a ha =>
    obtain ⟨l, r, hlr, hl, hr⟩ := hA a ha
    refine ⟨[.not (.lt l r)], ?_, ?_, fun σ hσ => ?_⟩
    · rcases hlr with rfl | rfl <;>
      · show (boundsW false).walk (.not _) = _
        rw [Walker.walk_eq (boundsW_decr _)]
        show (Prog.call _ _ : Prog Formula (List Formula)).interp _ = _
        rw [interp, Walker.walk_eq (boundsW_decr _)]
        rfl
    · simp only [List.mem_singleton, forall_eq]
      exact ⟨l, r, by rcases hlr with rfl | rfl <;> simp [ha], hl, hr, .inr rfl⟩
    · have := hσ a ha
      rcases hlr with rfl | rfl
      · simp only [truth_mkNot, truth, List.mem_singleton, forall_eq, Bool.not_eq_true', decide_eq_false_iff_not, not_le, not_lt]
        exact ⟨le_of_lt, fun h => lt_of_le_of_ne h (Ne.symm this)⟩
      · simp [truth]
  | both f g hf hg ihf ihg =>
    obtain ⟨S, s1, s2, s3⟩ := ihf
    obtain ⟨T, t1, t2, t3⟩ := ihg
    refine ⟨setUnion S T, ?_, fun x hx => ?_, fun σ hσ => ?_⟩
    · show (boundsW false).walk (.and [f, g]) = _
      rw [Walker.walk_eq (boundsW_decr _)]
      show interp _ (Prog.callAll [f, g] fun rs => .ofExcept (collectSets rs)) = _
      rw [interp_callAll, Pieces.mapE_of_forall₂ (.cons s1 (.cons t1 .nil))]
      simp [collectSets]
    · rcases mem_setUnion.mp hx with hx | hx
      · exact s2 x hx
      · exact t2 x hx
    · simp only [truth_mkAnd, List.all_cons, List.all_nil, Bool.and_true, Bool.and_eq_true, s3 σ hσ, t3 σ hσ, mem_setUnion]
      exact ⟨fun ⟨a, b⟩ x hx => hx.elim (a x) (b x), fun h => ⟨fun x hx => h x (.inl hx), fun x hx => h x (.inr hx)⟩⟩

/-- The inequalities of a convex region describe it, off the boundaries. -/
theorem getInequalities_region {As : List Formula}
    (hA : ∀ a ∈ As, ∃ l r, (a = .le l r ∨ a = .lt l r) ∧ linTerm l = true ∧ linTerm r = true)
    {ord : List Formula → List Formula} (hord : ∀ l, (ord l).Perm l) {f : Formula} (h : RegionOf As f) :
    ∃ ds, getInequalities ord f = .ok ds ∧
      (∀ d ∈ ds, WFLin d ∧ ∀ p ∈ d, p.1.length ≤ 1 ∧ ∀ n ∈ p.1, ∃ a ∈ As, (n, Ty.real) ∈ syms a) ∧
      ∀ σ : Env K, (∀ a ∈ As, strictAt σ a) → (truth σ f = true ↔ ∀ d ∈ ds, polyEval σ.r d ≤ 0) := by
  obtain ⟨S, h1, h2, h3⟩ := region_walk (K := K) hA h
  have key : ∀ x ∈ ord S, ∃ d, linFromSmt x = .ok d ∧
      (WFLin d ∧ ∀ p ∈ d, p.1.length ≤ 1 ∧ ∀ n ∈ p.1, ∃ a ∈ As, (n, Ty.real) ∈ syms a) ∧
      ∀ σ : Env K, (∀ a ∈ As, strictAt σ a) → (truth σ x = true ↔ polyEval σ.r d ≤ 0) := by
    intro x hx
    obtain ⟨l, r, hlr, hl, hr, hx⟩ := h2 x ((hord S).mem_iff.mp hx)
    have wl := polyTerm_wt l (linTerm_polyTerm l hl)
    have wr := polyTerm_wt r (linTerm_polyTerm r hr)
    have hstrict : ∀ σ : Env K, (∀ a ∈ As, strictAt σ a) → value σ l ≠ value σ r := fun σ hσ => by
      rcases hlr with h | h
      · exact hσ _ h
      · exact hσ _ h
    have hmem : ∀ n, (n, Ty.real) ∈ syms l ++ syms r → ∃ a ∈ As, (n, Ty.real) ∈ syms a := fun n hn => by
      rcases hlr with h | h
      · exact ⟨_, h, hn⟩
      · exact ⟨_, h, hn⟩
    obtain ⟨v1, v2⟩ := linFromSmt_vars wl wr (.inr rfl : (Formula.lt l r = .le l r ∨ _))
    rcases hx with rfl | rfl
    · obtain ⟨d, hd, hs⟩ := linFromSmt_linear (K := K) hl hr (.inr rfl : (Formula.lt l r = .le l r ∨ _))
      obtain ⟨_, _, _, hk, _⟩ := linFromSmt_cmp (K := K) wl wr (.inr rfl) hd
      refine ⟨d, hd, ⟨linFromSmt_wf wl wr (.inr rfl) hd, fun p hp => ⟨hk p hp, fun n hn => hmem n (v1 d hd p hp n hn)⟩⟩,
        fun σ hσ => ?_⟩
      have h4 := hs σ
      have h5 := hstrict σ hσ
      simp only [truth, decide_eq_true_eq]
      constructor
      · intro h; exact (h4.1.mpr h).le
      · intro h
        rcases lt_trichotomy (value σ l) (value σ r) with h6 | h6 | h6
        · exact h6
        · exact absurd h6 h5
        · exact absurd (h4.2.mpr h6) (not_lt.mpr h)
    · obtain ⟨d, hd, hs⟩ := linFromSmt_negated (K := K) hl hr (.inr rfl : (Formula.lt l r = .le l r ∨ _))
      refine ⟨d, hd, ⟨linFromSmt_not_wf wl wr (.inr rfl) hd, fun p hp =>
        ⟨(v2 d hd p hp).1, fun n hn => hmem n ((v2 d hd p hp).2 n hn)⟩⟩, fun σ hσ => ?_⟩
      have h4 := hs σ
      have h5 := hstrict σ hσ
      simp only [truth, Bool.not_eq_true', decide_eq_false_iff_not, not_lt]
      constructor
      · intro h; exact (h4.1.mpr (lt_of_le_of_ne h (Ne.symm h5))).le
      · intro h
        by_contra h6
        exact absurd (h4.2.mpr (not_le.mp h6)) (not_lt.mpr h)
  have hall : ∀ xs : List Formula, (∀ x ∈ xs, ∃ d, linFromSmt x = .ok d ∧
      (WFLin d ∧ ∀ p ∈ d, p.1.length ≤ 1 ∧ ∀ n ∈ p.1, ∃ a ∈ As, (n, Ty.real) ∈ syms a) ∧
      ∀ σ : Env K, (∀ a ∈ As, strictAt σ a) → (truth σ x = true ↔ polyEval σ.r d ≤ 0)) →
      ∃ ds, mapE linFromSmt xs = .ok ds ∧
      (∀ d ∈ ds, WFLin d ∧ ∀ p ∈ d, p.1.length ≤ 1 ∧ ∀ n ∈ p.1, ∃ a ∈ As, (n, Ty.real) ∈ syms a) ∧
      ∀ σ : Env K, (∀ a ∈ As, strictAt σ a) → ((∀ x ∈ xs, truth σ x = true) ↔ ∀ d ∈ ds, polyEval σ.r d ≤ 0) := by
    intro xs
    induction xs with
    | nil => intro _; exact ⟨[], rfl, by simp, by simp⟩
    | cons x xs ih =>
      intro hx
      obtain ⟨d, k1, k2, k3⟩ := hx x (by simp)
      obtain ⟨ds, m1, m2, m3⟩ := ih fun y hy => hx y (by simp [hy])
      refine ⟨d :: ds, by simp [mapE, k1, m1], ?_, fun σ hσ => by simp [k3 σ hσ, m3 σ hσ]⟩
      intro e he
      rcases List.mem_cons.mp he with rfl | he
      · exact k2
      · exact m2 e he
  obtain ⟨ds, m1, m2, m3⟩ := hall (ord S) key
  refine ⟨ds, by simp only [getInequalities, h1, m1], m2, fun σ hσ => ?_⟩
  rw [h3 σ hσ, ← m3 σ hσ]
  exact ⟨fun h x hx => h x ((hord S).mem_iff.mp hx), fun h x hx => h x ((hord S).mem_iff.mpr hx)⟩
end

end Pywmi
