import Verif.Math.Sound

set_option linter.unusedSectionVars false
set_option linter.unusedSimpArgs false

/-!
# Facts about `LinearInequality` and exports (helper lemmas)
-/

namespace Pywmi
open Formula Prog

section
variable {K : Type} [Field K] [LinearOrder K] [IsStrictOrderedRing K]

theorem polyTermAll_syms (k : Mono) : polyTermAll (k.map fun n => Formula.sym n .real) = true := by
  rw [polyTermAll_iff]
  intro a ha
  simp only [List.mem_map] at ha
  obtain ⟨n, _, rfl⟩ := ha
  rfl

theorem zeroPowFreeAll_syms (k : Mono) : zeroPowFreeAll (k.map fun n => Formula.sym n .real) = true := by
  rw [zeroPowFreeAll_iff]
  intro a ha
  simp only [List.mem_map] at ha
  obtain ⟨n, _, rfl⟩ := ha
  rfl

/-- The facts used about an exported term. -/
structure TermSpec (K : Type) [Field K] [LinearOrder K] (p : Mono × ℚ) (t : Formula) : Prop where
  val : ∀ σ : Env K, value σ t = (p.2 : K) * monoEval σ.r p.1
  poly : polyTerm t = true
  zpf : zeroPowFree t = true

theorem mkTimes_names {k : Mono} (hk : k ≠ []) :
    ∃ t, mkTimes (k.map fun n => Formula.sym n .real) = .ok t ∧
      (∀ σ : Env K, value σ t = monoEval σ.r k) ∧ polyTerm t = true ∧ zeroPowFree t = true := by
  obtain ⟨t, ht⟩ := mkTimes_ok (as := k.map fun n => Formula.sym n .real) (by simpa using hk)
  refine ⟨t, ht, fun σ => ?_, ?_, ?_⟩
  · rw [value_mkTimes ht]
    simp [monoEval, value, Function.comp_def]
  · unfold mkTimes at ht
    have hp := polyTermAll_syms k
    split at ht <;> simp at ht <;> subst ht
    · rename_i a h; rw [h] at hp; simpa [polyTermAll] using hp
    · rename_i as h1 h2 h3
      simp only [polyTerm, hp, Bool.and_true]
      simpa using hk
  · unfold mkTimes at ht
    have hp := zeroPowFreeAll_syms k
    split at ht <;> simp at ht <;> subst ht
    · rename_i a h; rw [h] at hp; simpa [zeroPowFreeAll] using hp
    · simpa [zeroPowFree] using hp

theorem scaleTerm_spec {t : Formula} {k : Mono} (v : ℚ) (h : ∀ σ : Env K, value σ t = monoEval σ.r k)
    (h1 : polyTerm t = true) (h2 : zeroPowFree t = true) :
    TermSpec K (k, v) (if v ≠ 1 then .times [t, .realC v] else t) := by
  by_cases hv : v = 1
  · subst hv
    exact ⟨fun σ => by simp [h σ], by simpa using h1, by simpa using h2⟩
  · rw [if_pos hv]
    refine ⟨fun σ => ?_, ?_, ?_⟩
    · simp [value, valueProd, h σ, mul_comm]
    · simp [polyTerm, polyTermAll, h1]
    · simp [zeroPowFree, zeroPowFreeAll, h2]

theorem polyTermSmt_spec (p : Mono × ℚ) : ∃ t, polyTermSmt p = .ok t ∧ TermSpec K p t := by
  obtain ⟨k, v⟩ := p
  unfold polyTermSmt
  by_cases hk : k = []
  · subst hk
    simp only [if_true]
    exact ⟨_, rfl, scaleTerm_spec v (fun σ => by simp [value]) rfl rfl⟩
  · obtain ⟨t, ht, h1, h2, h3⟩ := mkTimes_names (K := K) hk
    simp only [hk, if_false, ht]
    exact ⟨_, rfl, scaleTerm_spec v h1 h2 h3⟩

theorem linTermSmt_spec {p : Mono × ℚ} (hk : p.1 ≠ []) : ∃ t, linTermSmt p = .ok t ∧ TermSpec K p t := by
  obtain ⟨t, ht, h1, h2, h3⟩ := mkTimes_names (K := K) hk
  unfold linTermSmt
  rw [ht]
  exact ⟨_, rfl, scaleTerm_spec p.2 h1 h2 h3⟩

theorem mapE_terms {g : Mono × ℚ → Except PyErr Formula} {d : Dict}
    (h : ∀ p ∈ d, ∃ t, g p = .ok t ∧ TermSpec K p t) :
    ∃ ts, mapE g d = .ok ts ∧ List.Forall₂ (TermSpec K) d ts := by
  induction d with
  | nil => exact ⟨[], rfl, .nil⟩
  | cons p d ih =>
    obtain ⟨t, ht, hs⟩ := h p (by simp)
    obtain ⟨ts, hts, hss⟩ := ih fun q hq => h q (by simp [hq])
    exact ⟨t :: ts, by simp [mapE, ht, hts], .cons hs hss⟩

theorem terms_sum {d : Dict} {ts : List Formula} (h : List.Forall₂ (TermSpec K) d ts) (σ : Env K) :
    (ts.map (value σ)).sum = polyEval σ.r d := by
  induction h with
  | nil => rfl
  | cons h _ ih => rw [List.map_cons, List.sum_cons, ih, h.val, polyEval_cons]

theorem terms_poly {d : Dict} {ts : List Formula} (h : List.Forall₂ (TermSpec K) d ts) :
    (∀ t ∈ ts, polyTerm t = true ∧ zeroPowFree t = true) ∧ ts.length = d.length := by
  induction h with
  | nil => simp
  | cons h _ ih =>
    refine ⟨?_, by simp [ih.2]⟩
    intro t ht
    rcases List.mem_cons.mp ht with rfl | ht
    · exact ⟨h.poly, h.zpf⟩
    · exact ih.1 t ht

theorem mkPlus_poly {ts : List Formula} {f : Formula} (h : mkPlus ts = .ok f)
    (hs : ∀ t ∈ ts, polyTerm t = true ∧ zeroPowFree t = true) : polyTerm f = true ∧ zeroPowFree f = true := by
  unfold mkPlus at h
  split at h <;> simp at h <;> subst h
  · exact hs _ (by simp)
  · rename_i h1 h2
    refine ⟨?_, ?_⟩
    · simp only [polyTerm, Bool.and_eq_true, polyTermAll_iff]
      exact ⟨by cases ts <;> simp_all, fun t ht => (hs t ht).1⟩
    · simp only [zeroPowFree, zeroPowFreeAll_iff]; exact fun t ht => (hs t ht).2

/-- Constant part of a dictionary with distinct keys. -/
theorem polyEval_split (ρ : String → K) {d : Dict} (hn : KeysNodup d) :
    polyEval ρ d = polyEval ρ (d.filter fun p => p.1 ≠ []) + (linCoef d [] : K) := by
  induction d with
  | nil => simp [linCoef]
  | cons p d ih =>
    obtain ⟨k, v⟩ := p
    simp only [KeysNodup, List.map_cons, List.nodup_cons] at hn
    have ih' := ih hn.2
    by_cases hk : k = []
    · subst hk
      have hno : d.filter (fun p => p.1 ≠ []) = d := by
        apply List.filter_eq_self.mpr
        intro q hq
        simp only [ne_eq, decide_eq_true_eq]
        intro h
        exact hn.1 (List.mem_map.mpr ⟨q, hq, h⟩)
      rw [List.filter_cons_of_neg (by simp), hno, polyEval_cons]
      simp [linCoef, List.lookup_cons]; ring
    · rw [List.filter_cons_of_pos (by simpa using hk), polyEval_cons, polyEval_cons, ih']
      have : linCoef ((k, v) :: d) [] = linCoef d [] := by
        unfold linCoef
        rw [List.lookup_cons]
        simp [beq_eq_false_iff_ne.mpr (Ne.symm hk)]
      rw [this]; ring

theorem linToSmt_spec {d : Dict} (hn : KeysNodup d) (hz : ∀ p ∈ d, p.2 ≠ 0) (hne : d ≠ []) :
    ∃ f, linToSmt d = .ok f ∧ wt .bool f = true ∧
      ∀ σ : Env K, (truth σ f = true ↔ polyEval σ.r d < 0) := by
  unfold linToSmt
  rw [if_neg (by simpa using hne)]
  split
  · rename_i h
    refine ⟨_, rfl, rfl, fun σ => ?_⟩
    obtain ⟨h1, h2⟩ := h
    obtain ⟨p, rfl⟩ := List.length_eq_one_iff.mp h1
    obtain ⟨k, v⟩ := p
    have hk : k = [] := by
      by_contra hk
      rw [List.lookup_cons] at h2
      simp [beq_eq_false_iff_ne.mpr (Ne.symm hk)] at h2
    subst hk
    have hv : (v : K) ≠ 0 := by simpa using hz ([], v) (by simp)
    simp only [truth, value, linCoef, List.lookup_cons]
    simp only [beq_self_eq_true, Option.getD_some, decide_eq_true_eq, polyEval_cons, polyEval_nil,
      monoEval_nil, mul_one, add_zero]
    push_cast
    constructor
    · intro h; exact lt_of_le_of_ne (by linarith) hv
    · intro h; linarith
  · rename_i h
    have hne2 : (d.filter fun p => p.1 ≠ []) ≠ [] := by
      intro hf
      rw [List.filter_eq_nil_iff] at hf
      simp only [ne_eq, decide_eq_true_eq, not_not] at hf
      apply h
      cases d with
      | nil => exact absurd rfl hne
      | cons p d =>
        obtain ⟨k, v⟩ := p
        have h1 : k = [] := hf (k, v) (by simp)
        subst h1
        simp only [KeysNodup, List.map_cons, List.nodup_cons] at hn
        cases d with
        | nil => simp [List.lookup_cons]
        | cons q d =>
          have h2 : q.1 = [] := hf q (by simp)
          exact absurd (by simp [h2]) hn.1
    obtain ⟨ts, hts, hspec⟩ := mapE_terms (K := K) (g := linTermSmt) (d := d.filter fun p => p.1 ≠ [])
      fun p hp => linTermSmt_spec (by simpa using (List.mem_filter.mp hp).2)
    have hl := terms_poly hspec
    have hts' : ts ≠ [] := by
      intro h0; apply hne2
      rw [h0, List.length_nil] at hl
      exact List.eq_nil_of_length_eq_zero hl.2.symm
    obtain ⟨s, hs⟩ := mkPlus_ok hts'
    have hpoly := mkPlus_poly hs hl.1
    rw [hts]
    simp only [hs]
    refine ⟨_, rfl, by simp [wt, polyTerm_wt s hpoly.1], fun σ => ?_⟩
    simp only [truth, decide_eq_true_eq]
    rw [value_mkPlus hs, terms_sum hspec, polyEval_split σ.r hn, value]
    push_cast
    constructor <;> intro h <;> linarith

end

/-! ### normalize -/

theorem foldl_max_spec (l : List ℚ) : ∀ a : ℚ, a ≤ l.foldl max a ∧ (∀ x ∈ l, x ≤ l.foldl max a) ∧
    (l.foldl max a = a ∨ l.foldl max a ∈ l) := by
  induction l with
  | nil => intro a; simp
  | cons b l ih =>
    intro a
    obtain ⟨h1, h2, h3⟩ := ih (max a b)
    simp only [List.foldl_cons]
    refine ⟨le_trans (le_max_left _ _) h1, ?_, ?_⟩
    · intro x hx
      rcases List.mem_cons.mp hx with rfl | hx
      · exact le_trans (le_max_right _ _) h1
      · exact h2 x hx
    · rcases h3 with h3 | h3
      · rcases max_choice a b with h | h
        · left; rw [h3, h]
        · right; rw [h3, h]; simp
      · right; exact List.mem_cons_of_mem _ h3

theorem linNormalize_factor {d : Dict} (hz : ∀ p ∈ d, p.2 ≠ 0) (hne : d ≠ []) :
    let f := (d.map fun p => |p.2|).foldl max 0
    0 < f ∧ (∀ p ∈ d, |p.2| ≤ f) ∧ (∃ p ∈ d, |p.2| = f) := by
  intro f
  obtain ⟨h1, h2, h3⟩ := foldl_max_spec (d.map fun p => |p.2|) 0
  have hall : ∀ p ∈ d, |p.2| ≤ f := fun p hp => h2 _ (List.mem_map.mpr ⟨p, hp, rfl⟩)
  cases d with
  | nil => exact absurd rfl hne
  | cons p d =>
    have hp := hz p (by simp)
    have hpos : 0 < f := lt_of_lt_of_le (abs_pos.mpr hp) (hall p (by simp))
    refine ⟨hpos, hall, ?_⟩
    rcases h3 with h3 | h3
    · exact absurd h3 (ne_of_gt hpos)
    · obtain ⟨q, hq, hqe⟩ := List.mem_map.mp h3
      exact ⟨q, hq, hqe⟩

theorem linMk_of_nonzero {d : Dict} (h : ∀ p ∈ d, p.2 ≠ 0) : linMk d = d := by
  unfold linMk
  apply List.filter_eq_self.mpr
  intro p hp; simpa using h p hp

/-! ### scale_to_integer -/

theorem foldl_lcm_spec (l : List ℕ) : ∀ a : ℕ, a ∣ l.foldl linLcm a ∧ (∀ x ∈ l, x ∣ l.foldl linLcm a) ∧
    (a ≠ 0 → (∀ x ∈ l, x ≠ 0) → l.foldl linLcm a ≠ 0) := by
  induction l with
  | nil => intro a; simp
  | cons b l ih =>
    intro a
    have hl : linLcm a b = Nat.lcm a b := rfl
    obtain ⟨h1, h2, h3⟩ := ih (linLcm a b)
    simp only [List.foldl_cons]
    rw [hl] at h1 h2 h3 ⊢
    refine ⟨(Nat.dvd_lcm_left a b).trans h1, ?_, ?_⟩
    · intro x hx
      rcases List.mem_cons.mp hx with rfl | hx
      · exact (Nat.dvd_lcm_right a x).trans h1
      · exact h2 x hx
    · intro ha hb
      exact h3 (Nat.lcm_ne_zero ha (hb b (by simp))) fun x hx => hb x (by simp [hx])

theorem foldl_gcd_spec (l : List ℕ) : ∀ a : ℕ, l.foldl Nat.gcd a ∣ a ∧ (∀ x ∈ l, l.foldl Nat.gcd a ∣ x) ∧
    ∀ c, c ∣ a → (∀ x ∈ l, c ∣ x) → c ∣ l.foldl Nat.gcd a := by
  induction l with
  | nil => intro a; simp
  | cons b l ih =>
    intro a
    obtain ⟨h1, h2, h3⟩ := ih (Nat.gcd a b)
    simp only [List.foldl_cons]
    refine ⟨h1.trans (Nat.gcd_dvd_left a b), ?_, ?_⟩
    · intro x hx
      rcases List.mem_cons.mp hx with rfl | hx
      · exact h1.trans (Nat.gcd_dvd_right a x)
      · exact h2 x hx
    · intro c ha hl
      exact h3 c (Nat.dvd_gcd ha (hl b (by simp))) fun x hx => hl x (by simp [hx])

theorem rat_mul_den_int (q : ℚ) {n : ℕ} (h : q.den ∣ n) : ∃ z : ℤ, q * n = z := by
  obtain ⟨m, rfl⟩ := h
  refine ⟨q.num * m, ?_⟩
  push_cast
  rw [← mul_assoc, Rat.mul_den_eq_num]

theorem truncDiv_exact {q : ℚ} (h : q.den = 1) : ((q.num.tdiv q.den : ℤ) : ℚ) = q := by
  rw [h]; simp
  exact Rat.coe_int_num_of_den_eq_one h

theorem scale_spec {d : Dict} (hz : ∀ p ∈ d, p.2 ≠ 0) (hne : d ≠ []) :
    ∃ (L g : ℕ) , 0 < L ∧ 0 < g ∧
      linScaleToInteger d = .ok (d.map fun p => (p.1, p.2 * ((L : ℚ) / (g : ℚ)))) ∧
      (∀ p ∈ d, ∃ z : ℤ, p.2 * ((L : ℚ) / (g : ℚ)) = z) ∧
      (∀ c : ℕ, (∀ p ∈ d, ∃ z : ℤ, p.2 * ((L : ℚ) / (g : ℚ)) = c * z) → c = 1) := by
  cases d with
  | nil => exact absurd rfl hne
  | cons p ps =>
    set L := (ps.map fun q => q.2.den).foldl linLcm p.2.den with hL
    obtain ⟨l1, l2, l3⟩ := foldl_lcm_spec (ps.map fun q => q.2.den) p.2.den
    rw [← hL] at l1 l2 l3
    have hLpos : 0 < L := Nat.pos_of_ne_zero (l3 p.2.den_nz (by
      intro x hx; obtain ⟨q, _, rfl⟩ := List.mem_map.mp hx; exact q.2.den_nz))
    have hden : ∀ q ∈ p :: ps, q.2.den ∣ L := by
      intro q hq
      rcases List.mem_cons.mp hq with rfl | hq
      · exact l1
      · exact l2 _ (List.mem_map.mpr ⟨q, hq, rfl⟩)
    set num : Mono × ℚ → ℕ := fun q => (q.2 * (L : ℚ)).num.natAbs with hnum
    have hint : ∀ q ∈ p :: ps, ((q.2 * (L : ℚ)).num : ℚ) = q.2 * L := by
      intro q hq
      obtain ⟨z, hz⟩ := rat_mul_den_int q.2 (hden q hq)
      rw [hz]; simp
    set g := (ps.map num).foldl Nat.gcd (num p) with hg
    obtain ⟨g1, g2, g3⟩ := foldl_gcd_spec (ps.map num) (num p)
    rw [← hg] at g1 g2 g3
    have hnz : num p ≠ 0 := by
      simp only [hnum, ne_eq, Int.natAbs_eq_zero, Rat.num_eq_zero]
      exact mul_ne_zero (hz p (by simp)) (by exact_mod_cast hLpos.ne')
    have hgpos : 0 < g := Nat.pos_of_ne_zero fun h => hnz (by rw [h] at g1; exact Nat.zero_dvd.mp g1)
    have hgd : ∀ q ∈ p :: ps, (g : ℤ) ∣ (q.2 * (L : ℚ)).num := by
      intro q hq
      rw [← Int.dvd_natAbs, Int.natCast_dvd_natCast]
      rcases List.mem_cons.mp hq with rfl | hq
      · exact g1
      · exact g2 _ (List.mem_map.mpr ⟨q, hq, rfl⟩)
    have hgq : (g : ℚ) ≠ 0 := by exact_mod_cast hgpos.ne'
    have hLq : (L : ℚ) ≠ 0 := by exact_mod_cast hLpos.ne'
    have hexact : ∀ q ∈ p :: ps, ∃ z : ℤ, q.2 * ((L : ℚ) / (g : ℚ)) = z ∧ (q.2 * (L : ℚ)).num = g * z := by
      intro q hq
      obtain ⟨z, hz⟩ := hgd q hq
      refine ⟨z, ?_, hz⟩
      rw [← mul_div_assoc, ← hint q hq, hz]
      push_cast
      field_simp
    refine ⟨L, g, hLpos, hgpos, ?_, fun q hq => (hexact q hq).imp fun z h => h.1, ?_⟩
    · have hscaled : (List.map (fun q => (q.1, q.2 * (L : ℚ))) (p :: ps)).map (fun q => q.2.num.natAbs)
          = num p :: ps.map num := by simp [hnum, Function.comp_def]
      unfold linScaleToInteger
      simp only [← hL]
      rw [hscaled]
      simp only [← hg]
      rw [if_neg hgpos.ne', List.map_map]
      congr 1
      rw [linMk_of_nonzero]
      · apply List.map_congr_left
        intro q hq
        obtain ⟨z, hz1, hz2⟩ := hexact q hq
        simp only [Function.comp]
        rw [mul_div_assoc, hz1]
        simp
      · intro r hr
        obtain ⟨q, hq, rfl⟩ := List.mem_map.mp hr
        obtain ⟨z, hz1, hz2⟩ := hexact q hq
        simp only [Function.comp]
        rw [mul_div_assoc, hz1]
        have : (z : ℚ) ≠ 0 := by
          rw [← hz1]
          exact mul_ne_zero (hz q hq) (div_ne_zero hLq hgq)
        simpa using this
    · intro c hc
      have hdvd : ∀ q ∈ p :: ps, c * g ∣ num q := by
        intro q hq
        obtain ⟨z, hz1, hz2⟩ := hexact q hq
        obtain ⟨w, hw⟩ := hc q hq
        have hzw : z = c * w := by
          have : (z : ℚ) = (c : ℚ) * w := by rw [← hz1, hw]
          exact_mod_cast this
        simp only [hnum]
        rw [← Int.natCast_dvd_natCast, Int.dvd_natAbs, hz2, hzw]
        exact ⟨w, by push_cast; ring⟩
      have hcg : c * g ∣ g := by
        apply g3
        · exact hdvd p (by simp)
        · intro x hx
          obtain ⟨q, hq, rfl⟩ := List.mem_map.mp hx
          exact hdvd q (by simp [hq])
      have := Nat.le_of_dvd hgpos hcg
      have h0 : c ≠ 0 := by
        rintro rfl
        rw [Nat.zero_mul, Nat.zero_dvd] at hcg
        omega
      nlinarith [Nat.pos_of_ne_zero h0]

end Pywmi
