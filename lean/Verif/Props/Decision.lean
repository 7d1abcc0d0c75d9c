import Verif.Xadd.Canon

set_option linter.unusedSectionVars false
set_option linter.unusedSimpArgs false

/-!
# C12: canonical decisions keep the split
-/

namespace Pywmi
open Formula Prog Decision

section
variable {K : Type} [Field K] [LinearOrder K] [IsStrictOrderedRing K]

/-- SPEC: the child that a test selects at an assignment. -/
def pick (σ : Env K) (test : Formula) (t f : ℕ) : ℕ := if truth σ test then t else f

theorem linFromSmt_ok {l r g : Formula} (hl : linTerm l = true) (hr : linTerm r = true)
    (hg : g = .le l r ∨ g = .lt l r) : ∃ q, linFromSmt g = .ok q :=
  let ⟨q, h, _⟩ := linFromSmt_linear (K := ℚ) hl hr hg; ⟨q, h⟩

theorem lin_wt {l : Formula} (hl : linTerm l = true) : wt .real l = true := polyTerm_wt l (linTerm_polyTerm l hl)

theorem toCanonical_lin {simp : Formula → Formula} {g : Formula} (hb : isBoolTest g = false) {q : Dict}
    (h : linFromSmt g = .ok q) (hn : KeysNodup q) (hz : ∀ p ∈ q, p.2 ≠ 0) (hne : q ≠ []) (t f : ℕ) :
    ∃ c, linToSmt (q.map fun p => (p.1, p.2 / leadCoef q)) = .ok c ∧
      (∀ σ : Env K, truth σ c = true ↔ polyEval σ.r (q.map fun p => (p.1, p.2 / leadCoef q)) < 0) ∧
      toCanonical simp ⟨g, none, false⟩ t f =
        .ok (⟨c, some (q.map fun p => (p.1, p.2 / leadCoef q)), true⟩,
          if leadCoef q < 0 then f else t, if leadCoef q < 0 then t else f) := by
  have h0 := leadCoef_ne_zero hn hz hne
  obtain ⟨c, hc, -, hct⟩ := linToSmt_spec (K := K) (d := q.map fun p => (p.1, p.2 / leadCoef q)) (hn.mapVal _)
    (by intro p hp; obtain ⟨r, hr, rfl⟩ := List.mem_map.mp hp; exact div_ne_zero (hz r hr) h0)
    (by simpa using hne)
  refine ⟨c, hc, hct, ?_⟩
  unfold toCanonical
  simp only [Bool.false_eq_true, if_false, hb, h, canonDict_eq hn hz hne, hc, decide_eq_true_eq]

/-- Selection by the canonical test is the reading of the linear form. -/
theorem pick_canonical {q : Dict} (h0 : leadCoef q ≠ 0) {c : Formula}
    (hct : ∀ σ : Env K, truth σ c = true ↔ polyEval σ.r (q.map fun p => (p.1, p.2 / leadCoef q)) < 0)
    (σ : Env K) (t f : ℕ) :
    pick σ c (if leadCoef q < 0 then f else t) (if leadCoef q < 0 then t else f) =
      if readDict σ.r q then t else f := by
  have htr : truth σ c = decide (polyEval σ.r (q.map fun p => (p.1, p.2 / leadCoef q)) < 0) := by
    rw [Bool.eq_iff_iff, hct, decide_eq_true_eq]
  rw [← canon_read h0 σ.r, pick, htr]
  by_cases h : leadCoef q < 0
  · simp only [h, if_true]
    cases decide (polyEval σ.r (q.map fun p => (p.1, p.2 / leadCoef q)) < 0) <;> simp
  · simp only [h, if_false]

/-- **C12**: canonicalising a linear test whose sides are not identical succeeds, and the canonical test with its
(possibly swapped) children selects the same child as the original test at every point off the boundary. -/
theorem toCanonical_selects {l r g : Formula} (hl : linTerm l = true) (hr : linTerm r = true)
    (hg : g = .le l r ∨ g = .lt l r) (hne : ∃ σ : Env K, value σ l ≠ value σ r) (simp : Formula → Formula) (t f : ℕ) :
    ∃ d t' f', toCanonical simp ⟨g, none, false⟩ t f = .ok (d, t', f') ∧ d.canonical = true ∧
      ∀ σ : Env K, value σ l ≠ value σ r → pick σ d.test t' f' = pick σ g t f := by
  obtain ⟨q, hq⟩ := linFromSmt_ok hl hr hg
  obtain ⟨c, hc, he, -, hn, hz⟩ := linFromSmt_cmp (K := K) (lin_wt hl) (lin_wt hr) hg hq
  have hcK : (0 : K) < c := by exact_mod_cast hc
  have hqne : q ≠ [] := by
    rintro rfl
    obtain ⟨σ, hσ⟩ := hne
    have := he σ
    simp only [polyEval_nil] at this
    rcases mul_eq_zero.mp this.symm with h | h
    · exact hσ (sub_eq_zero.mp h)
    · exact hcK.ne' h
  have hb : isBoolTest g = false := by rcases hg with rfl | rfl <;> rfl
  obtain ⟨cf, -, hct, hcan⟩ := toCanonical_lin (K := K) (simp := simp) hb hq hn hz hqne t f
  refine ⟨_, _, _, hcan, rfl, fun σ hσ => ?_⟩
  rw [pick_canonical (leadCoef_ne_zero hn hz hqne) hct]
  have hd : polyEval σ.r q ≠ 0 := by
    rw [he σ]; exact mul_ne_zero (sub_ne_zero.mpr hσ) hcK.ne'
  rw [readDict_of_ne σ.r hd, he σ, pick]
  have : (value σ l - value σ r) * (c : K) < 0 ↔ truth σ g = true := by
    have h1 : (value σ l - value σ r) * (c : K) < 0 ↔ value σ l < value σ r := by
      rw [mul_neg_iff, sub_neg]
      exact ⟨fun h => h.elim (fun h => absurd h.2 (not_lt.mpr hcK.le)) (·.1), fun h => Or.inr ⟨h, hcK⟩⟩
    rw [h1]
    rcases hg with rfl | rfl
    · simp only [truth, decide_eq_true_eq]
      exact ⟨le_of_lt, fun h => lt_of_le_of_ne h hσ⟩
    · simp only [truth, decide_eq_true_eq]
  by_cases h : (value σ l - value σ r) * (c : K) < 0
  · rw [if_pos (by simpa using h), if_pos (this.mp h)]
  · rw [if_neg (by simpa using h), if_neg (fun h' => h (this.mpr h'))]

/-- A negated test is canonicalised like the test with its children exchanged. -/
theorem toCanonical_selects_not {l r g : Formula} (hl : linTerm l = true) (hr : linTerm r = true)
    (hg : g = .le l r ∨ g = .lt l r) (hne : ∃ σ : Env K, value σ l ≠ value σ r) (simp : Formula → Formula) (t f : ℕ) :
    ∃ d t' f', toCanonical simp ⟨.not g, none, false⟩ t f = .ok (d, t', f') ∧ d.canonical = true ∧
      ∀ σ : Env K, value σ l ≠ value σ r → pick σ d.test t' f' = pick σ (.not g) t f := by
  obtain ⟨q, hq⟩ := linFromSmt_ok hl hr hg
  obtain ⟨c, hc, he, -, hn, hz⟩ := linFromSmt_cmp (K := K) (lin_wt hl) (lin_wt hr) hg hq
  have hcK : (0 : K) < c := by exact_mod_cast hc
  have hqne : q ≠ [] := by
    rintro rfl
    obtain ⟨σ, hσ⟩ := hne
    have := he σ
    simp only [polyEval_nil] at this
    rcases mul_eq_zero.mp this.symm with h | h
    · exact hσ (sub_eq_zero.mp h)
    · exact hcK.ne' h
  have hq' : linFromSmt (.not g) = .ok (q.map fun p => (p.1, -p.2)) := by
    unfold linFromSmt at hq ⊢
    rw [mathDict_walk]
    show (match interp (mathDict true) (Prog.call g fun d => .done (dictNeg d)) with
      | .ok d => Except.ok (linMk d) | .error e => .error e) = _
    simp only [interp]
    cases hm : mathDict true g with
    | error e => rw [hm] at hq; cases hq
    | ok d =>
      rw [hm] at hq
      simp only [Except.ok.injEq] at hq
      subst hq
      simp only [interp, Except.ok.injEq, dictNeg, linMk, List.filter_map]
      congr 1
      apply List.filter_congr
      intro p _
      simp
  have hn' : KeysNodup (q.map fun p => (p.1, -p.2)) := hn.mapVal _
  have hz' : ∀ p ∈ q.map fun p => (p.1, -p.2), p.2 ≠ 0 := by
    intro p hp; obtain ⟨r, hr, rfl⟩ := List.mem_map.mp hp; simpa using hz r hr
  have hne' : (q.map fun p => (p.1, -p.2)) ≠ [] := by simpa using hqne
  have hb : isBoolTest (.not g) = false := by rcases hg with rfl | rfl <;> rfl
  obtain ⟨cf, -, hct, hcan⟩ := toCanonical_lin (K := K) (simp := simp) hb hq' hn' hz' hne' t f
  refine ⟨_, _, _, hcan, rfl, fun σ hσ => ?_⟩
  rw [pick_canonical (leadCoef_ne_zero hn' hz' hne') hct]
  have hd : polyEval σ.r (q.map fun p => (p.1, -p.2)) ≠ 0 := by
    rw [polyEval_neg, he σ]; exact neg_ne_zero.mpr (mul_ne_zero (sub_ne_zero.mpr hσ) hcK.ne')
  rw [readDict_of_ne σ.r hd, polyEval_neg, he σ, pick]
  have h1 : -((value σ l - value σ r) * (c : K)) < 0 ↔ value σ r < value σ l := by
    rw [neg_lt_zero, mul_pos_iff_of_pos_right hcK, sub_pos]
  have : -((value σ l - value σ r) * (c : K)) < 0 ↔ truth σ (.not g) = true := by
    rw [h1]
    rcases hg with rfl | rfl
    · simp only [truth, Bool.not_eq_true', decide_eq_false_iff_not, not_le]
    · simp only [truth, Bool.not_eq_true', decide_eq_false_iff_not, not_lt]
      exact ⟨le_of_lt, fun h => lt_of_le_of_ne h (Ne.symm hσ)⟩
  by_cases h : -((value σ l - value σ r) * (c : K)) < 0
  · rw [if_pos (by simpa using h), if_pos (this.mp h)]
  · rw [if_neg (by simpa using h), if_neg (fun h' => h (this.mpr h'))]

/-- Boolean tests: a symbol is kept, a negated symbol is replaced by the symbol with swapped children. -/
theorem toCanonical_bool (simp : Formula → Formula) (b : String) (hs : simp (.sym b .bool) = .sym b .bool) (t f : ℕ) :
    (∃ d, toCanonical simp ⟨.sym b .bool, none, false⟩ t f = .ok (d, t, f) ∧ d.test = .sym b .bool ∧ d.canonical = true) ∧
    (∃ d, toCanonical simp ⟨.not (.sym b .bool), none, false⟩ t f = .ok (d, f, t) ∧ d.test = .sym b .bool ∧
      d.canonical = true ∧ ∀ σ : Env K, pick σ d.test f t = pick σ (.not (.sym b .bool)) t f) := by
  refine ⟨⟨⟨.sym b .bool, none, true⟩, rfl, rfl, rfl⟩, ⟨⟨.sym b .bool, none, true⟩, ?_, rfl, rfl, fun σ => ?_⟩⟩
  · simp [toCanonical, isBoolTest, mkNot, hs]
  · simp only [pick, truth]
    by_cases h : σ.b b = true <;> simp [h]

/-- **C12**: canonicalisation is idempotent: the canonical test, taken as a new test, is its own canonical test and
keeps its children. -/
theorem toCanonical_idempotent {l r g : Formula} (hl : linTerm l = true) (hr : linTerm r = true)
    (hg : g = .le l r ∨ g = .lt l r)
    (hvar : ∃ σ σ' : Env K, value σ l - value σ r ≠ value σ' l - value σ' r) (simp : Formula → Formula)
    {t f : ℕ} {d : Decision} {t' f' : ℕ} (h : toCanonical simp ⟨g, none, false⟩ t f = .ok (d, t', f')) :
    (∀ t f, toCanonical simp d t f = .ok (d, t, f)) ∧
    ∀ t f, ∃ e, toCanonical simp ⟨d.test, none, false⟩ t f = .ok (e, t, f) ∧ e.test = d.test := by
  obtain ⟨q, hq⟩ := linFromSmt_ok hl hr hg
  obtain ⟨c, hc, he, hk, hn, hz⟩ := linFromSmt_cmp (K := K) (lin_wt hl) (lin_wt hr) hg hq
  have hvq : ∃ p ∈ q, p.1 ≠ [] := by
    by_contra hno
    push Not at hno
    obtain ⟨σ, σ', hs⟩ := hvar
    have : ∀ ρ : String → K, polyEval ρ q = polyEval (fun _ => 0) q := by
      intro ρ
      unfold polyEval
      congr 1
      apply List.map_congr_left
      intro p hp
      rw [hno p hp]; rfl
    have h1 := he σ
    have h2 := he σ'
    rw [this] at h1 h2
    have hcK : (c : K) ≠ 0 := by exact_mod_cast hc.ne'
    exact hs (mul_right_cancel₀ hcK (h1.symm.trans h2))
  have hqne : q ≠ [] := by rintro rfl; obtain ⟨p, hp, -⟩ := hvq; cases hp
  have hb : isBoolTest g = false := by rcases hg with rfl | rfl <;> rfl
  obtain ⟨cf, hcf, -, hcan⟩ := toCanonical_lin (K := K) (simp := simp) hb hq hn hz hqne t f
  rw [hcan] at h
  simp only [Except.ok.injEq, Prod.mk.injEq] at h
  obtain ⟨rfl, -, -⟩ := h
  refine ⟨fun t f => by simp [toCanonical], fun t f => ?_⟩
  set q' := q.map fun p => (p.1, p.2 / leadCoef q) with hq'
  have hcl : CanonLin q' := canonLin_div hn hz hk hvq
  have hback := linFromSmt_linToSmt hcl hcf
  have hn2 := constLast_keys hcl.nodup hcl.nz
  have hperm := constLast_perm hcl.nodup hcl.nz
  have hz2 : ∀ p ∈ constLast q', p.2 ≠ 0 := fun p hp => hcl.nz p (hperm.mem_iff.mp hp)
  have hne2 : constLast q' ≠ [] := fun h0 => hcl.ne_nil (by rw [h0] at hperm; exact hperm.symm.eq_nil)
  have hb2 : isBoolTest cf = false := by
    rcases hlt : cf with _ | _ | _ | a | _ | _ | _ | _ | _ | _ | _ | _ | _ | ⟨n, ty⟩ | _ | _ <;> try rfl
    · rw [hlt] at hcf
      unfold linToSmt at hcf
      split at hcf
      · simp at hcf
      · split at hcf
        · simp at hcf
        · split at hcf
          · split at hcf <;> simp at hcf
          · simp at hcf
    · rw [hlt] at hcf
      unfold linToSmt at hcf
      split at hcf
      · simp at hcf
      · split at hcf
        · simp at hcf
        · split at hcf
          · split at hcf <;> simp at hcf
          · simp at hcf
  have hlead : leadCoef (constLast q') = 1 := by rw [leadCoef_perm hperm hn2 hcl.nodup]; exact hcl.lead
  obtain ⟨cf2, hcf2, -, hcan2⟩ := toCanonical_lin (K := K) (simp := simp) hb2 hback hn2 hz2 hne2 t f
  rw [hlead] at hcf2 hcan2
  have hid : ((constLast q').map fun p : Mono × ℚ => (p.1, p.2 / 1)) = constLast q' := by simp
  rw [hid, linToSmt_constLast hcl.nodup hcl.nz hcl.var, hcf, Except.ok.injEq] at hcf2
  subst hcf2
  exact ⟨⟨cf, some (constLast q'), true⟩, by rw [hcan2, hid]; norm_num, rfl⟩

/-- The degenerate test `l <= r` with identical sides has no canonical form: the code raises IndexError
(`Pool.internal` removes such tests before canonicalising them, so this is not reached from the engine). -/
theorem toCanonical_degenerate {l r g : Formula} (hl : linTerm l = true) (hr : linTerm r = true)
    (hg : g = .le l r ∨ g = .lt l r) (heq : ∀ σ : Env ℚ, value σ l = value σ r) (simp : Formula → Formula) (t f : ℕ) :
    toCanonical simp ⟨g, none, false⟩ t f = .error .indexError := by
  obtain ⟨q, hq⟩ := linFromSmt_ok hl hr hg
  obtain ⟨c, hc, he, hk, hn, hz⟩ := linFromSmt_cmp (K := ℚ) (lin_wt hl) (lin_wt hr) hg hq
  have h0 : q = [] := by
    by_contra hne
    cases q with
    | nil => exact hne rfl
    | cons p q' =>
      have hs : ∀ x ∈ p :: q', x.1.Pairwise (· ≤ ·) := by
        intro x hx
        have := hk x hx
        match h : x.1, this with
        | [], _ => exact List.Pairwise.nil
        | [a], _ => simp
      have hlk := lookup_eq_of_eval (d := p :: q') (e := []) hs hn (by simp) (by simp [KeysNodup])
        (fun ρ => by
          have := he ⟨fun _ => false, ρ⟩
          simp only [heq, sub_self, zero_mul] at this
          simpa using this) p.1
      rw [lookup_of_mem hn (show (p.1, p.2) ∈ p :: q' by simp)] at hlk
      exact hz p (by simp) (by simpa using hlk)
  subst h0
  have hb : isBoolTest g = false := by rcases hg with rfl | rfl <;> rfl
  simp [toCanonical, hb, hq, canonDict, sortedKeys]

/-! ### Proportional tests -/

theorem dictTimes_scale {a : Dict} (hn : KeysNodup a) (hk : ∀ p ∈ a, p.1.length ≤ 1) (c : ℚ) :
    dictTimes true a [([], c)] = .ok (a.map fun p => (p.1, p.2 * c)) := by
  have hsort : ∀ k : Mono, k.length ≤ 1 → sortNames (k ++ []) = k := by
    intro k h
    match k, h with
    | [], _ => rfl
    | [x], _ => rfl
  suffices ∀ acc : Dict, KeysNodup (acc ++ a) →
      dictTimesAux true a [([], c)] acc = .ok (acc ++ a.map fun p => (p.1, p.2 * c)) by
    simpa [dictTimes] using this [] (by simpa using hn)
  clear hn
  induction a with
  | nil => intro acc _; simp [dictTimesAux]
  | cons p a ih =>
    intro acc hn
    obtain ⟨k, v⟩ := p
    have hfresh : k ∉ acc.map (·.1) := by
      unfold KeysNodup at hn
      rw [List.map_append, List.nodup_append] at hn
      intro hm
      exact hn.2.2 k hm k (by simp) rfl
    have hs := hsort k (hk (k, v) (by simp))
    simp only [dictTimesAux, dictTimesRow, ne_eq, not_true_eq_false, false_and, and_false, if_false, hs,
      dictAdd_fresh hfresh]
    rw [ih (fun p hp => hk p (by simp [hp])) (acc ++ [(k, v * c)])]
    · simp
    · unfold KeysNodup at hn ⊢
      simpa using hn

theorem dictAdd_scale (d : Dict) (k : Mono) (v c : ℚ) :
    dictAdd (d.map fun p => (p.1, p.2 * c)) k (v * c) = (dictAdd d k v).map fun p => (p.1, p.2 * c) := by
  induction d with
  | nil => rfl
  | cons p d ih =>
    obtain ⟨k', w⟩ := p
    by_cases h : k' = k
    · simp [dictAdd, h, add_mul]
    · simp [dictAdd, h, ih]

theorem dictPlus_scale (d e : Dict) (c : ℚ) :
    dictPlus (d.map fun p => (p.1, p.2 * c)) (e.map fun p => (p.1, p.2 * c)) =
      (dictPlus d e).map fun p => (p.1, p.2 * c) := by
  unfold dictPlus
  induction e generalizing d with
  | nil => rfl
  | cons p e ih =>
    simp only [List.map_cons, List.foldl_cons]
    rw [dictAdd_scale, ih]

theorem firstFactor_scale (d : Dict) {c : ℚ} (hc : c ≠ 0) (ks : List Mono) :
    firstFactor (d.map fun p => (p.1, p.2 * c)) ks = (firstFactor d ks).map (· * |c|) := by
  induction ks with
  | nil => rfl
  | cons k ks ih =>
    simp only [firstFactor]
    rw [lookup_mapVal d (fun x => x * c)]
    cases d.lookup k with
    | none => simpa using ih
    | some v =>
      simp only [Option.map_some]
      by_cases h : v = 0
      · simp [h, ih]
      · simp [h, hc, abs_mul]

theorem lteDict_scale (l r : Dict) {c : ℚ} (hc : c ≠ 0) :
    linMk (lteDict (l.map fun p => (p.1, p.2 * c)) (r.map fun p => (p.1, p.2 * c))) =
      (linMk (lteDict l r)).map fun p => (p.1, p.2 * (c / |c|)) := by
  have hneg : dictNeg (r.map fun p => (p.1, p.2 * c)) = (dictNeg r).map fun p => (p.1, p.2 * c) := by
    simp [dictNeg, Function.comp_def]
  have hff := firstFactor_scale (dictPlus l (dictNeg r)) hc (sortedKeys (dictPlus l (dictNeg r)))
  have ha : |c| ≠ 0 := abs_ne_zero.mpr hc
  unfold lteDict
  rw [hneg, dictPlus_scale]
  simp only
  rw [sortedKeys_mapVal _ (fun p => p.2 * c), hff]
  cases hf : firstFactor (dictPlus l (dictNeg r)) (sortedKeys (dictPlus l (dictNeg r))) with
  | none => simp [linMk]
  | some f =>
    have hfpos := firstFactor_pos hf
    simp only [Option.map_some, List.map_map, Function.comp_def, linMk, List.filter_map]
    have hfil : ((dictPlus l (dictNeg r)).filter fun p => decide (p.2 * c / (f * |c|) ≠ 0)) =
        (dictPlus l (dictNeg r)).filter fun p => decide (p.2 / f ≠ 0) := by
      apply List.filter_congr
      intro p _
      simp [hc, ha, hfpos.ne']
    rw [hfil]
    apply List.map_congr_left
    intro p _
    simp only [Prod.mk.injEq, true_and]
    field_simp

/-- **C12**: multiplying both sides of a test by a number `c ≠ 0` gives the same canonical test; the children are
exchanged iff `c` is negative. -/
theorem toCanonical_proportional {l r : Formula} (hl : linTerm l = true) (hr : linTerm r = true) {c : ℚ} (hc : c ≠ 0)
    (simp : Formula → Formula) {t f : ℕ} {d : Decision} {t1 f1 : ℕ}
    (h : toCanonical simp ⟨.le l r, none, false⟩ t f = .ok (d, t1, f1)) :
    toCanonical simp ⟨.le (.times [l, .realC c]) (.times [r, .realC c]), none, false⟩ t f =
      .ok (d, if c < 0 then f1 else t1, if c < 0 then t1 else f1) := by
  obtain ⟨a, ha⟩ := mathDict_lin_ok l hl
  obtain ⟨b, hb⟩ := mathDict_lin_ok r hr
  have sa := mathDict_sound (K := ℚ) true l (lin_wt hl) (.inl rfl) a ha
  have sb := mathDict_sound (K := ℚ) true r (lin_wt hr) (.inl rfl) b hb
  have hscale : ∀ {x : Formula} {y : Dict}, mathDict true x = .ok y → KeysNodup y → (∀ p ∈ y, p.1.length ≤ 1) →
      mathDict true (.times [x, .realC c]) = .ok (y.map fun p => (p.1, p.2 * c)) := by
    intro x y hx hy hky
    rw [mathDict_times]
    simp [mapE, hx, mathDict_real, reduceTimes, timesFold, dictTimes_scale hy hky]
  have hq : linFromSmt (.le l r) = .ok (linMk (lteDict a b)) := by
    unfold linFromSmt; rw [mathDict_le, ha, hb]
  have hq2 : linFromSmt (.le (.times [l, .realC c]) (.times [r, .realC c])) =
      .ok ((linMk (lteDict a b)).map fun p => (p.1, p.2 * (c / |c|))) := by
    unfold linFromSmt
    rw [mathDict_le, hscale ha sa.nodup (fun p hp => (sa.keys p hp).2.1 rfl),
      hscale hb sb.nodup (fun p hp => (sb.keys p hp).2.1 rfl)]
    simp only [lteDict_scale a b hc]
  obtain ⟨-, -, -, -, hn, hz⟩ := linFromSmt_cmp (K := ℚ) (lin_wt hl) (lin_wt hr) (.inl rfl) hq
  set q := linMk (lteDict a b) with hqd
  have hqne : q ≠ [] := by
    intro h0
    rw [h0] at hq
    simp [toCanonical, isBoolTest, hq, canonDict, sortedKeys] at h
  set s : ℚ := c / |c| with hs
  have hs0 : s ≠ 0 := div_ne_zero hc (abs_ne_zero.mpr hc)
  have hn' : KeysNodup (q.map fun p => (p.1, p.2 * s)) := hn.mapVal _
  have hz' : ∀ p ∈ q.map fun p => (p.1, p.2 * s), p.2 ≠ 0 := by
    intro p hp; obtain ⟨r, hr, rfl⟩ := List.mem_map.mp hp; exact mul_ne_zero (hz r hr) hs0
  obtain ⟨cf, hcf, -, hcan⟩ := toCanonical_lin (K := ℚ) (simp := simp) (g := .le l r) rfl hq hn hz hqne t f
  obtain ⟨cf2, hcf2, -, hcan2⟩ := toCanonical_lin (K := ℚ) (simp := simp)
    (g := .le (.times [l, .realC c]) (.times [r, .realC c])) rfl hq2 hn' hz' (by simpa using hqne) t f
  have hlead : leadCoef (q.map fun p => (p.1, p.2 * s)) = leadCoef q * s :=
    leadCoef_mapVal q (g := fun x => x * s) (by simp)
  have h0 := leadCoef_ne_zero hn hz hqne
  have hdict : ((q.map fun p => (p.1, p.2 * s)).map fun p : Mono × ℚ => (p.1, p.2 / (leadCoef q * s))) =
      q.map fun p => (p.1, p.2 / leadCoef q) := by
    rw [List.map_map]
    apply List.map_congr_left
    intro p _
    simp only [Function.comp, Prod.mk.injEq, true_and]
    exact mul_div_mul_right _ _ hs0
  rw [hlead, hdict] at hcf2 hcan2
  rw [hcf, Except.ok.injEq] at hcf2
  subst hcf2
  rw [hcan, Except.ok.injEq, Prod.mk.injEq, Prod.mk.injEq] at h
  obtain ⟨rfl, rfl, rfl⟩ := h
  rw [hcan2]
  have hsgn : (leadCoef q * s < 0) ↔ ¬(leadCoef q < 0 ↔ c < 0) := by
    rcases lt_or_gt_of_ne hc with h | h
    · have : s = -1 := by rw [hs, abs_of_neg h, div_neg, div_self hc]
      rw [this]
      rcases lt_or_gt_of_ne h0 with h' | h'
      · simp [h, h', h'.le]
      · simp [h, h', h'.le]
    · have : s = 1 := by rw [hs, abs_of_pos h, div_self hc]
      rw [this]
      rcases lt_or_gt_of_ne h0 with h' | h'
      · simp [h.le, h']
      · simp [h.le, h'.le, not_lt.mpr h.le, not_lt.mpr h'.le]
  by_cases hc1 : c < 0 <;> by_cases hc2 : leadCoef q < 0 <;> simp [hsgn, hc1, hc2]

end

/-! ### The hypotheses are met -/

/-- `2x + 3 <= y`. -/
def sampleTest : Formula := .le (.plus [.times [.sym "x" .real, .realC 2], .realC 3]) (.sym "y" .real)

/-- Constant 3 is the leading coefficient, so the children are kept, and everything is divided by 3. -/
example : toCanonical id ⟨sampleTest, none, false⟩ 7 8 = .ok
    (⟨.lt (.plus [.times [.sym "x" .real, .realC (2/3)], .times [.sym "y" .real, .realC (-1/3)]]) (.realC (-1)),
      some [(["x"], 2/3), ([], 1), (["y"], -1/3)], true⟩, 7, 8) := by decide +kernel

/-- The negative multiple has the same canonical test and exchanged children. -/
example : toCanonical id ⟨.le (.times [.plus [.times [.sym "x" .real, .realC 2], .realC 3], .realC (-5)])
      (.times [.sym "y" .real, .realC (-5)]), none, false⟩ 7 8 = .ok
    (⟨.lt (.plus [.times [.sym "x" .real, .realC (2/3)], .times [.sym "y" .real, .realC (-1/3)]]) (.realC (-1)),
      some [(["x"], 2/3), ([], 1), (["y"], -1/3)], true⟩, 8, 7) := by decide +kernel

example : ∃ d t' f', toCanonical id ⟨sampleTest, none, false⟩ 7 8 = .ok (d, t', f') ∧ d.canonical = true ∧
    ∀ σ : Env ℚ, value σ (.plus [.times [.sym "x" .real, .realC 2], .realC 3]) ≠ value σ (.sym "y" .real) →
      pick σ d.test t' f' = pick σ sampleTest 7 8 :=
  toCanonical_selects (by decide) (by decide) (.inl rfl)
    ⟨⟨fun _ => false, fun _ => 0⟩, by simp [value, valueSum, valueProd]⟩ id 7 8

example (d : Decision) (t f : ℕ) (h : toCanonical id ⟨sampleTest, none, false⟩ 7 8 = .ok (d, t, f)) :
    ∀ t f, ∃ e, toCanonical id ⟨d.test, none, false⟩ t f = .ok (e, t, f) ∧ e.test = d.test :=
  (toCanonical_idempotent (K := ℚ) (by decide) (by decide) (.inl rfl)
    ⟨⟨fun _ => false, fun _ => 0⟩, ⟨fun _ => false, fun n => if n = "x" then 1 else 0⟩, by
      simp [value, valueSum, valueProd]⟩ id h).2

example : toCanonical id ⟨.le (.sym "x" .real) (.sym "x" .real), none, false⟩ 7 8 = .error .indexError :=
  toCanonical_degenerate (by decide) (by decide) (.inl rfl) (fun _ => rfl) id 7 8

end Pywmi
