import Verif.Xadd.Decision
import Verif.Props.Math

set_option linter.unusedSectionVars false
set_option linter.unusedSimpArgs false

/-!
# Reading back a canonical test

`LinearInequality.from_smt(canonical.to_smt())` is the canonical inequality again.
-/

namespace Pywmi
open Formula Prog

/-! ### The order of keys -/

theorem str_trichotomy (x y : String) : x < y ∨ x = y ∨ y < x := by
  by_cases h1 : x < y
  · exact Or.inl h1
  · by_cases h2 : y < x
    · exact Or.inr (Or.inr h2)
    · exact Or.inr (Or.inl (String.le_antisymm (String.not_lt.mp h2) (String.not_lt.mp h1)))

theorem keyLe_refl (a : Mono) : keyLe a a = true := by
  induction a with
  | nil => rfl
  | cons x a ih => simp [keyLe, ih, String.lt_irrefl]

theorem keyLe_total (a b : Mono) : keyLe a b = true ∨ keyLe b a = true := by
  induction a generalizing b with
  | nil => exact Or.inl rfl
  | cons x a ih =>
    cases b with
    | nil => exact Or.inr rfl
    | cons y b =>
      rcases str_trichotomy x y with h | h | h
      · left; simp [keyLe, h]
      · subst h; simpa [keyLe, String.lt_irrefl] using ih b
      · right; simp [keyLe, h]

theorem keyLe_cons {x y : String} {a b : Mono} :
    keyLe (x :: a) (y :: b) = true ↔ x < y ∨ (x = y ∧ keyLe a b = true) := by
  rcases str_trichotomy x y with h | h | h
  · simp [keyLe, h]
  · subst h; simp [keyLe, String.lt_irrefl]
  · have h1 : ¬x < y := String.lt_asymm h
    have h2 : ¬x = y := by rintro rfl; exact String.lt_irrefl _ h
    simp [keyLe, h, h1, h2]

theorem keyLe_trans {a b c : Mono} (h1 : keyLe a b = true) (h2 : keyLe b c = true) : keyLe a c = true := by
  induction a generalizing b c with
  | nil => rfl
  | cons x a ih =>
    cases b with
    | nil => cases h1
    | cons y b =>
      cases c with
      | nil => cases h2
      | cons z c =>
        rw [keyLe_cons] at h1 h2 ⊢
        rcases h1 with h1 | ⟨rfl, h1⟩
        · rcases h2 with h2 | ⟨rfl, h2⟩
          · exact Or.inl (String.lt_trans h1 h2)
          · exact Or.inl h1
        · rcases h2 with h2 | ⟨rfl, h2⟩
          · exact Or.inl h2
          · exact Or.inr ⟨rfl, ih h1 h2⟩

theorem keyLe_antisymm {a b : Mono} (h1 : keyLe a b = true) (h2 : keyLe b a = true) : a = b := by
  induction a generalizing b with
  | nil =>
    cases b with
    | nil => rfl
    | cons y b => cases h2
  | cons x a ih =>
    cases b with
    | nil => cases h1
    | cons y b =>
      rw [keyLe_cons] at h1 h2
      rcases h1 with h1 | ⟨rfl, h1⟩
      · rcases h2 with h2 | ⟨rfl, h2⟩
        · exact absurd h2 (String.lt_asymm h1)
        · exact absurd h1 (String.lt_irrefl _)
      · rcases h2 with h2 | ⟨-, h2⟩
        · exact absurd h2 (String.lt_irrefl _)
        · rw [ih h1 h2]

instance : Std.Total (fun a b : Mono => keyLe a b = true) := ⟨keyLe_total⟩
instance : IsTrans Mono (fun a b => keyLe a b = true) := ⟨fun _ _ _ => keyLe_trans⟩
instance : Std.Antisymm (fun a b : Mono => keyLe a b = true) := ⟨fun _ _ => keyLe_antisymm⟩

theorem sortedKeys_pairwise (d : Dict) : (sortedKeys d).Pairwise fun a b => keyLe a b = true :=
  List.pairwise_insertionSort _ _

theorem sortedKeys_perm (d : Dict) : (sortedKeys d).Perm (d.map (·.1)) := List.perm_insertionSort _ _

/-- The smallest key of a dictionary with a constant is the constant key. -/
theorem sortedKeys_const {d : Dict} (h : [] ∈ d.map (·.1)) : ∃ ks, sortedKeys d = [] :: ks := by
  have hm : [] ∈ sortedKeys d := mem_sortedKeys.mpr h
  have hp := sortedKeys_pairwise d
  cases hs : sortedKeys d with
  | nil => rw [hs] at hm; cases hm
  | cons k ks =>
    rw [hs] at hm hp
    rcases List.mem_cons.mp hm with rfl | hm
    · exact ⟨ks, rfl⟩
    · have := (List.pairwise_cons.mp hp).1 [] hm
      cases k with
      | nil => exact ⟨ks, rfl⟩
      | cons x k => cases this

theorem sortedKeys_of_perm {d e : Dict} (h : (d.map (·.1)).Perm (e.map (·.1))) : sortedKeys d = sortedKeys e :=
  List.Perm.eq_of_pairwise' (r := fun a b => keyLe a b = true) (sortedKeys_pairwise d) (sortedKeys_pairwise e)
    (((sortedKeys_perm d).trans h).trans (sortedKeys_perm e).symm)

theorem sortedKeys_append_const (d : Dict) (c : ℚ) : sortedKeys (d ++ [([], c)]) = [] :: sortedKeys d := by
  refine List.Perm.eq_of_pairwise' (r := fun a b => keyLe a b = true) (sortedKeys_pairwise _) ?_ ?_
  · exact List.pairwise_cons.mpr ⟨fun _ _ => rfl, sortedKeys_pairwise d⟩
  · refine (sortedKeys_perm _).trans ?_
    have h1 : ((d ++ [(([] : Mono), c)]).map Prod.fst).Perm ([] :: d.map Prod.fst) := by simp
    exact h1.trans ((sortedKeys_perm d).symm.cons [])

/-! ### Reading back -/

theorem mathDict_linTermSmt {n : String} {v : ℚ} {t : Formula} (h : linTermSmt ([n], v) = .ok t) :
    mathDict true t = .ok [([n], v)] := by
  simp only [linTermSmt, List.map_cons, List.map_nil, mkTimes, Except.ok.injEq] at h
  subst h
  by_cases hv : v = 1
  · subst hv; rw [if_neg (by simp), mathDict_sym]
  · rw [if_pos hv, mathDict_times]
    simp [mapE, mathDict_sym, mathDict_real, reduceTimes, timesFold, dictTimes, dictTimesAux, dictTimesRow, dictAdd,
      sortNames]

theorem dictAdd_fresh {d : Dict} {k : Mono} (h : k ∉ d.map (·.1)) (v : ℚ) : dictAdd d k v = d ++ [(k, v)] := by
  induction d with
  | nil => rfl
  | cons p d ih =>
    obtain ⟨k', w⟩ := p
    simp only [List.map_cons, List.mem_cons, not_or] at h
    simp [dictAdd, Ne.symm h.1, ih h.2]

theorem foldl_single {e : Dict} : ∀ {d : Dict}, KeysNodup (d ++ e) →
    (e.map fun p => [p]).foldl dictPlus d = d ++ e := by
  induction e with
  | nil => intro d _; simp
  | cons p e ih =>
    intro d hn
    obtain ⟨k, v⟩ := p
    have hk : k ∉ d.map (·.1) := by
      unfold KeysNodup at hn
      rw [List.map_append, List.nodup_append] at hn
      intro hm
      exact hn.2.2 k hm k (by simp) rfl
    have h1 : dictPlus d [(k, v)] = d ++ [(k, v)] := by simp [dictPlus, dictAdd_fresh hk]
    rw [List.map_cons, List.foldl_cons, h1, ih (by simpa using hn)]
    simp

theorem mapE_linTermSmt {e : Dict} {ts : List Formula} (hk : ∀ p ∈ e, p.1 ≠ [] ∧ p.1.length ≤ 1)
    (h : mapE linTermSmt e = .ok ts) : mapE (mathDict true) ts = .ok (e.map fun p => [p]) := by
  induction e generalizing ts with
  | nil => simp [mapE] at h; subst h; rfl
  | cons p e ih =>
    obtain ⟨k, v⟩ := p
    cases h1 : linTermSmt (k, v) with
    | error err => simp [mapE, h1] at h
    | ok t =>
      cases h2 : mapE linTermSmt e with
      | error err => simp [mapE, h1, h2] at h
      | ok ts' =>
        simp [mapE, h1, h2] at h
        subst h
        obtain ⟨n, rfl⟩ : ∃ n, k = [n] := by
          have := hk (k, v) (by simp)
          match k, this with
          | [n], _ => exact ⟨n, rfl⟩
        simp [mapE, mathDict_linTermSmt h1, ih (fun p hp => hk p (by simp [hp])) h2]

theorem mapE_length {I R : Type} {g : I → Except PyErr R} {as : List I} {rs : List R} (h : mapE g as = .ok rs) :
    rs.length = as.length := (mapE_inv h).length_eq.symm

theorem mathDict_mkPlus {e : Dict} {ts : List Formula} {s : Formula} (hk : ∀ p ∈ e, p.1 ≠ [] ∧ p.1.length ≤ 1)
    (hn : KeysNodup e) (h : mapE linTermSmt e = .ok ts) (hs : mkPlus ts = .ok s) : mathDict true s = .ok e := by
  have hm := mapE_linTermSmt hk h
  have hsum : reducePlus (e.map fun p => [p]) = .ok e := by
    cases e with
    | nil =>
      simp [mapE] at h; subst h; cases hs
    | cons p e =>
      have := foldl_single (d := [p]) (e := e) (by simpa using hn)
      simpa [reducePlus] using this
  unfold mkPlus at hs
  split at hs
  · cases hs
  · rename_i a
    simp at hs; subst hs
    cases e with
    | nil => simp [mapE] at h
    | cons p e =>
      have hl := mapE_length h
      cases e with
      | nil =>
        simp only [mapE] at hm
        cases ha : mathDict true a with
        | error er => simp [ha] at hm
        | ok d => simpa [ha] using hm
      | cons q e => simp at hl
  · simp at hs; subst hs
    rw [mathDict_plus, hm]
    exact hsum

theorem linCoef_filter {q : Dict} {n : String} : linCoef (q.filter fun p => p.1 ≠ []) [n] = linCoef q [n] := by
  induction q with
  | nil => rfl
  | cons p q ih =>
    obtain ⟨k, v⟩ := p
    by_cases hk : k = []
    · subst hk
      rw [List.filter_cons_of_neg (by simp), ih, linCoef_cons, if_neg (by simp)]
    · rw [List.filter_cons_of_pos (by simpa using hk), linCoef_cons, linCoef_cons, ih]

/-- The dictionary with its constant moved to the end. -/
def constLast (q : Dict) : Dict :=
  (q.filter fun p => p.1 ≠ []) ++ if linCoef q [] = 0 then [] else [([], linCoef q [])]

theorem constLast_perm {q : Dict} (hn : KeysNodup q) (hz : ∀ p ∈ q, p.2 ≠ 0) : (constLast q).Perm q := by
  induction q with
  | nil => simp [constLast, linCoef]
  | cons p q ih =>
    obtain ⟨k, v⟩ := p
    simp only [KeysNodup, List.map_cons, List.nodup_cons] at hn
    have ih' := ih hn.2 fun r hr => hz r (by simp [hr])
    unfold constLast at ih' ⊢
    by_cases hk : k = []
    · subst hk
      have h0 := linCoef_not_mem hn.1
      rw [h0, if_pos rfl, List.append_nil] at ih'
      rw [List.filter_cons_of_neg (by simp), linCoef_cons, if_pos rfl, if_neg (hz ([], v) (by simp))]
      exact (List.perm_append_singleton _ _).trans (ih'.cons _)
    · rw [List.filter_cons_of_pos (by simpa using hk), linCoef_cons, if_neg (Ne.symm hk)]
      exact ih'.cons _

theorem constLast_keys {q : Dict} (hn : KeysNodup q) (hz : ∀ p ∈ q, p.2 ≠ 0) : KeysNodup (constLast q) :=
  ((constLast_perm hn hz).map _).nodup_iff.mpr hn

theorem linCoef_perm {q r : Dict} (h : q.Perm r) (hq : KeysNodup q) (hr : KeysNodup r) (k : Mono) :
    linCoef q k = linCoef r k := by
  unfold linCoef
  cases hl : q.lookup k with
  | some v => rw [lookup_of_mem hr (h.mem_iff.mp (mem_of_lookup hl))]
  | none =>
    cases hl2 : r.lookup k with
    | none => rfl
    | some v => rw [lookup_of_mem hq (h.mem_iff.mpr (mem_of_lookup hl2))] at hl; cases hl

theorem leadCoef_perm {q r : Dict} (h : q.Perm r) (hq : KeysNodup q) (hr : KeysNodup r) :
    leadCoef q = leadCoef r := by
  unfold leadCoef
  rw [sortedKeys_of_perm (h.map _)]
  cases sortedKeys r with
  | nil => rfl
  | cons k ks => exact linCoef_perm h hq hr k

theorem linToSmt_constLast {q : Dict} (hn : KeysNodup q) (hz : ∀ p ∈ q, p.2 ≠ 0) (hv : ∃ p ∈ q, p.1 ≠ []) :
    linToSmt (constLast q) = linToSmt q := by
  have hp := constLast_perm hn hz
  have hc := linCoef_perm hp (constLast_keys hn hz) hn
  have hnot : ∀ r : Dict, (∃ p ∈ r, p.1 ≠ []) → ¬(r.length = 1 ∧ (r.lookup []).isSome) := by
    rintro r ⟨p, hp, hk⟩ ⟨h1, h2⟩
    obtain ⟨x, rfl⟩ := List.length_eq_one_iff.mp h1
    have : p = x := by simpa using hp
    subst this
    obtain ⟨k, v⟩ := p
    rw [List.lookup_cons] at h2
    simp [beq_eq_false_iff_ne.mpr (Ne.symm hk)] at h2
  have hv' : ∃ p ∈ constLast q, p.1 ≠ [] := by
    obtain ⟨p, h1, h2⟩ := hv; exact ⟨p, hp.mem_iff.mpr h1, h2⟩
  have hlen : q.length ≠ 0 := by
    obtain ⟨p, h1, -⟩ := hv; intro h; rw [List.length_eq_zero_iff] at h; subst h; cases h1
  unfold linToSmt
  rw [if_neg hlen, if_neg (hp.length_eq ▸ hlen), if_neg (hnot q hv), if_neg (hnot _ hv'), hc]
  have hf : ((constLast q).filter fun p => p.1 ≠ []) = q.filter fun p => p.1 ≠ [] := by
    unfold constLast
    rw [List.filter_append, List.filter_filter]
    split <;> simp
  rw [hf]

theorem linFromSmt_linToSmt {q : Dict} (h : CanonLin q) {g : Formula} (hg : linToSmt q = .ok g) :
    linFromSmt g = .ok (constLast q) := by
  obtain ⟨hn, hz, hl, hlead, hv⟩ := h
  have hlen : q.length ≠ 0 := by
    obtain ⟨p, h1, -⟩ := hv; intro h; rw [List.length_eq_zero_iff] at h; subst h; cases h1
  have hnot : ¬(q.length = 1 ∧ (q.lookup []).isSome) := by
    obtain ⟨p, hp, hk⟩ := hv
    rintro ⟨h1, h2⟩
    obtain ⟨x, rfl⟩ := List.length_eq_one_iff.mp h1
    have : p = x := by simpa using hp
    subst this
    obtain ⟨k, v⟩ := p
    rw [List.lookup_cons] at h2
    simp [beq_eq_false_iff_ne.mpr (Ne.symm hk)] at h2
  unfold linToSmt at hg
  rw [if_neg hlen, if_neg hnot] at hg
  cases h1 : mapE linTermSmt (q.filter fun p => p.1 ≠ []) with
  | error e => rw [h1] at hg; cases hg
  | ok ts =>
    rw [h1] at hg
    cases h2 : mkPlus ts with
    | error e => simp only [h2] at hg; cases hg
    | ok s =>
      simp only [h2, Except.ok.injEq] at hg
      subst hg
      have hm : mathDict true s = .ok (q.filter fun p => p.1 ≠ []) :=
        mathDict_mkPlus (fun p hp => by
          rw [List.mem_filter] at hp; exact ⟨by simpa using hp.2, hl p hp.1⟩) (hn.filter _) h1 h2
      unfold linFromSmt
      rw [mathDict_lt, hm, mathDict_real]
      simp only
      congr 1
      have hplus : dictPlus (q.filter fun p : Mono × ℚ => p.1 ≠ []) (dictNeg [([], -linCoef q [])]) =
          (q.filter fun p : Mono × ℚ => p.1 ≠ []) ++ [([], linCoef q [])] := by
        simp only [dictPlus, dictNeg, List.map_cons, List.map_nil, List.foldl_cons, List.foldl_nil, neg_neg]
        rw [dictAdd_fresh]
        simp
      have hff : firstFactor ((q.filter fun p : Mono × ℚ => p.1 ≠ []) ++ [([], linCoef q [])])
          (sortedKeys ((q.filter fun p : Mono × ℚ => p.1 ≠ []) ++ [([], linCoef q [])])) = some 1 := by
        have hlk : ((q.filter fun p : Mono × ℚ => p.1 ≠ []) ++ [([], linCoef q [])]).lookup [] = some (linCoef q []) := by
          apply lookup_of_mem
          · unfold KeysNodup
            rw [List.map_append, List.nodup_append]
            refine ⟨hn.filter _, by simp, ?_⟩
            intro a ha b hb
            obtain ⟨p, hp, rfl⟩ := List.mem_map.mp ha
            simp only [List.map_cons, List.map_nil, List.mem_singleton] at hb
            subst hb
            rw [List.mem_filter] at hp; simpa using hp.2
          · simp
        rw [sortedKeys_append_const]
        simp only [firstFactor, hlk]
        by_cases hc : linCoef q [] = 0
        · rw [if_neg (by simpa using hc)]
          have hq : (q.filter fun p => p.1 ≠ []) = q := by
            rw [List.filter_eq_self]
            intro p hp
            have : p.1 ≠ [] := by
              intro h0
              have hm' : [] ∈ q.map (·.1) := List.mem_map.mpr ⟨p, hp, h0⟩
              exact linCoef_ne_zero hn hz hm' hc
            simpa using this
          rw [hq]
          have hne : q ≠ [] := by rintro rfl; exact hlen rfl
          obtain ⟨k, ks, hs⟩ := sortedKeys_ne_nil hne
          have hlk1 : linCoef q k = 1 := by unfold leadCoef at hlead; rw [hs] at hlead; exact hlead
          have hkm : k ∈ q.map (·.1) := mem_sortedKeys.mp (by rw [hs]; simp)
          obtain ⟨p, hp, rfl⟩ := List.mem_map.mp hkm
          have hlk2 : q.lookup p.1 = some p.2 := lookup_of_mem hn hp
          have hv1 : p.2 = 1 := by rw [linCoef, hlk2] at hlk1; exact hlk1
          rw [hs]
          have hlk3 : (q ++ [([], linCoef q [])]).lookup p.1 = some p.2 := by
            rw [List.lookup_append, hlk2]; rfl
          simp only [firstFactor, hlk3, hv1]
          norm_num
        · rw [if_pos hc]
          have hm' : [] ∈ q.map (·.1) := by
            by_contra hno; exact hc (linCoef_not_mem hno)
          obtain ⟨ks, hs⟩ := sortedKeys_const hm'
          unfold leadCoef at hlead
          rw [hs] at hlead
          simp only at hlead
          rw [hlead]; norm_num
      have hfac := lteDict_some (l := q.filter fun p => p.1 ≠ []) (r := [([], -linCoef q [])]) (f := 1)
        (by rw [hplus]; exact hff)
      rw [hfac, hplus]
      simp only [div_one]
      unfold linMk constLast
      have hid : (((q.filter fun p : Mono × ℚ => p.1 ≠ []) ++ [([], linCoef q [])]).map fun p : Mono × ℚ => (p.1, p.2)) =
          (q.filter fun p : Mono × ℚ => p.1 ≠ []) ++ [([], linCoef q [])] := by
        simp
      rw [hid, List.filter_append]
      congr 1
      · rw [List.filter_eq_self]
        intro p hp
        rw [List.mem_filter] at hp
        simpa using hz p hp.1
      · by_cases hc : linCoef q [] = 0 <;> simp [hc]

end Pywmi
