import Verif.Math.Poly
import Verif.Smt.Sound

/-!
# Facts about polynomial dictionaries

Helper lemmas (not property statements): every dictionary operation commutes with `polyEval`, keeps keys
distinct, and keeps keys sorted.
-/

set_option linter.unusedSectionVars false
set_option linter.unusedSimpArgs false

namespace Pywmi
open Formula Prog

section eval
variable {K : Type} [Field K] [LinearOrder K] [IsStrictOrderedRing K]

theorem monoEval_perm (ρ : String → K) {m n : Mono} (h : m.Perm n) : monoEval ρ m = monoEval ρ n := by
  unfold monoEval; exact (h.map ρ).prod_eq
theorem monoEval_sort (ρ : String → K) (m : Mono) : monoEval ρ (sortNames m) = monoEval ρ m :=
  monoEval_perm ρ (List.perm_insertionSort _ m)
@[simp] theorem monoEval_nil (ρ : String → K) : monoEval ρ [] = 1 := rfl
theorem monoEval_append (ρ : String → K) (m n : Mono) : monoEval ρ (m ++ n) = monoEval ρ m * monoEval ρ n := by
  simp [monoEval]
@[simp] theorem monoEval_single (ρ : String → K) (x : String) : monoEval ρ [x] = ρ x := by simp [monoEval]

@[simp] theorem polyEval_nil (ρ : String → K) : polyEval ρ [] = 0 := rfl
@[simp] theorem polyEval_cons (ρ : String → K) (p : Mono × ℚ) (d : Dict) :
    polyEval ρ (p :: d) = (p.2 : K) * monoEval ρ p.1 + polyEval ρ d := rfl
theorem polyEval_append (ρ : String → K) (a b : Dict) : polyEval ρ (a ++ b) = polyEval ρ a + polyEval ρ b := by
  simp [polyEval]

theorem polyEval_dictAdd (ρ : String → K) (d : Dict) (k : Mono) (v : ℚ) :
    polyEval ρ (dictAdd d k v) = polyEval ρ d + (v : K) * monoEval ρ k := by
  induction d with
  | nil => simp [dictAdd]
  | cons p d ih =>
    obtain ⟨k', w⟩ := p
    simp only [dictAdd]
    split
    · rename_i h; subst h; simp; ring
    · simp [ih]; ring

theorem polyEval_dictPlus (ρ : String → K) (d1 d2 : Dict) :
    polyEval ρ (dictPlus d1 d2) = polyEval ρ d1 + polyEval ρ d2 := by
  unfold dictPlus
  induction d2 generalizing d1 with
  | nil => simp
  | cons p d ih => simp only [List.foldl_cons, ih, polyEval_dictAdd, polyEval_cons]; ring

theorem polyEval_dictNeg (ρ : String → K) (d : Dict) : polyEval ρ (dictNeg d) = -polyEval ρ d := by
  induction d with
  | nil => simp [dictNeg]
  | cons p d ih =>
    have : dictNeg (p :: d) = (p.1, -p.2) :: dictNeg d := rfl
    rw [this, polyEval_cons, ih, polyEval_cons]; push_cast; ring

theorem polyEval_scale (ρ : String → K) (d : Dict) (c : ℚ) :
    polyEval ρ (d.map fun p => (p.1, p.2 * c)) = polyEval ρ d * (c : K) := by
  induction d with
  | nil => simp
  | cons p d ih => rw [List.map_cons, polyEval_cons, ih, polyEval_cons]; push_cast; ring

theorem polyEval_filter (ρ : String → K) (d : Dict) :
    polyEval ρ (d.filter fun p => p.2 ≠ 0) = polyEval ρ d := by
  induction d with
  | nil => rfl
  | cons p d ih =>
    simp only [List.filter_cons]
    split
    · rw [polyEval_cons, ih, polyEval_cons]
    · rename_i h
      have : p.2 = 0 := by simpa using h
      rw [ih, polyEval_cons, this]; simp

theorem polyEval_linMk (ρ : String → K) (d : Dict) : polyEval ρ (linMk d) = polyEval ρ d :=
  polyEval_filter ρ d

theorem polyEval_timesRow {fl : Bool} {k1 : Mono} {v1 : ℚ} (ρ : String → K) :
    ∀ {d2 acc out : Dict}, dictTimesRow fl k1 v1 d2 acc = .ok out →
      polyEval ρ out = polyEval ρ acc + (v1 : K) * monoEval ρ k1 * polyEval ρ d2 := by
  intro d2
  induction d2 with
  | nil => intro acc out h; simp [dictTimesRow] at h; subst h; simp
  | cons p d2 ih =>
    intro acc out h
    obtain ⟨k2, v2⟩ := p
    simp only [dictTimesRow] at h
    split at h
    · cases h
    · rw [ih h, polyEval_dictAdd, monoEval_sort, monoEval_append]
      simp; ring

theorem polyEval_timesAux {fl : Bool} (ρ : String → K) {d2 : Dict} :
    ∀ {d1 acc out : Dict}, dictTimesAux fl d1 d2 acc = .ok out →
      polyEval ρ out = polyEval ρ acc + polyEval ρ d1 * polyEval ρ d2 := by
  intro d1
  induction d1 with
  | nil => intro acc out h; simp [dictTimesAux] at h; subst h; simp
  | cons p d1 ih =>
    intro acc out h
    obtain ⟨k1, v1⟩ := p
    simp only [dictTimesAux] at h
    split at h
    · rename_i acc' h'
      rw [ih h, polyEval_timesRow ρ h']
      simp; ring
    · cases h

theorem polyEval_dictTimes {fl : Bool} (ρ : String → K) {d1 d2 out : Dict} (h : dictTimes fl d1 d2 = .ok out) :
    polyEval ρ out = polyEval ρ d1 * polyEval ρ d2 := by
  rw [polyEval_timesAux ρ h]; simp

theorem polyEval_foldlPlus (ρ : String → K) (ds : List Dict) (d : Dict) :
    polyEval ρ (ds.foldl dictPlus d) = polyEval ρ d + (ds.map (polyEval ρ)).sum := by
  induction ds generalizing d with
  | nil => simp
  | cons a ds ih => simp only [List.foldl_cons, ih, polyEval_dictPlus, List.map_cons, List.sum_cons]; ring

theorem polyEval_reducePlus (ρ : String → K) {ds : List Dict} {out : Dict} (h : reducePlus ds = .ok out) :
    polyEval ρ out = (ds.map (polyEval ρ)).sum := by
  cases ds with
  | nil => cases h
  | cons d ds =>
    simp only [reducePlus, Except.ok.injEq] at h
    subst h
    rw [polyEval_foldlPlus]; simp

theorem polyEval_timesFold {fl : Bool} (ρ : String → K) : ∀ {ds : List Dict} {acc out : Dict},
    timesFold fl acc ds = .ok out → polyEval ρ out = polyEval ρ acc * (ds.map (polyEval ρ)).prod := by
  intro ds
  induction ds with
  | nil => intro acc out h; simp [timesFold] at h; subst h; simp
  | cons d ds ih =>
    intro acc out h
    simp only [timesFold] at h
    split at h
    · rename_i acc' h'
      rw [ih h, polyEval_dictTimes ρ h']; simp; ring
    · cases h

theorem polyEval_reduceTimes {fl : Bool} (ρ : String → K) {ds : List Dict} {out : Dict}
    (h : reduceTimes fl ds = .ok out) : polyEval ρ out = (ds.map (polyEval ρ)).prod := by
  cases ds with
  | nil => cases h
  | cons d ds => rw [polyEval_timesFold ρ h]; simp

theorem polyEval_powLoop {fl : Bool} (ρ : String → K) {base : Dict} : ∀ {n : ℕ} {acc out : Dict},
    powLoop fl base n acc = .ok out → polyEval ρ out = polyEval ρ acc * polyEval ρ base ^ n := by
  intro n
  induction n with
  | zero => intro acc out h; simp [powLoop] at h; subst h; simp
  | succ n ih =>
    intro acc out h
    simp only [powLoop] at h
    split at h
    · rename_i acc' h'
      rw [ih h, polyEval_dictTimes ρ h']; ring
    · cases h

end eval

/-! ### Success of the operations -/

theorem dictTimesRow_false (k1 : Mono) (v1 : ℚ) (d2 acc : Dict) :
    ∃ out, dictTimesRow false k1 v1 d2 acc = .ok out := by
  induction d2 generalizing acc with
  | nil => exact ⟨_, rfl⟩
  | cons p d2 ih => simpa [dictTimesRow] using ih _

theorem dictTimes_false (d1 d2 : Dict) : ∃ out, dictTimes false d1 d2 = .ok out := by
  unfold dictTimes
  suffices ∀ acc, ∃ out, dictTimesAux false d1 d2 acc = .ok out from this []
  induction d1 with
  | nil => exact fun acc => ⟨_, rfl⟩
  | cons p d1 ih =>
    intro acc
    obtain ⟨o, ho⟩ := dictTimesRow_false p.1 p.2 d2 acc
    simpa [dictTimesAux, ho] using ih o

theorem timesFold_false (ds : List Dict) : ∀ acc, ∃ out, timesFold false acc ds = .ok out := by
  induction ds with
  | nil => exact fun acc => ⟨_, rfl⟩
  | cons d ds ih =>
    intro acc
    obtain ⟨o, ho⟩ := dictTimes_false acc d
    simpa [timesFold, ho] using ih o

theorem powLoop_false (base : Dict) : ∀ n acc, ∃ out, powLoop false base n acc = .ok out := by
  intro n
  induction n with
  | zero => exact fun acc => ⟨_, rfl⟩
  | succ n ih =>
    intro acc
    obtain ⟨o, ho⟩ := dictTimes_false acc base
    simpa [powLoop, ho] using ih o

/-- In linear mode a product succeeds if one factor has only the constant key. -/
theorem dictTimes_linear {d1 d2 : Dict}
    (h : (∀ p ∈ d1, p.1 = []) ∨ (∀ p ∈ d2, p.1 = [])) : ∃ out, dictTimes true d1 d2 = .ok out := by
  have hrow : ∀ (k1 : Mono) (v1 : ℚ) (d : Dict), (k1 = [] ∨ ∀ p ∈ d, p.1 = []) → ∀ acc : Dict,
      ∃ out, dictTimesRow true k1 v1 d acc = .ok out := by
    intro k1 v1 d hk
    induction d with
    | nil => exact fun acc => ⟨_, rfl⟩
    | cons p d ih =>
      intro acc
      obtain ⟨k2, v2⟩ := p
      have hno : ¬(k1 ≠ [] ∧ k2 ≠ [] ∧ true = true) := by
        rintro ⟨h1, h2, _⟩
        rcases hk with hk | hk
        · exact h1 hk
        · exact h2 (hk (k2, v2) (by simp))
      rw [dictTimesRow, if_neg hno]
      exact ih (hk.imp id fun hk p hp => hk p (by simp [hp])) _
  unfold dictTimes
  suffices ∀ acc, ∃ out, dictTimesAux true d1 d2 acc = .ok out from this []
  induction d1 with
  | nil => exact fun acc => ⟨_, rfl⟩
  | cons p d1 ih =>
    intro acc
    obtain ⟨k1, v1⟩ := p
    obtain ⟨o, ho⟩ := hrow k1 v1 d2 (h.imp (fun h => h (k1, v1) (by simp)) id) acc
    simpa [dictTimesAux, ho] using ih (h.imp (fun h p hp => h p (by simp [hp])) id) o

/-! ### Key invariants -/

/-- The keys of the dictionary satisfy `P`. -/
def KeysIn (P : Mono → Prop) (d : Dict) : Prop := ∀ p ∈ d, P p.1

theorem KeysIn.dictAdd {P : Mono → Prop} {d : Dict} {k : Mono} {v : ℚ} (h : KeysIn P d) (hk : P k) :
    KeysIn P (dictAdd d k v) := by
  induction d with
  | nil => simpa [Pywmi.dictAdd, KeysIn] using hk
  | cons p d ih =>
    obtain ⟨k', w⟩ := p
    have h1 : P k' := h (k', w) (by simp)
    have h2 : KeysIn P d := fun p hp => h p (by simp [hp])
    simp only [Pywmi.dictAdd]
    split
    · intro p hp
      rcases List.mem_cons.mp hp with rfl | hp
      · exact h1
      · exact h2 p hp
    · intro p hp
      rcases List.mem_cons.mp hp with rfl | hp
      · exact h1
      · exact ih h2 p hp

theorem KeysIn.dictPlus {P : Mono → Prop} {d1 d2 : Dict} (h1 : KeysIn P d1) (h2 : KeysIn P d2) :
    KeysIn P (dictPlus d1 d2) := by
  unfold Pywmi.dictPlus
  induction d2 generalizing d1 with
  | nil => exact h1
  | cons p d ih =>
    exact ih (h1.dictAdd (h2 p (by simp))) fun q hq => h2 q (by simp [hq])

theorem KeysIn.dictNeg {P : Mono → Prop} {d : Dict} (h : KeysIn P d) : KeysIn P (dictNeg d) := by
  intro p hp
  simp only [Pywmi.dictNeg, List.mem_map] at hp
  obtain ⟨q, hq, rfl⟩ := hp
  exact h q hq

theorem KeysIn.filter {P : Mono → Prop} {d : Dict} (h : KeysIn P d) (f : Mono × ℚ → Bool) :
    KeysIn P (d.filter f) := fun p hp => h p (List.mem_of_mem_filter hp)

theorem KeysIn.mapVal {P : Mono → Prop} {d : Dict} (h : KeysIn P d) (f : Mono × ℚ → ℚ) :
    KeysIn P (d.map fun p => (p.1, f p)) := by
  intro p hp
  simp only [List.mem_map] at hp
  obtain ⟨q, hq, rfl⟩ := hp
  exact h q hq

theorem dictTimesRow_keys {P P1 P2 : Mono → Prop} {fl : Bool}
    (hP : ∀ k1 k2, P1 k1 → P2 k2 → ¬(k1 ≠ [] ∧ k2 ≠ [] ∧ fl = true) → P (sortNames (k1 ++ k2)))
    {k1 : Mono} {v1 : ℚ} (hk : P1 k1) : ∀ {d2 acc out : Dict}, KeysIn P2 d2 → KeysIn P acc →
      dictTimesRow fl k1 v1 d2 acc = .ok out → KeysIn P out := by
  intro d2
  induction d2 with
  | nil => intro acc out _ ha h; simp [dictTimesRow] at h; subst h; exact ha
  | cons p d2 ih =>
    intro acc out h2 ha h
    obtain ⟨k2, v2⟩ := p
    simp only [dictTimesRow] at h
    split at h
    · cases h
    · rename_i hno
      exact ih (fun q hq => h2 q (by simp [hq])) (ha.dictAdd (hP k1 k2 hk (h2 (k2, v2) (by simp)) hno)) h

theorem dictTimes_keys {P P1 P2 : Mono → Prop} {fl : Bool}
    (hP : ∀ k1 k2, P1 k1 → P2 k2 → ¬(k1 ≠ [] ∧ k2 ≠ [] ∧ fl = true) → P (sortNames (k1 ++ k2)))
    {d1 d2 out : Dict} (h1 : KeysIn P1 d1) (h2 : KeysIn P2 d2) (h : dictTimes fl d1 d2 = .ok out) :
    KeysIn P out := by
  unfold dictTimes at h
  suffices H : ∀ (d1 : Dict) acc, KeysIn P1 d1 → KeysIn P acc → dictTimesAux fl d1 d2 acc = .ok out →
      KeysIn P out from H d1 [] h1 (fun p hp => by cases hp) h
  clear h h1 d1
  intro d1
  induction d1 with
  | nil => intro acc _ ha h; simp [dictTimesAux] at h; subst h; exact ha
  | cons p d1 ih =>
    intro acc h1 ha h
    obtain ⟨k1, v1⟩ := p
    simp only [dictTimesAux] at h
    split at h
    · rename_i acc' h'
      exact ih acc' (fun q hq => h1 q (by simp [hq]))
        (dictTimesRow_keys hP (h1 (k1, v1) (by simp)) h2 ha h') h
    · cases h

/-- Distinct keys. -/
def KeysNodup (d : Dict) : Prop := (d.map (·.1)).Nodup

theorem dictAdd_keys_mem {d : Dict} {k : Mono} {v : ℚ} {x : Mono} :
    x ∈ (dictAdd d k v).map (·.1) ↔ x ∈ d.map (·.1) ∨ x = k := by
  induction d with
  | nil => simp [dictAdd]
  | cons p d ih =>
    obtain ⟨k', w⟩ := p
    simp only [dictAdd]
    split
    · rename_i h; subst h
      simp only [List.map_cons, List.mem_cons]
      constructor
      · exact Or.inl
      · rintro (h | rfl)
        · exact h
        · exact Or.inl rfl
    · simp only [List.map_cons, List.mem_cons, ih, or_assoc]

theorem KeysNodup.dictAdd {d : Dict} (h : KeysNodup d) (k : Mono) (v : ℚ) : KeysNodup (dictAdd d k v) := by
  induction d with
  | nil => simp [Pywmi.dictAdd, KeysNodup]
  | cons p d ih =>
    obtain ⟨k', w⟩ := p
    simp only [KeysNodup, List.map_cons, List.nodup_cons] at h ⊢
    simp only [Pywmi.dictAdd]
    split
    · simpa using h
    · rename_i hne
      simp only [List.map_cons, List.nodup_cons]
      refine ⟨?_, ih h.2⟩
      rw [dictAdd_keys_mem]
      rintro (h' | h')
      · exact h.1 h'
      · exact hne h'

theorem KeysNodup.dictPlus {d1 : Dict} (h1 : KeysNodup d1) (d2 : Dict) : KeysNodup (dictPlus d1 d2) := by
  unfold Pywmi.dictPlus
  induction d2 generalizing d1 with
  | nil => exact h1
  | cons p d ih => exact ih (h1.dictAdd _ _)

theorem KeysNodup.mapVal {d : Dict} (h : KeysNodup d) (f : Mono × ℚ → ℚ) :
    KeysNodup (d.map fun p => (p.1, f p)) := by
  simpa [KeysNodup, Function.comp_def] using h

theorem KeysNodup.filter {d : Dict} (h : KeysNodup d) (f : Mono × ℚ → Bool) : KeysNodup (d.filter f) :=
  h.sublist ((List.filter_sublist).map _)

theorem dictTimes_nodup {fl : Bool} {d1 d2 out : Dict} (h : dictTimes fl d1 d2 = .ok out) :
    KeysNodup out := by
  have hrow : ∀ (k1 : Mono) (v1 : ℚ) (d : Dict) acc out, KeysNodup acc →
      dictTimesRow fl k1 v1 d acc = .ok out → KeysNodup out := by
    intro k1 v1 d
    induction d with
    | nil => intro acc out ha h; simp [dictTimesRow] at h; subst h; exact ha
    | cons p d ih =>
      intro acc out ha h
      simp only [dictTimesRow] at h
      split at h
      · cases h
      · exact ih _ _ (ha.dictAdd _ _) h
  unfold dictTimes at h
  suffices H : ∀ (d1 : Dict) acc, KeysNodup acc → dictTimesAux fl d1 d2 acc = .ok out → KeysNodup out from
    H d1 [] (by simp [KeysNodup]) h
  clear h d1
  intro d1
  induction d1 with
  | nil => intro acc ha h; simp [dictTimesAux] at h; subst h; exact ha
  | cons p d1 ih =>
    intro acc ha h
    simp only [dictTimesAux] at h
    split at h
    · rename_i acc' h'; exact ih acc' (hrow _ _ _ _ _ ha h') h
    · cases h

theorem lookup_of_mem {d : Dict} (h : KeysNodup d) {k : Mono} {v : ℚ} (hm : (k, v) ∈ d) :
    d.lookup k = some v := by
  induction d with
  | nil => cases hm
  | cons p d ih =>
    obtain ⟨k', w⟩ := p
    simp only [KeysNodup, List.map_cons, List.nodup_cons] at h
    rcases List.mem_cons.mp hm with heq | hm'
    · cases heq; simp [List.lookup_cons]
    · have hne : k ≠ k' := by
        rintro rfl; exact h.1 (List.mem_map.mpr ⟨(k, v), hm', rfl⟩)
      simp only [List.lookup_cons, beq_eq_false_iff_ne.mpr hne]
      exact ih h.2 hm'

theorem mem_of_lookup {d : Dict} {k : Mono} {v : ℚ} (h : d.lookup k = some v) : (k, v) ∈ d := by
  induction d with
  | nil => cases h
  | cons p d ih =>
    obtain ⟨k', w⟩ := p
    simp only [List.lookup_cons] at h
    split at h
    · rename_i hk
      have : k = k' := by simpa using hk
      subst this
      simp at h; subst h; simp
    · exact List.mem_cons_of_mem _ (ih h)

/-! ### The normalising factor -/

theorem firstFactor_pos {d : Dict} {ks : List Mono} {f : ℚ} (h : firstFactor d ks = some f) : 0 < f := by
  induction ks with
  | nil => cases h
  | cons k ks ih =>
    simp only [firstFactor] at h
    split at h
    · split at h
      · rename_i hv; simp at h; subst h; exact abs_pos.mpr hv
      · exact ih h
    · exact ih h

theorem firstFactor_none {d : Dict} {ks : List Mono} (h : firstFactor d ks = none) :
    ∀ k ∈ ks, ∀ v, d.lookup k = some v → v = 0 := by
  induction ks with
  | nil => intro k hk; cases hk
  | cons k0 ks ih =>
    intro k hk v hv
    simp only [firstFactor] at h
    split at h
    · rename_i w hw
      split at h
      · cases h
      · rename_i hz
        rcases List.mem_cons.mp hk with rfl | hk
        · rw [hw] at hv; cases hv; simpa using hz
        · exact ih h k hk v hv
    · rename_i hw
      rcases List.mem_cons.mp hk with rfl | hk
      · rw [hw] at hv; cases hv
      · exact ih h k hk v hv

theorem polyEval_zero {K : Type} [Field K] [LinearOrder K] [IsStrictOrderedRing K] (ρ : String → K) {d : Dict}
    (h : ∀ p ∈ d, p.2 = 0) : polyEval ρ d = 0 := by
  induction d with
  | nil => rfl
  | cons p d ih =>
    rw [polyEval_cons, ih fun q hq => h q (by simp [hq]), h p (by simp)]; simp

theorem lteDict_none {l r : Dict}
    (h : firstFactor (dictPlus l (dictNeg r)) (sortedKeys (dictPlus l (dictNeg r))) = none) :
    lteDict l r = [([], 0)] := by simp only [lteDict, h]
theorem lteDict_some {l r : Dict} {f : ℚ}
    (h : firstFactor (dictPlus l (dictNeg r)) (sortedKeys (dictPlus l (dictNeg r))) = some f) :
    lteDict l r = (dictPlus l (dictNeg r)).map fun p => (p.1, p.2 / f) := by simp only [lteDict, h]

theorem lteDict_eval {K : Type} [Field K] [LinearOrder K] [IsStrictOrderedRing K] {l r : Dict}
    (hl : KeysNodup l) : ∃ c : ℚ, 0 < c ∧ ∀ ρ : String → K,
      polyEval ρ (lteDict l r) = (polyEval ρ l - polyEval ρ r) * (c : K) := by
  cases h : firstFactor (dictPlus l (dictNeg r)) (sortedKeys (dictPlus l (dictNeg r))) with
  | none =>
    refine ⟨1, one_pos, fun ρ => ?_⟩
    have hz : polyEval ρ (dictPlus l (dictNeg r)) = 0 := by
      apply polyEval_zero
      intro p hp
      apply firstFactor_none h p.1
      · unfold sortedKeys
        rw [List.mem_insertionSort]
        exact List.mem_map.mpr ⟨p, hp, rfl⟩
      · exact lookup_of_mem (hl.dictPlus _) hp
    rw [polyEval_dictPlus, polyEval_dictNeg] at hz
    rw [← sub_eq_add_neg] at hz
    simp only [lteDict_none h]
    simp [hz]
  | some f =>
    have hf := firstFactor_pos h
    refine ⟨f⁻¹, inv_pos.mpr hf, fun ρ => ?_⟩
    have : (dictPlus l (dictNeg r)).map (fun p => (p.1, p.2 / f))
        = (dictPlus l (dictNeg r)).map (fun p => (p.1, p.2 * f⁻¹)) := by simp [div_eq_mul_inv]
    rw [lteDict_some h, this, polyEval_scale, polyEval_dictPlus, polyEval_dictNeg]; ring

theorem lteDict_nodup {l r : Dict} (hl : KeysNodup l) : KeysNodup (lteDict l r) := by
  cases h : firstFactor (dictPlus l (dictNeg r)) (sortedKeys (dictPlus l (dictNeg r))) with
  | none => rw [lteDict_none h]; simp [KeysNodup]
  | some f => rw [lteDict_some h]; exact (hl.dictPlus _).mapVal _

theorem lteDict_keys {P : Mono → Prop} (hP : P []) {l r : Dict} (hl : KeysIn P l) (hr : KeysIn P r) :
    KeysIn P (lteDict l r) := by
  cases h : firstFactor (dictPlus l (dictNeg r)) (sortedKeys (dictPlus l (dictNeg r))) with
  | none => rw [lteDict_none h]; intro p hp; simp at hp; subst hp; exact hP
  | some f => rw [lteDict_some h]; exact (hl.dictPlus hr.dictNeg).mapVal _

/-! ### The converter -/

theorem mathDictW_decr (fl : Bool) : (mathDictW fl).Decr := by
  refine Walker.decr_of ?_ ?_ ?_ ?_ ?_ ?_ ?_ ?_ ?_ ?_ ?_ ?_ ?_ ?_ ?_
  · exact fun _ _ _ => trivial
  · exact fun _ _ _ => trivial
  · exact fun as n h => callsBelow_callAll h fun rs => callsBelow_ofExcept _ _ _
  · exact fun as n h => callsBelow_callAll h fun rs => callsBelow_ofExcept _ _ _
  · exact fun a n h => ⟨h, fun _ => trivial⟩
  · exact fun l r => call2_below (by simp only [msize]; omega) (by simp only [msize]; omega) _
  · exact fun _ _ _ _ _ _ _ => trivial
  · intro b e n hb he
    simp only [mathDictW]
    split
    · split
      · trivial
      · split
        · trivial
        · exact ⟨hb, fun _ => callsBelow_ofExcept _ _ _⟩
    · trivial
  · exact fun l r n hl hr => call2_below hl hr _
  · exact fun l r n hl hr => call2_below hl hr _
  · exact fun _ _ _ _ _ => trivial
  · intro m t n; cases t <;> trivial
  · exact fun _ _ => trivial
  · exact fun _ _ => trivial
  · exact Walker.implies_default_below

theorem mapE_inv {I R : Type} {g : I → Except PyErr R} : ∀ {as : List I} {rs : List R}, mapE g as = .ok rs →
    List.Forall₂ (fun a r => g a = .ok r) as rs := by
  intro as
  induction as with
  | nil => intro rs h; simp [mapE] at h; subst h; exact .nil
  | cons a as ih =>
    intro rs h
    simp only [mapE] at h
    split at h
    · rename_i r hr
      split at h
      · rename_i rs' hrs
        simp at h; subst h
        exact .cons hr (ih hrs)
      · cases h
    · cases h

theorem forall₂_mem_right {α β : Type} {P : α → β → Prop} {as : List α} {bs : List β}
    (h : List.Forall₂ P as bs) : ∀ b ∈ bs, ∃ a ∈ as, P a b := by
  induction h with
  | nil => intro b hb; cases hb
  | cons h _ ih =>
    intro b hb
    rcases List.mem_cons.mp hb with rfl | hb
    · exact ⟨_, by simp, h⟩
    · obtain ⟨a, ha, hab⟩ := ih b hb
      exact ⟨a, by simp [ha], hab⟩

theorem forall₂_map_eq {α β γ : Type} {f : α → γ} {g : β → γ} {as : List α} {bs : List β}
    (h : List.Forall₂ (fun a b => g b = f a) as bs) : bs.map g = as.map f := by
  induction h with
  | nil => rfl
  | cons h _ ih => simp [h, ih]

section inv
variable (fl : Bool)

theorem mathDict_walk (f : Formula) :
    mathDict fl f = interp (mathDict fl) ((mathDictW fl).dispatch f) :=
  Walker.walk_eq (mathDictW_decr fl) f

theorem mathDict_sym (n : String) (t : Ty) :
    mathDict fl (.sym n t) = match t with
      | .real => .ok [([n], 1)]
      | .bool => .error .valueError := by
  rw [mathDict_walk]; cases t <;> rfl
theorem mathDict_real (q : ℚ) : mathDict fl (.realC q) = .ok [([], q)] := by
  rw [mathDict_walk]; rfl
theorem mathDict_plus (as : List Formula) : mathDict fl (.plus as) =
    match mapE (mathDict fl) as with
    | .ok ds => reducePlus ds
    | .error e => .error e := by
  rw [mathDict_walk]
  show interp _ (callAll as fun ds => Prog.ofExcept (reducePlus ds)) = _
  simp only [interp_callAll, interp_ofExcept]
  cases mapE (mathDict fl) as <;> rfl
theorem mathDict_times (as : List Formula) : mathDict fl (.times as) =
    match mapE (mathDict fl) as with
    | .ok ds => reduceTimes fl ds
    | .error e => .error e := by
  rw [mathDict_walk]
  show interp _ (callAll as fun ds => Prog.ofExcept (reduceTimes fl ds)) = _
  simp only [interp_callAll, interp_ofExcept]
  cases mapE (mathDict fl) as <;> rfl

theorem interp_call2 {R : Type} (g : Formula → Except PyErr R) (l r : Formula) (k : R → R → Except PyErr R) :
    interp g (call2 l r k) =
      match g l with
      | .ok a => match g r with
        | .ok b => k a b
        | .error e => .error e
      | .error e => .error e := by
  simp only [call2, interp]
  cases g l with
  | error e => rfl
  | ok a =>
    simp only
    cases g r with
    | error e => rfl
    | ok b => simp

theorem mathDict_minus (l r : Formula) : mathDict fl (.minus l r) =
    match mathDict fl l with
    | .ok a => match mathDict fl r with
      | .ok b => .ok (dictPlus a (dictNeg b))
      | .error e => .error e
    | .error e => .error e := by
  rw [mathDict_walk]
  refine (interp_call2 _ l r _).trans ?_
  cases mathDict fl l <;> [rfl; (cases mathDict fl r <;> rfl)]
theorem mathDict_le (l r : Formula) : mathDict fl (.le l r) =
    match mathDict fl l with
    | .ok a => match mathDict fl r with
      | .ok b => .ok (lteDict a b)
      | .error e => .error e
    | .error e => .error e := by
  rw [mathDict_walk]
  refine (interp_call2 _ l r _).trans ?_
  cases mathDict fl l <;> [rfl; (cases mathDict fl r <;> rfl)]
theorem mathDict_lt (l r : Formula) : mathDict fl (.lt l r) =
    match mathDict fl l with
    | .ok a => match mathDict fl r with
      | .ok b => .ok (lteDict a b)
      | .error e => .error e
    | .error e => .error e := by
  rw [mathDict_walk]
  refine (interp_call2 _ l r _).trans ?_
  cases mathDict fl l <;> [rfl; (cases mathDict fl r <;> rfl)]
theorem mathDict_not (a : Formula) : mathDict fl (.not a) =
    match mathDict fl a with
    | .ok d => .ok (dictNeg d)
    | .error e => .error e := by
  rw [mathDict_walk]
  show interp _ (Prog.call a fun d => Prog.done (dictNeg d)) = _
  simp only [interp]
  cases mathDict fl a <;> rfl
theorem mathDict_ite (c t e : Formula) : mathDict fl (.ite c t e) = .error .valueError := by
  rw [mathDict_walk]; rfl
theorem mathDict_pow (b : Formula) (q : ℚ) : mathDict fl (.pow b (.realC q)) =
    if q.den ≠ 1 then .error .valueError
    else if q.num ≠ 1 ∧ fl = true then .error .valueError
    else match mathDict fl b with
      | .ok d => powLoop fl d (q.num - 1).toNat d
      | .error e => .error e := by
  rw [mathDict_walk]
  show interp _ (if q.den ≠ 1 then Prog.fail .valueError
      else if q.num ≠ 1 ∧ fl = true then Prog.fail .valueError
      else .call b fun d => .ofExcept (powLoop fl d (q.num - 1).toNat d)) = _
  split_ifs
  · rfl
  · rfl
  · simp only [interp, interp_ofExcept]
    cases mathDict fl b <;> rfl

end inv

end Pywmi
