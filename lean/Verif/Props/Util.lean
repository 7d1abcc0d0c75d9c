import Verif.Util.Util
import Mathlib.Data.List.Induction

set_option linter.unusedSectionVars false
set_option linter.unusedSimpArgs false

/-!
# C55 and C56: temporary files and multimaps
-/

namespace Pywmi

section
variable {κ ν : Type} [DecidableEq κ] [DecidableEq ν]

namespace MMap

/-- Keys are distinct and the values of a key are distinct. -/
structure Ok (m : MMap κ ν) : Prop where
  keys : (m.map (·.1)).Nodup
  vals : ∀ p ∈ m, p.2.Nodup

/-- SPEC: the pairs added and not removed by a history. -/
def pairs (ops : List (MOp κ ν)) : κ → ν → Prop :=
  ops.foldl (fun R op => match op with
    | .add k v => fun k' v' => (k' = k ∧ v' = v) ∨ R k' v'
    | .touch _ => R
    | .discard k v => fun k' v' => ¬ (k' = k ∧ v' = v) ∧ R k' v') fun _ _ => False
/-- SPEC: the keys used by a history. -/
def keysOf (ops : List (MOp κ ν)) : List κ :=
  ops.map fun op => match op with | .add k _ => k | .touch k => k | .discard k _ => k

theorem keys_touch (m : MMap κ ν) (k k' : κ) : k' ∈ (m.touch k).map (·.1) ↔ k' = k ∨ k' ∈ m.map (·.1) := by
  induction m with
  | nil => simp [touch]
  | cons p m ih =>
    obtain ⟨a, vs⟩ := p
    by_cases h : a = k
    · subst h; simp [touch]
    · simp only [touch, if_neg h, List.map_cons, List.mem_cons, ih]; tauto
theorem keys_add (m : MMap κ ν) (k k' : κ) (v : ν) : k' ∈ (m.add k v).map (·.1) ↔ k' = k ∨ k' ∈ m.map (·.1) := by
  induction m with
  | nil => simp [add]
  | cons p m ih =>
    obtain ⟨a, vs⟩ := p
    by_cases h : a = k
    · subst h; simp [add]
    · simp only [add, if_neg h, List.map_cons, List.mem_cons, ih]; tauto
theorem keys_discard (m : MMap κ ν) (k k' : κ) (v : ν) : k' ∈ (m.discard k v).map (·.1) ↔ k' = k ∨ k' ∈ m.map (·.1) := by
  induction m with
  | nil => simp [discard]
  | cons p m ih =>
    obtain ⟨a, vs⟩ := p
    by_cases h : a = k
    · subst h; simp [discard]
    · simp only [discard, if_neg h, List.map_cons, List.mem_cons, ih]; tauto

theorem mem_flatItems (m : MMap κ ν) (k : κ) (v : ν) : (k, v) ∈ m.flatItems ↔ ∃ vs, (k, vs) ∈ m ∧ v ∈ vs := by
  induction m with
  | nil => simp [flatItems]
  | cons p m ih =>
    obtain ⟨a, vs⟩ := p
    simp only [flatItems, List.mem_append, List.mem_map, Prod.mk.injEq, ih, List.mem_cons]
    constructor
    · rintro (⟨w, hw, rfl, rfl⟩ | ⟨vs', h1, h2⟩)
      · exact ⟨vs, .inl ⟨rfl, rfl⟩, hw⟩
      · exact ⟨vs', .inr h1, h2⟩
    · rintro ⟨vs', ⟨rfl, rfl⟩ | h1, h2⟩
      · exact .inl ⟨v, h2, rfl, rfl⟩
      · exact .inr ⟨vs', h1, h2⟩

theorem touch_ok {m : MMap κ ν} (h : m.Ok) (k : κ) :
    (m.touch k).Ok ∧ ∀ k' v', (k', v') ∈ (m.touch k).flatItems ↔ (k', v') ∈ m.flatItems := by
  induction m with
  | nil => exact ⟨⟨by simp [touch], by simp [touch]⟩, by simp [touch, flatItems]⟩
  | cons p m ih =>
    obtain ⟨a, vs⟩ := p
    have hk := h.keys
    simp only [List.map_cons, List.nodup_cons] at hk
    obtain ⟨i1, i2⟩ := ih ⟨hk.2, fun p hp => h.vals p (by simp [hp])⟩
    by_cases e : a = k
    · subst e; have : touch ((a, vs) :: m) a = (a, vs) :: m := by simp [touch]
      rw [this]; exact ⟨h, fun _ _ => Iff.rfl⟩
    · simp only [touch, if_neg e, flatItems, List.mem_append]
      refine ⟨⟨?_, ?_⟩, fun k' v' => by rw [i2]⟩
      · simp only [List.map_cons, List.nodup_cons, keys_touch]
        exact ⟨by push Not; exact ⟨e, hk.1⟩, i1.keys⟩
      · intro p hp
        rcases List.mem_cons.mp hp with rfl | hp
        · exact h.vals (a, vs) (by simp)
        · exact i1.vals p hp

theorem add_ok {m : MMap κ ν} (h : m.Ok) (k : κ) (v : ν) :
    (m.add k v).Ok ∧ ∀ k' v', (k', v') ∈ (m.add k v).flatItems ↔ (k' = k ∧ v' = v) ∨ (k', v') ∈ m.flatItems := by
  induction m with
  | nil => exact ⟨⟨by simp [add], by simp [add]⟩, by simp [add, flatItems]⟩
  | cons p m ih =>
    obtain ⟨a, vs⟩ := p
    have hk := h.keys
    simp only [List.map_cons, List.nodup_cons] at hk
    obtain ⟨i1, i2⟩ := ih ⟨hk.2, fun p hp => h.vals p (by simp [hp])⟩
    by_cases e : a = k
    · subst e
      simp only [add, if_true, flatItems, List.mem_append]
      refine ⟨⟨by simpa using hk, ?_⟩, fun k' v' => ?_⟩
      · intro p hp
        rcases List.mem_cons.mp hp with rfl | hp
        · have := h.vals (a, vs) (by simp)
          simp only at this ⊢
          split_ifs with hv
          · exact this
          · rw [List.nodup_append]
            exact ⟨this, by simp, fun x hx y hy => by rintro rfl; simp at hy; subst hy; exact hv hx⟩
        · exact h.vals p (by simp [hp])
      · split_ifs with hv
        · simp only [List.mem_map, Prod.mk.injEq]
          constructor
          · exact .inr
          · rintro (⟨rfl, rfl⟩ | h)
            · exact .inl ⟨v', hv, rfl, rfl⟩
            · exact h
        · simp only [List.map_append, List.mem_append, List.mem_map, Prod.mk.injEq, List.map_singleton, List.mem_singleton]
          rw [or_assoc, or_left_comm]
    · simp only [add, if_neg e, flatItems, List.mem_append]
      refine ⟨⟨?_, ?_⟩, fun k' v' => by rw [i2]; tauto⟩
      · simp only [List.map_cons, List.nodup_cons, keys_add]
        exact ⟨by push Not; exact ⟨e, hk.1⟩, i1.keys⟩
      · intro p hp
        rcases List.mem_cons.mp hp with rfl | hp
        · exact h.vals (a, vs) (by simp)
        · exact i1.vals p hp

theorem discard_ok {m : MMap κ ν} (h : m.Ok) (k : κ) (v : ν) :
    (m.discard k v).Ok ∧ ∀ k' v', (k', v') ∈ (m.discard k v).flatItems ↔ ¬ (k' = k ∧ v' = v) ∧ (k', v') ∈ m.flatItems := by
  induction m with
  | nil => exact ⟨⟨by simp [discard], by simp [discard]⟩, by simp [discard, flatItems]⟩
  | cons p m ih =>
    obtain ⟨a, vs⟩ := p
    have hk := h.keys
    simp only [List.map_cons, List.nodup_cons] at hk
    obtain ⟨i1, i2⟩ := ih ⟨hk.2, fun p hp => h.vals p (by simp [hp])⟩
    by_cases e : a = k
    · subst e
      simp only [discard, if_true, flatItems, List.mem_append]
      refine ⟨⟨by simpa using hk, ?_⟩, fun k' v' => ?_⟩
      · intro p hp
        rcases List.mem_cons.mp hp with rfl | hp
        · exact (h.vals (a, vs) (by simp)).filter _
        · exact h.vals p (by simp [hp])
      · simp only [List.mem_map, Prod.mk.injEq, List.mem_filter, decide_eq_true_eq]
        have hfresh : ∀ v', (a, v') ∉ MMap.flatItems m := fun v' hm => by
          obtain ⟨ws, h1, -⟩ := (mem_flatItems m a v').mp hm
          exact hk.1 (List.mem_map.mpr ⟨_, h1, rfl⟩)
        constructor
        · rintro (⟨w, ⟨hw, hne⟩, rfl, rfl⟩ | hm)
          · exact ⟨fun hc => hne hc.2, .inl ⟨w, hw, rfl, rfl⟩⟩
          · exact ⟨fun hc => hfresh v' (by rw [← hc.1]; exact hm), .inr hm⟩
        · rintro ⟨hc, ⟨w, hw, rfl, rfl⟩ | hm⟩
          · exact .inl ⟨w, ⟨hw, fun h => hc ⟨rfl, h⟩⟩, rfl, rfl⟩
          · exact .inr hm
    · simp only [discard, if_neg e, flatItems, List.mem_append]
      refine ⟨⟨?_, ?_⟩, fun k' v' => ?_⟩
      · simp only [List.map_cons, List.nodup_cons, keys_discard]
        exact ⟨by push Not; exact ⟨e, hk.1⟩, i1.keys⟩
      · intro p hp
        rcases List.mem_cons.mp hp with rfl | hp
        · exact h.vals (a, vs) (by simp)
        · exact i1.vals p hp
      · rw [i2]
        simp only [List.mem_map, Prod.mk.injEq]
        constructor
        · rintro (⟨w, hw, rfl, rfl⟩ | h)
          · exact ⟨fun hc => e hc.1, .inl ⟨w, hw, rfl, rfl⟩⟩
          · exact ⟨h.1, .inr h.2⟩
        · rintro ⟨hc, h | h⟩
          · exact .inl h
          · exact .inr ⟨hc, h⟩

theorem run_ok (ops : List (MOp κ ν)) :
    (ops.foldl MOp.run ([] : MMap κ ν)).Ok ∧
    (∀ k v, (k, v) ∈ (ops.foldl MOp.run ([] : MMap κ ν)).flatItems ↔ pairs ops k v) ∧
    ∀ k, k ∈ (ops.foldl MOp.run ([] : MMap κ ν)).map (·.1) ↔ k ∈ keysOf ops := by
  induction ops using List.reverseRecOn with
  | nil => exact ⟨⟨by simp, by simp⟩, by simp [flatItems, pairs], by simp [keysOf]⟩
  | append_singleton ops op ih =>
    obtain ⟨h1, h2, h3⟩ := ih
    simp only [List.foldl_append, List.foldl_cons, List.foldl_nil, pairs, keysOf, List.map_append, List.mem_append]
    cases op with
    | add k v =>
      obtain ⟨a1, a2⟩ := add_ok h1 k v
      exact ⟨a1, fun k' v' => by have := a2 k' v'; rw [h2] at this; exact this, fun k' => by
        simp only [MOp.run, keys_add, h3, keysOf, List.map_singleton, List.mem_singleton, or_comm]⟩
    | touch k =>
      obtain ⟨a1, a2⟩ := touch_ok h1 k
      exact ⟨a1, fun k' v' => by have := a2 k' v'; rw [h2] at this; exact this, fun k' => by
        simp only [MOp.run, keys_touch, h3, keysOf, List.map_singleton, List.mem_singleton, or_comm]⟩
    | discard k v =>
      obtain ⟨a1, a2⟩ := discard_ok h1 k v
      exact ⟨a1, fun k' v' => by have := a2 k' v'; rw [h2] at this; exact this, fun k' => by
        simp only [MOp.run, keys_discard, h3, keysOf, List.map_singleton, List.mem_singleton, or_comm]⟩

theorem flatItems_nodup {m : MMap κ ν} (h : m.Ok) : m.flatItems.Nodup := by
  induction m with
  | nil => exact List.nodup_nil
  | cons p m ih =>
    obtain ⟨a, vs⟩ := p
    have hk := h.keys
    simp only [List.map_cons, List.nodup_cons] at hk
    rw [flatItems, List.nodup_append]
    refine ⟨(h.vals (a, vs) (by simp)).map fun x y e => by simpa using e, ih ⟨hk.2, fun p hp => h.vals p (by simp [hp])⟩, ?_⟩
    intro x hx y hy e
    subst e
    obtain ⟨w, -, rfl⟩ := List.mem_map.mp hx
    obtain ⟨ws, h1, -⟩ := (mem_flatItems m a w).mp hy
    exact hk.1 (List.mem_map.mpr ⟨_, h1, rfl⟩)

theorem flatValues_eq (m : MMap κ ν) : m.flatValues = m.flatItems.map (·.2) := by
  induction m with
  | nil => rfl
  | cons p m ih => obtain ⟨a, vs⟩ := p; simp [flatValues, flatItems, ih, Function.comp_def]

theorem lenLoop_eq (m : MMap κ ν) (s : ℕ) : lenLoop s m = s + m.flatItems.length := by
  induction m generalizing s with
  | nil => rfl
  | cons p m ih => obtain ⟨a, vs⟩ := p; simp [lenLoop, flatItems, ih]; omega

/-- **C56**: after every history, the flat items are exactly the pairs added and not removed, each once; the flat values
are their values, and the flat length is their number. -/
theorem views_agree (ops : List (MOp κ ν)) :
    let m := ops.foldl MOp.run ([] : MMap κ ν)
    (∀ k v, (k, v) ∈ m.flatItems ↔ pairs ops k v) ∧ m.flatItems.Nodup ∧
      m.flatValues = m.flatItems.map (·.2) ∧ m.flatLen = m.flatItems.length := by
  obtain ⟨h1, h2, -⟩ := run_ok ops
  exact ⟨h2, flatItems_nodup h1, flatValues_eq _, by rw [flatLen, lenLoop_eq, Nat.zero_add]⟩

theorem flatten_spec (m : MMap κ ν) :
    ((∀ p ∈ m, p.2.length = 1) ∧ m.flatten = (.ok m.flatItems, m.map fun p => (p.1, []))) ∨
    ((∃ p ∈ m, p.2.length ≠ 1) ∧ m.flatten.1 = .error .notFlat) := by
  induction m with
  | nil => exact .inl ⟨by simp, rfl⟩
  | cons p m ih =>
    obtain ⟨a, vs⟩ := p
    match vs with
    | [] => exact .inr ⟨⟨(a, []), by simp, by simp⟩, rfl⟩
    | x :: y :: l => exact .inr ⟨⟨(a, x :: y :: l), by simp, by simp⟩, rfl⟩
    | [x] =>
      rcases ih with ⟨h1, h2⟩ | ⟨⟨p, hp, hl⟩, h2⟩
      · refine .inl ⟨?_, by simp [flatten, h2, flatItems]⟩
        intro p hp
        rcases List.mem_cons.mp hp with rfl | hp
        · rfl
        · exact h1 p hp
      · refine .inr ⟨⟨p, by simp [hp], hl⟩, ?_⟩
        simp only [flatten]
        cases hf : flatten m with
        | mk r m' => rw [hf] at h2; simp only at h2; subst h2; rfl

/-- **C56**: flattening succeeds exactly when every key that was used has exactly one value, and it then gives that
value for each key. -/
theorem flatten_iff (ops : List (MOp κ ν)) :
    let m := ops.foldl MOp.run ([] : MMap κ ν)
    ((∀ k ∈ keysOf ops, ∃! v, pairs ops k v) →
      ∃ d, m.flatten.1 = .ok d ∧ (d.map (·.1)).Nodup ∧ ∀ k v, (k, v) ∈ d ↔ pairs ops k v) ∧
    ((∃ k ∈ keysOf ops, ¬ ∃! v, pairs ops k v) → m.flatten.1 = .error .notFlat) := by
  intro m
  obtain ⟨h1, h2, h3⟩ := run_ok ops
  change m.Ok at h1
  change ∀ k v, (k, v) ∈ m.flatItems ↔ pairs ops k v at h2
  change ∀ k, k ∈ m.map (·.1) ↔ k ∈ keysOf ops at h3
  have hone : ∀ p ∈ m, p.2.length = 1 ↔ ∃! v, pairs ops p.1 v := by
    rintro ⟨k, vs⟩ hp
    have hmem : ∀ v, pairs ops k v ↔ v ∈ vs := fun v => by
      rw [← h2, mem_flatItems]
      constructor
      · rintro ⟨ws, hw, hv⟩
        have : ws = vs := by
          have := List.inj_on_of_nodup_map h1.keys hw hp rfl
          simpa using this
        rwa [this] at hv
      · intro hv; exact ⟨vs, hp, hv⟩
    have hn := h1.vals _ hp
    simp only [hmem]
    constructor
    · intro hl
      obtain ⟨v, rfl⟩ := List.length_eq_one_iff.mp hl
      exact ⟨v, by simp, by simp⟩
    · rintro ⟨v, hv, hu⟩
      match vs, hn with
      | [], _ => simp at hv
      | [x], _ => rfl
      | x :: y :: l, hn =>
        have e1 := hu x (by simp); have e2 := hu y (by simp)
        simp only [List.nodup_cons, List.mem_cons, not_or] at hn
        exact absurd (e1.trans e2.symm) hn.1.1
  constructor
  · intro hall
    have hm : ∀ p ∈ m, p.2.length = 1 := fun p hp => (hone p hp).mpr (hall _ ((h3 _).mp (List.mem_map.mpr ⟨p, hp, rfl⟩)))
    rcases flatten_spec m with ⟨-, h⟩ | ⟨⟨p, hp, hl⟩, -⟩
    · refine ⟨_, by rw [h], ?_, h2⟩
      have hk := h1.keys
      clear h h3 hone h1 h2
      have : m.flatItems.map (·.1) = m.map (·.1) := by
        clear hk
        clear_value m
        induction m with
        | nil => rfl
        | cons p m ih =>
          obtain ⟨a, vs⟩ := p
          obtain ⟨v, hv⟩ := List.length_eq_one_iff.mp (hm (a, vs) (by simp))
          simp only at hv
          subst hv
          simp [flatItems, ih fun p hp => hm p (by simp [hp])]
      rw [this]; exact hk
    · exact absurd (hm p hp) hl
  · rintro ⟨k, hk, hnot⟩
    obtain ⟨p, hp, rfl⟩ := List.mem_map.mp ((h3 k).mpr hk)
    rcases flatten_spec m with ⟨h, -⟩ | ⟨-, h⟩
    · exact absurd ((hone p hp).mp (h p hp)) hnot
    · exact h

/-- Flattening is destructive: it takes the values out, and a second call fails (unless there are no keys). -/
theorem flatten_twice {m : MMap κ ν} (hm : m ≠ []) : ∀ d, m.flatten.1 = .ok d → m.flatten.2.flatten.1 = .error .notFlat := by
  intro d hd
  rcases flatten_spec m with ⟨-, h⟩ | ⟨-, h⟩
  · rw [h]
    match m, hm with
    | p :: m, _ => rfl
  · rw [h] at hd; cases hd

end MMap

example : let m := [MOp.add "a" 1, .add "b" 2, .add "a" 1, .add "b" 3, .discard "b" 2].foldl MOp.run ([] : MMap String ℕ)
    m.flatItems = [("a", 1), ("b", 3)] ∧ m.flatten.1 = .ok [("a", 1), ("b", 3)] := by decide
example : ∀ k ∈ MMap.keysOf [MOp.add "a" 1, .add "b" 3], ∃! v, MMap.pairs [MOp.add "a" 1, .add "b" 3] k v := by
  simp [MMap.keysOf, MMap.pairs, ExistsUnique]

end

/-! ### C55 -/

/-- **C55** (partial: the callback must not raise, see `temp_leak`): after the with-block the file is gone, whatever the
block did and however it ended; the outcome is that of the block, and other files are as the block left them. -/
theorem temp_removed_partial {α : Type} {fresh : Os → String} {cb : Option (String → Action Unit)} (body : String → Action α)
    (s s1 : Os) (hcb : match cb with
      | none => s1 = ⟨fresh s :: s.files, s.fds + 1⟩
      | some f => f (fresh s) ⟨fresh s :: s.files, s.fds + 1⟩ = (.ok (), s1)) :
    fresh s ∉ (withTemp fresh cb body s).2.files ∧ (withTemp fresh cb body s).1 = (body (fresh s) s1).1 ∧
      ∀ f, f ≠ fresh s → (f ∈ (withTemp fresh cb body s).2.files ↔ f ∈ (body (fresh s) s1).2.files) := by
  have hexit : ∀ (n : String) (t : Os), n ∉ (tempExit n t).files ∧ ∀ f, f ≠ n → (f ∈ (tempExit n t).files ↔ f ∈ t.files) := by
    intro n t
    unfold tempExit
    split_ifs with h
    · exact ⟨by simp, fun f hf => by simp [hf]⟩
    · exact ⟨h, fun f _ => Iff.rfl⟩
  cases cb with
  | none =>
    simp only at hcb
    subst hcb
    exact ⟨(hexit _ _).1, rfl, (hexit _ _).2⟩
  | some f =>
    simp only at hcb
    have : withTemp fresh (some f) body s = ((body (fresh s) s1).1, tempExit (fresh s) (body (fresh s) s1).2) := by
      simp only [withTemp, tempEnter, hcb]
    rw [this]
    exact ⟨(hexit _ _).1, rfl, (hexit _ _).2⟩

/-- If the callback raises without removing the file, the file stays. -/
theorem temp_leak {α : Type} {fresh : Os → String} {cb : String → Action Unit} (body : String → Action α) (s : Os)
    {e : PyErr} {s2 : Os} (h : cb (fresh s) ⟨fresh s :: s.files, s.fds + 1⟩ = (.error e, s2)) (hk : fresh s ∈ s2.files) :
    (withTemp fresh (some cb) body s).1 = .error e ∧ fresh s ∈ (withTemp fresh (some cb) body s).2.files := by
  have : withTemp fresh (some cb) body s = (.error e, s2) := by simp only [withTemp, tempEnter, h]
  rw [this]
  exact ⟨rfl, hk⟩

/-- The descriptor opened by `mkstemp` is never closed: each with-block leaves one more open descriptor. -/
theorem temp_descriptor_leak {α : Type} {fresh : Os → String} (body : String → Action α) (s : Os)
    (hb : ∀ n t, (body n t).2.fds = t.fds) : (withTemp fresh none body s).2.fds = s.fds + 1 := by
  simp only [withTemp, tempEnter, tempExit]
  split_ifs <;> simp [hb]

example : withTemp (fun _ => "tmp1") none (fun _ s => ((.error .other : Except PyErr Unit), ⟨"out" :: s.files, s.fds⟩)) ⟨["in"], 3⟩ =
    (.error .other, ⟨["out", "in"], 4⟩) := rfl

end Pywmi
