import Verif.Xsdd.Literals
import Verif.Props.Transform
import Verif.Props.Domain
import Std.Data.String.ToNat

/-!
# C43, C44, C60: literal extraction and literal tables
-/

set_option linter.unusedSectionVars false
set_option linter.unusedSimpArgs false

namespace Pywmi
open Formula

section
variable {κ ν : Type} [DecidableEq κ]

theorem assocSet_keys (d : List (κ × ν)) (k : κ) (v : ν) :
    (assocSet d k v).map (·.1) = if k ∈ d.map (·.1) then d.map (·.1) else d.map (·.1) ++ [k] := by
  induction d with
  | nil => simp [assocSet]
  | cons p d ih =>
    obtain ⟨k', w⟩ := p
    by_cases h : k' = k
    · subst h; simp [assocSet]
    · simp only [assocSet, if_neg h, List.map_cons, ih, List.mem_cons, Ne.symm h, false_or, List.cons_append]
      split <;> rfl

theorem assocSet_nodup {d : List (κ × ν)} (h : (d.map (·.1)).Nodup) (k : κ) (v : ν) :
    ((assocSet d k v).map (·.1)).Nodup := by
  rw [assocSet_keys]
  split
  · exact h
  · rename_i hk
    rw [List.nodup_append]
    exact ⟨h, by simp, fun a ha b hb => by
      rw [List.mem_singleton] at hb; subst hb; exact fun e => hk (e ▸ ha)⟩

theorem assocSet_fresh {d : List (κ × ν)} {k : κ} (h : k ∉ d.map (·.1)) (v : ν) :
    assocSet d k v = d ++ [(k, v)] := by
  induction d with
  | nil => rfl
  | cons p d ih =>
    obtain ⟨k', w⟩ := p
    simp only [List.map_cons, List.mem_cons, not_or] at h
    simp [assocSet, Ne.symm h.1, ih h.2]

theorem mem_assocSet {d : List (κ × ν)} (hn : (d.map (·.1)).Nodup) (k : κ) (v : ν) (p : κ × ν) :
    p ∈ assocSet d k v ↔ p = (k, v) ∨ (p ∈ d ∧ p.1 ≠ k) := by
  induction d with
  | nil => simp [assocSet]
  | cons q d ih =>
    obtain ⟨k', w⟩ := q
    simp only [List.map_cons, List.nodup_cons] at hn
    by_cases h : k' = k
    · subst h
      simp only [assocSet, if_true, List.mem_cons]
      constructor
      · rintro (h | h)
        · exact Or.inl h
        · exact Or.inr ⟨Or.inr h, fun e => hn.1 (e ▸ List.mem_map_of_mem h)⟩
      · rintro (h | ⟨h | h, hne⟩)
        · exact Or.inl h
        · subst h; exact absurd rfl hne
        · exact Or.inr h
    · simp only [assocSet, if_neg h, List.mem_cons, ih hn.2]
      constructor
      · rintro (rfl | h' | ⟨h1, h2⟩)
        · exact Or.inr ⟨Or.inl rfl, h⟩
        · exact Or.inl h'
        · exact Or.inr ⟨Or.inr h1, h2⟩
      · rintro (h' | ⟨h1 | h1, h2⟩)
        · exact Or.inr (Or.inl h')
        · exact Or.inl h1
        · exact Or.inr (Or.inr ⟨h1, h2⟩)

theorem assocDel_sublist (d : List (κ × ν)) (k : κ) : (assocDel d k).Sublist d := by
  induction d with
  | nil => exact .slnil
  | cons p d ih =>
    obtain ⟨k', w⟩ := p
    simp only [assocDel]
    split
    · exact List.sublist_cons_self _ _
    · exact ih.cons_cons _

theorem assocDel_nodup {d : List (κ × ν)} (h : (d.map (·.1)).Nodup) (k : κ) : ((assocDel d k).map (·.1)).Nodup :=
  h.sublist ((assocDel_sublist d k).map _)

theorem mem_assocDel {d : List (κ × ν)} (hn : (d.map (·.1)).Nodup) (k : κ) (p : κ × ν) :
    p ∈ assocDel d k ↔ p ∈ d ∧ p.1 ≠ k := by
  induction d with
  | nil => simp [assocDel]
  | cons q d ih =>
    obtain ⟨k', w⟩ := q
    simp only [List.map_cons, List.nodup_cons] at hn
    by_cases h : k' = k
    · subst h
      simp only [assocDel, if_true, List.mem_cons]
      constructor
      · exact fun h => ⟨Or.inr h, fun e => hn.1 (e ▸ List.mem_map_of_mem h)⟩
      · rintro ⟨h | h, hne⟩
        · subst h; exact absurd rfl hne
        · exact h
    · simp only [assocDel, if_neg h, List.mem_cons, ih hn.2]
      constructor
      · rintro (rfl | ⟨h1, h2⟩)
        · exact ⟨Or.inl rfl, h⟩
        · exact ⟨Or.inr h1, h2⟩
      · rintro ⟨h1 | h1, h2⟩
        · exact Or.inl h1
        · exact Or.inr ⟨h1, h2⟩
end

namespace LiteralInfo

/-- Each literal has one entry. -/
def Keyed (L : LiteralInfo) : Prop :=
  (L.literals.map (·.1)).Nodup ∧ (L.abstractions.map (·.1)).Nodup ∧ (L.booleans.map (·.1)).Nodup

theorem foldSet_nodup {α : Type} (f : α → String × LitVal) (ps : List α) (d : List (String × LitVal))
    (h : (d.map (·.1)).Nodup) : ((ps.foldl (fun d p => assocSet d (f p).1 (f p).2) d).map (·.1)).Nodup := by
  induction ps generalizing d with
  | nil => exact h
  | cons p ps ih => exact ih _ (assocSet_nodup h _ _)

theorem make_keyed {A : List (Formula × String)} {B : List (String × String)} (hA : (A.map (·.1)).Nodup)
    (hB : (B.map (·.1)).Nodup) {L : LiteralInfo} (h : make A B = .ok L) : L.Keyed := by
  unfold make at h
  split at h
  · cases h
  · cases h
    exact ⟨foldSet_nodup (fun p : Formula × String => (p.2, .atom p.1)) A _
      (foldSet_nodup (fun p : String × String => (p.2, .bool p.1)) B [] (by simp)), hA, hB⟩

theorem step_keyed {L : LiteralInfo} (h : L.Keyed) (o : Op) : (L.step o).1.Keyed := by
  obtain ⟨h1, h2, h3⟩ := h
  cases o with
  | setBool n l =>
    simp only [step, setBool]
    split
    · exact ⟨assocSet_nodup h1 _ _, h2, assocSet_nodup h3 _ _⟩
    · exact ⟨h1, h2, h3⟩
  | setAtom f l =>
    simp only [step, setAtom]
    split
    · exact ⟨assocSet_nodup h1 _ _, assocSet_nodup h2 _ _, h3⟩
    · exact ⟨h1, h2, h3⟩
  | delBool n =>
    simp only [step, delBool]
    split
    · exact ⟨h1, h2, assocDel_nodup h3 _⟩
    · exact ⟨h1, h2, h3⟩
  | delAtom f =>
    simp only [step, delAtom]
    split
    · exact ⟨h1, assocDel_nodup h2 _, h3⟩
    · exact ⟨h1, h2, h3⟩
  | clearBool =>
    simp only [step, clearBool]
    split
    · cases hb : L.booleans with
      | nil => exact ⟨h1, h2, h3⟩
      | cons p ps =>
        rw [hb] at h3
        exact ⟨assocDel_nodup h1 _, h2, (List.nodup_cons.mp h3).2⟩
    · exact ⟨h1, h2, h3⟩
  | clearAtom =>
    simp only [step, clearAtom]
    split
    · cases ha : L.abstractions with
      | nil => exact ⟨h1, h2, h3⟩
      | cons p ps =>
        rw [ha] at h2
        exact ⟨assocDel_nodup h1 _, (List.nodup_cons.mp h2).2, h3⟩
    · exact ⟨h1, h2, h3⟩

theorem run_keyed {L : LiteralInfo} (h : L.Keyed) (ops : List Op) : (L.run ops).Keyed := by
  induction ops generalizing L with
  | nil => exact h
  | cons o ops ih => exact ih (step_keyed h o)

theorem lookup_mapIdx_key {d : List (String × LitVal)} (hn : (d.map (·.1)).Nodup) (lit : String) (k n : ℕ) :
    (d.mapIdx fun i p => (p.1, i + k)).lookup lit = some n ↔ ∃ h : n - k < d.length, k ≤ n ∧ (d[n - k]'h).1 = lit := by
  induction d generalizing k with
  | nil => simp
  | cons p d ih =>
    simp only [List.map_cons, List.nodup_cons] at hn
    rw [List.mapIdx_cons]
    have heq : (fun i (p : String × LitVal) => (p.1, i + 1 + k)) = fun i p => (p.1, i + (k + 1)) := by
      funext i p; simp only [Prod.mk.injEq, true_and]; omega
    by_cases hp : lit = p.1
    · subst hp
      simp only [List.lookup, beq_self_eq_true, Option.some.injEq, Nat.zero_add]
      constructor
      · rintro rfl; exact ⟨by simp, le_refl _, by simp⟩
      · rintro ⟨h, hk, he⟩
        by_contra hne
        obtain ⟨m, hm⟩ : ∃ m, n - k = m + 1 := ⟨n - k - 1, by omega⟩
        simp only [hm, List.getElem_cons_succ] at he
        exact hn.1 (he ▸ List.mem_map_of_mem (List.getElem_mem _))
    · have hb : (lit == p.1) = false := beq_eq_false_iff_ne.mpr hp
      simp only [List.lookup, hb, heq, ih hn.2]
      constructor
      · rintro ⟨h, hk, he⟩
        have e : n - k = (n - (k + 1)) + 1 := by omega
        refine ⟨by simp only [List.length_cons]; omega, by omega, ?_⟩
        simpa only [e, List.getElem_cons_succ] using he
      · rintro ⟨h, hk, he⟩
        have hne : n ≠ k := by
          rintro rfl
          simp only [Nat.sub_self, List.getElem_cons_zero] at he
          exact hp he.symm
        have e : n - k = (n - (k + 1)) + 1 := by omega
        simp only [List.length_cons] at h
        refine ⟨by omega, by omega, ?_⟩
        simpa only [e, List.getElem_cons_succ] using he

theorem lookup_mapIdx_num (d : List (String × LitVal)) (lit : String) (k n : ℕ) :
    (d.mapIdx fun i p => (i + k, p.1)).lookup n = some lit ↔ ∃ h : n - k < d.length, k ≤ n ∧ (d[n - k]'h).1 = lit := by
  induction d generalizing k with
  | nil => simp
  | cons p d ih =>
    rw [List.mapIdx_cons]
    have heq : (fun i (p : String × LitVal) => (i + 1 + k, p.1)) = fun i p => (i + (k + 1), p.1) := by
      funext i p; simp only [Prod.mk.injEq, and_true]; omega
    by_cases hp : n = k
    · subst hp
      simp [List.lookup]
    · have hb : (n == 0 + k) = false := beq_eq_false_iff_ne.mpr (by omega)
      simp only [List.lookup, hb, heq, ih]
      constructor
      · rintro ⟨h, hk, he⟩
        have e : n - k = (n - (k + 1)) + 1 := by omega
        refine ⟨by simp only [List.length_cons]; omega, by omega, ?_⟩
        simpa only [e, List.getElem_cons_succ] using he
      · rintro ⟨h, hk, he⟩
        have e : n - k = (n - (k + 1)) + 1 := by omega
        simp only [List.length_cons] at h
        refine ⟨by omega, by omega, ?_⟩
        simpa only [e, List.getElem_cons_succ] using he

/-- **C44**: from any constructed table and after any history of updates (including failing ones) numbering and inverse
numbering are inverse to each other, the literals get exactly the numbers `1..n` in order, and `number_to_lit` ignores
the sign. -/
theorem numbering_bijective {A : List (Formula × String)} {B : List (String × String)} (hA : (A.map (·.1)).Nodup)
    (hB : (B.map (·.1)).Nodup) {L₀ : LiteralInfo} (h : make A B = .ok L₀) (ops : List Op) :
    let L := L₀.run ops
    (∀ lit n, L.numbered.lookup lit = some n ↔ L.invNumbered.lookup n = some lit) ∧
    L.numbered.map (·.2) = List.range' 1 L.literals.length ∧
    L.numbered.map (·.1) = L.literals.map (·.1) ∧
    (∀ n : ℤ, ∀ lit, L.numberToLit n = .ok lit ↔ L.numbered.lookup lit = some n.natAbs) := by
  intro L
  have hk : (L.literals.map (·.1)).Nodup := (run_keyed (make_keyed hA hB h) ops).1
  have hinv : ∀ lit n, L.numbered.lookup lit = some n ↔ L.invNumbered.lookup n = some lit := fun lit n => by
    unfold numbered invNumbered
    rw [lookup_mapIdx_key hk lit 1 n, lookup_mapIdx_num L.literals lit 1 n]
  refine ⟨hinv, ?_, ?_, ?_⟩
  · apply List.ext_getElem
    · simp [numbered]
    · intro i h1 h2
      simp [numbered]
      omega
  · apply List.ext_getElem
    · simp [numbered]
    · intro i h1 h2
      simp [numbered]
  · intro n lit
    rw [hinv, numberToLit]
    cases L.invNumbered.lookup n.natAbs <;> simp

/-- SPEC: the literal table and the two dictionaries are inverse to each other. -/
def Linked (L : LiteralInfo) : Prop :=
  L.Keyed ∧ (∀ lit n, (lit, LitVal.bool n) ∈ L.literals ↔ (n, lit) ∈ L.booleans) ∧
    ∀ lit f, (lit, LitVal.atom f) ∈ L.literals ↔ (f, lit) ∈ L.abstractions

theorem foldSet_mem {α : Type} (f : α → String × LitVal) (ps : List α) (d : List (String × LitVal))
    (hd : ((d ++ ps.map f).map (·.1)).Nodup) :
    ps.foldl (fun d p => assocSet d (f p).1 (f p).2) d = d ++ ps.map f := by
  induction ps generalizing d with
  | nil => simp
  | cons p ps ih =>
    have hfresh : (f p).1 ∉ d.map (·.1) := by
      intro hm
      simp only [List.map_cons, List.map_append, List.nodup_append, List.mem_cons] at hd
      exact hd.2.2 _ hm _ (Or.inl rfl) rfl
    simp only [List.foldl_cons, assocSet_fresh hfresh]
    rw [ih]
    · simp
    · simpa using hd

theorem table_eq {A : List (Formula × String)} {B : List (String × String)}
    (hd : (B.map (·.2) ++ A.map (·.2)).Nodup) :
    table A B = (B.map fun p => (p.2, LitVal.bool p.1)) ++ A.map fun p => (p.2, LitVal.atom p.1) := by
  unfold table
  have h1 := foldSet_mem (fun p : String × String => (p.2, LitVal.bool p.1)) B []
    (by simpa [List.map_map, Function.comp_def] using (List.nodup_append.mp hd).1)
  simp only [List.nil_append] at h1
  rw [h1]
  exact foldSet_mem (fun p : Formula × String => (p.2, LitVal.atom p.1)) A _
    (by simpa [List.map_map, Function.comp_def] using hd)

/-- **C60**, construction: if no literal is used twice the table is the inverse of the two dictionaries. -/
theorem make_linked {A : List (Formula × String)} {B : List (String × String)} (hA : (A.map (·.1)).Nodup)
    (hB : (B.map (·.1)).Nodup) (hd : (B.map (·.2) ++ A.map (·.2)).Nodup) :
    ∃ L, make A B = .ok L ∧ L.Linked ∧ L.abstractions = A ∧ L.booleans = B := by
  have hnot : ¬∃ l ∈ B.map (·.2), l ∈ A.map (·.2) := by
    rintro ⟨l, h1, h2⟩
    exact (List.nodup_append.mp hd).2.2 l h1 l h2 rfl
  have hm : make A B = .ok ⟨table A B, A, B⟩ := by unfold make; rw [if_neg hnot]
  refine ⟨_, hm, ⟨make_keyed hA hB hm, ?_, ?_⟩, rfl, rfl⟩
  · intro lit n
    simp [table_eq hd, and_comm]
  · intro lit f
    simp [table_eq hd, and_comm]

/-- Overlapping literals are refused. -/
theorem make_overlap {A : List (Formula × String)} {B : List (String × String)} {l : String} (hB : l ∈ B.map (·.2))
    (hA : l ∈ A.map (·.2)) : make A B = .error .assertionError := by
  unfold make
  rw [if_pos ⟨l, hB, hA⟩]

/-- **C60**, additions (partial: only new keys): adding a new key with a new literal keeps the tables inverse to each
other and keeps the numbers of all earlier literals. -/
theorem setBool_linked_partial {L : LiteralInfo} (h : L.Linked) {n l : String} (hn : n ∉ L.booleans.map (·.1))
    (hl : l ∉ L.literals.map (·.1)) :
    (L.setBool n l).2 = none ∧ (L.setBool n l).1.Linked ∧
      (L.setBool n l).1.numbered = L.numbered ++ [(l, L.literals.length + 1)] := by
  obtain ⟨⟨h1, h2, h3⟩, hb, ha⟩ := h
  have he : L.setBool n l = ({ L with booleans := assocSet L.booleans n l, literals := assocSet L.literals l (.bool n) },
      none) := by unfold setBool; rw [if_pos (Or.inr hl)]
  rw [he]
  refine ⟨rfl, ⟨⟨assocSet_nodup h1 _ _, h2, assocSet_nodup h3 _ _⟩, ?_, ?_⟩, ?_⟩
  · intro lit m
    simp only [assocSet_fresh hl, assocSet_fresh hn, List.mem_append, hb, List.mem_singleton, Prod.mk.injEq,
      LitVal.bool.injEq, and_comm]
  · intro lit f
    simp [assocSet_fresh hl, List.mem_append, ha]
  · simp [numbered, assocSet_fresh hl, List.mapIdx_append]

/-- **C60**, additions of atoms (partial: only new keys). -/
theorem setAtom_linked_partial {L : LiteralInfo} (h : L.Linked) {f : Formula} {l : String}
    (hf : f ∉ L.abstractions.map (·.1)) (hl : l ∉ L.literals.map (·.1)) :
    (L.setAtom f l).2 = none ∧ (L.setAtom f l).1.Linked ∧
      (L.setAtom f l).1.numbered = L.numbered ++ [(l, L.literals.length + 1)] := by
  obtain ⟨⟨h1, h2, h3⟩, hb, ha⟩ := h
  have he : L.setAtom f l = (⟨assocSet L.literals l (.atom f), assocSet L.abstractions f l, L.booleans⟩, none) := by
    unfold setAtom; rw [if_pos (Or.inr hl)]
  rw [he]
  refine ⟨rfl, ⟨⟨assocSet_nodup h1 _ _, assocSet_nodup h2 _ _, h3⟩, ?_, ?_⟩, ?_⟩
  · intro lit m
    simp [assocSet_fresh hl, List.mem_append, hb]
  · intro lit g
    simp only [assocSet_fresh hl, assocSet_fresh hf, List.mem_append, ha, List.mem_singleton, Prod.mk.injEq,
      LitVal.atom.injEq, and_comm]
  · simp [numbered, assocSet_fresh hl, List.mapIdx_append]

/-- A new key may not take a used literal: the assertion refuses and nothing changes. -/
theorem setBool_used {L : LiteralInfo} {n l : String} (hn : n ∉ L.booleans.map (·.1)) (hl : l ∈ L.literals.map (·.1)) :
    L.setBool n l = (L, some .assertionError) := by
  unfold setBool
  rw [if_neg (by rintro (h | h); exacts [hn h, h hl])]

/-- The full claim of C60 fails for updates: giving an existing key a new literal leaves the old literal in the table,
still standing for that key. -/
theorem setBool_update_stale : ∃ L : LiteralInfo, L.Linked ∧ (L.setBool "A" "b1").2 = none ∧
    ¬(L.setBool "A" "b1").1.Linked ∧ ("b0", LitVal.bool "A") ∈ (L.setBool "A" "b1").1.literals := by
  refine ⟨⟨[("b0", .bool "A")], [], [("A", "b0")]⟩, ⟨⟨by simp, by simp, by simp⟩, by simp [and_comm], by simp⟩, ?_⟩
  have h : (⟨[("b0", .bool "A")], [], [("A", "b0")]⟩ : LiteralInfo).setBool "A" "b1" =
      (⟨[("b0", .bool "A"), ("b1", .bool "A")], [], [("A", "b1")]⟩, none) := by
    simp [setBool, assocSet]
  rw [h]
  refine ⟨rfl, ?_, by simp⟩
  rintro ⟨-, hb, -⟩
  have := (hb "b0" "A").mp (by simp)
  simp at this

/-- An update may also silently give two keys the same literal. -/
theorem setBool_update_collision : ∃ L : LiteralInfo, L.Linked ∧ (L.setBool "A" "b1").2 = none ∧
    ("A", "b1") ∈ (L.setBool "A" "b1").1.booleans ∧ ("B", "b1") ∈ (L.setBool "A" "b1").1.booleans := by
  refine ⟨⟨[("b0", .bool "A"), ("b1", .bool "B")], [], [("A", "b0"), ("B", "b1")]⟩, ⟨⟨by simp, by simp, by simp⟩,
    ?_, by simp⟩, ?_⟩
  · intro lit n
    simp [and_comm]
  · simp [setBool, assocSet]

/-- Deleting always raises KeyError; if the key was present it is gone afterwards although its literal stays. -/
theorem delBool_always_raises (L : LiteralInfo) (h : L.Linked) (n : String) :
    (L.delBool n).2 = some .keyError ∧ n ∉ (L.delBool n).1.booleans.map (·.1) ∧ (L.delBool n).1.literals = L.literals := by
  unfold delBool
  split
  · refine ⟨rfl, ?_, rfl⟩
    intro hm
    obtain ⟨p, hp, he⟩ := List.mem_map.mp hm
    exact ((mem_assocDel h.1.2.2 n p).mp hp).2 he
  · rename_i hn
    exact ⟨rfl, hn, rfl⟩

/-- Clearing a non-empty dictionary always raises RuntimeError after removing one entry. -/
theorem clearBool_raises {L : LiteralInfo} (h : L.Linked) (hne : L.booleans ≠ []) :
    L.clearBool.2 = some .runtimeError ∧ L.clearBool.1.booleans.length + 1 = L.booleans.length := by
  have hall : ∀ p ∈ L.booleans, p.2 ∈ L.literals.map (·.1) := fun p hp =>
    List.mem_map.mpr ⟨(p.2, .bool p.1), (h.2.1 p.2 p.1).mpr hp, rfl⟩
  cases hb : L.booleans with
  | nil => exact absurd hb hne
  | cons p ps =>
    have : L.clearBool = ({ L with booleans := ps, literals := assocDel L.literals p.2 }, some .runtimeError) := by
      unfold clearBool
      rw [if_pos hall, hb]
    rw [this]
    exact ⟨rfl, rfl⟩

/-- `is_number_boolean` answers True for every literal in use, also for those standing for an inequality. -/
theorem isNumberBoolean_always (L : LiteralInfo) (n : ℤ) {lit : String} (h : L.numberToLit n = .ok lit) :
    L.isNumberBoolean n = .ok true := by
  simp [isNumberBoolean, h, isLitBoolean]

end LiteralInfo

/-! ## C43: extraction -/

theorem boolLit_inj {m n : ℕ} (h : boolLit m = boolLit n) : m = n := by
  have := congrArg String.toList h
  simp only [boolLit, String.toList_append] at this
  exact Nat.repr_injective (String.ext (by simpa using this))

theorem atomLit_inj {m n : ℕ} (h : atomLit m = atomLit n) : m = n := by
  have := congrArg String.toList h
  simp only [atomLit, String.toList_append] at this
  exact Nat.repr_injective (String.ext (by simpa using this))

theorem bool_ne_atom (m n : ℕ) : boolLit m ≠ atomLit n := by
  intro h
  have := congrArg String.toList h
  simp [boolLit, atomLit, String.toList_append] at this

namespace LitTables

/-- The tables as `recurse` fills them: keys once, literals numbered in order of discovery. -/
structure Good (T : LitTables) : Prop where
  atomKeys : (T.abstractions.map (·.1)).Nodup
  boolKeys : (T.booleans.map (·.1)).Nodup
  atomLits : T.abstractions.map (·.2) = (List.range T.abstractions.length).map atomLit
  boolLits : T.booleans.map (·.2) = (List.range T.booleans.length).map boolLit

/-- Later tables extend earlier ones. -/
def Le (T U : LitTables) : Prop := T.abstractions <+: U.abstractions ∧ T.booleans <+: U.booleans

theorem Le.refl (T : LitTables) : T.Le T := ⟨List.prefix_refl _, List.prefix_refl _⟩
theorem Le.trans {T U V : LitTables} (h : T.Le U) (h' : U.Le V) : T.Le V := ⟨h.1.trans h'.1, h.2.trans h'.2⟩

theorem Good.addBool {T : LitTables} (h : T.Good) {n : String} (hn : n ∉ T.booleans.map (·.1)) :
    ({ T with booleans := T.booleans ++ [(n, boolLit T.booleans.length)] } : LitTables).Good := by
  refine ⟨h.atomKeys, ?_, h.atomLits, ?_⟩
  · simp only [List.map_append, List.map_cons, List.map_nil, List.nodup_append]
    exact ⟨h.boolKeys, by simp, fun a ha b hb => by
      rw [List.mem_singleton] at hb; subst hb; exact fun e => hn (e ▸ ha)⟩
  · simp [h.boolLits, List.range_succ]

theorem Good.addAtom {T : LitTables} (h : T.Good) {c : Formula} (hc : c ∉ T.abstractions.map (·.1)) :
    ({ T with abstractions := T.abstractions ++ [(c, atomLit T.abstractions.length)] } : LitTables).Good := by
  refine ⟨?_, h.boolKeys, ?_, h.boolLits⟩
  · simp only [List.map_append, List.map_cons, List.map_nil, List.nodup_append]
    exact ⟨h.atomKeys, by simp, fun a ha b hb => by
      rw [List.mem_singleton] at hb; subst hb; exact fun e => hc (e ▸ ha)⟩
  · simp [h.atomLits, List.range_succ]

theorem Good.lits_nodup {T : LitTables} (h : T.Good) : (T.booleans.map (·.2) ++ T.abstractions.map (·.2)).Nodup := by
  rw [h.atomLits, h.boolLits, List.nodup_append]
  refine ⟨?_, ?_, ?_⟩
  · exact List.nodup_range.map fun _ _ => boolLit_inj
  · exact List.nodup_range.map fun _ _ => atomLit_inj
  · intro a ha b hb
    obtain ⟨i, -, rfl⟩ := List.mem_map.mp ha
    obtain ⟨j, -, rfl⟩ := List.mem_map.mp hb
    exact bool_ne_atom i j

/-- All literals of the tables. -/
def lits (T : LitTables) : List String := T.booleans.map (·.2) ++ T.abstractions.map (·.2)

theorem Le.lits {T U : LitTables} (h : T.Le U) {l : String} (hl : l ∈ T.lits) : l ∈ U.lits := by
  simp only [LitTables.lits, List.mem_append] at hl ⊢
  exact hl.imp (fun x => (h.2.map _).subset x) fun x => (h.1.map _).subset x

end LitTables

section
variable {K : Type} [Field K] [LinearOrder K] [IsStrictOrderedRing K]

/-- SPEC: the assignment `τ` of the literals reports what `σ` says about the things they stand for. -/
def LitTables.Reports (T : LitTables) (σ τ : Env K) : Prop :=
  (∀ n l, (n, l) ∈ T.booleans → τ.b l = σ.b n) ∧ ∀ a l, (a, l) ∈ T.abstractions → τ.b l = truth σ a

theorem LitTables.Reports.mono {T U : LitTables} {σ τ : Env K} (h : U.Reports σ τ) (hle : T.Le U) : T.Reports σ τ :=
  ⟨fun n l hm => h.1 n l (hle.2.subset hm), fun a l hm => h.2 a l (hle.1.subset hm)⟩

theorem isAllRealList_iff (as : List Formula) : isAllRealList as = true ↔ ∀ a ∈ as, isAllReal a = true := by
  induction as with
  | nil => simp [isAllRealList]
  | cons a as ih => simp [isAllRealList, ih]

theorem isAllReal_syms (f : Formula) : isAllReal f = true → ∀ p ∈ syms f, p.2 = .real := by
  induction f using Formula.induct with
  | times as ih =>
    intro h p hp
    simp only [isAllReal, isAllRealList_iff] at h
    obtain ⟨a, ha, hpa⟩ := mem_symsList.mp hp
    exact ih a ha (h a ha) p hpa
  | plus as ih =>
    intro h p hp
    simp only [isAllReal, isAllRealList_iff] at h
    obtain ⟨a, ha, hpa⟩ := mem_symsList.mp hp
    exact ih a ha (h a ha) p hpa
  | minus l r ihl ihr =>
    intro h p hp
    simp only [isAllReal, Bool.and_eq_true] at h
    rcases List.mem_append.mp hp with hp | hp
    · exact ihl h.1 p hp
    · exact ihr h.2 p hp
  | pow l r ihl ihr =>
    intro h p hp
    simp only [isAllReal, Bool.and_eq_true] at h
    rcases List.mem_append.mp hp with hp | hp
    · exact ihl h.1 p hp
    · exact ihr h.2 p hp
  | sym n t => intro h p hp; simp [isAllReal] at h; simp [syms] at hp; rw [hp]; exact h
  | realC q => intro h p hp; simp [syms] at hp
  | _ => simp [isAllReal]

theorem isAllReal_atoms (f : Formula) : isAllReal f = true → atoms f = [] := by
  induction f using Formula.induct with
  | times as ih =>
    intro h
    simp only [isAllReal, isAllRealList_iff] at h
    rw [List.eq_nil_iff_forall_not_mem]
    intro x hx
    obtain ⟨a, ha, hxa⟩ := mem_atomsList.mp hx
    rw [ih a ha (h a ha)] at hxa
    cases hxa
  | plus as ih =>
    intro h
    simp only [isAllReal, isAllRealList_iff] at h
    rw [List.eq_nil_iff_forall_not_mem]
    intro x hx
    obtain ⟨a, ha, hxa⟩ := mem_atomsList.mp hx
    rw [ih a ha (h a ha)] at hxa
    cases hxa
  | minus l r ihl ihr =>
    intro h
    simp only [isAllReal, Bool.and_eq_true] at h
    simp [atoms, ihl h.1, ihr h.2]
  | pow l r ihl ihr =>
    intro h
    simp only [isAllReal, Bool.and_eq_true] at h
    simp [atoms, ihl h.1, ihr h.2]
  | sym n t => intro _; rfl
  | realC q => intro _; rfl
  | _ => simp [isAllReal]

theorem linTerm_allReal (f : Formula) : linTerm f = true → isAllReal f = true := by
  induction f using Formula.induct with
  | times as ih =>
    intro h
    simp only [linTerm, Bool.and_eq_true, linTermAll_iff] at h
    simp only [isAllReal, isAllRealList_iff]
    exact fun a ha => ih a ha (h.1.2 a ha)
  | plus as ih =>
    intro h
    simp only [linTerm, Bool.and_eq_true, linTermAll_iff] at h
    simp only [isAllReal, isAllRealList_iff]
    exact fun a ha => ih a ha (h.2 a ha)
  | minus l r ihl ihr =>
    intro h
    simp only [linTerm, Bool.and_eq_true] at h
    simp [isAllReal, ihl h.1, ihr h.2]
  | pow l r ihl ihr =>
    intro h
    cases r with
    | realC q =>
      simp only [linTerm, Bool.and_eq_true] at h
      simp [isAllReal, ihl h.1]
    | _ => simp [linTerm] at h
  | sym n t => intro h; cases t <;> simp_all [linTerm, isAllReal]
  | realC q => intro _; rfl
  | _ => simp [linTerm]

/-- A normalised comparison keeps its truth value off the boundary, whenever normalisation succeeds. -/
theorem normalizeAtom_sound {l r g t : Formula} (hl : wt .real l = true) (hr : wt .real r = true)
    (hg : g = .le l r ∨ g = .lt l r) (h : normalizeAtom g = .ok t) :
    wt .bool t = true ∧ ∀ σ : Env K, value σ l ≠ value σ r → truth σ t = truth σ g := by
  unfold normalizeAtom at h
  cases hq : linFromSmt g with
  | error e => rw [hq] at h; cases h
  | ok q =>
    rw [hq] at h
    have hs := linFromSmt_sound (K := K) hl hr hg hq
    have hwf := linFromSmt_wf hl hr hg hq
    by_cases hne : q = []
    · subst hne
      simp only [linNormalize, List.length_nil, if_true, linToSmt, Except.ok.injEq] at h
      subst h
      refine ⟨rfl, fun σ hσ => ?_⟩
      exfalso
      have := hs σ
      simp only [polyEval_nil, lt_self_iff_false, false_iff, not_lt] at this
      exact hσ (le_antisymm this.2 this.1)
    · obtain ⟨h1, h2, h3, p, hp, h4⟩ := linNormalize_correct (K := K) hwf hne
      have hne' : linNormalize q ≠ [] := by intro h; rw [h] at hp; cases hp
      obtain ⟨t', ht, hwt, hsem⟩ := linToSmt_spec (K := K) h1.1 h1.2 hne'
      simp only [ht, Except.ok.injEq] at h
      subst h
      refine ⟨hwt, fun σ hσ => ?_⟩
      have hmem : polyEval σ.r (linNormalize q) < 0 ↔ polyEval σ.r q < 0 := by
        have : σ.r ∈ halfSpace (linNormalize q) K ↔ σ.r ∈ halfSpace q K := by rw [h2]
        exact this
      rw [Bool.eq_iff_iff, hsem, hmem, (hs σ).1]
      rcases hg with rfl | rfl
      · simp only [truth, decide_eq_true_eq]
        exact ⟨le_of_lt, fun h => lt_of_le_of_ne h hσ⟩
      · simp [truth]

theorem normalizeAtom_equals (l r : Formula) : ∃ e, normalizeAtom (.equals l r) = .error e := by
  have : mathDict true (.equals l r) = .error .valueError := by
    unfold mathDict
    rw [Walker.walk_eq (mathDictW_decr true)]
    rfl
  exact ⟨.valueError, by simp [normalizeAtom, linFromSmt, this]⟩

/-- What extraction of one formula from the tables `T` guarantees. -/
structure Extracted (K : Type) [Field K] [LinearOrder K] (T : LitTables) (f g : Formula) (T' : LitTables) : Prop where
  good : T'.Good
  le : T.Le T'
  wt : wt .bool g = true
  prop : atoms g = []
  lits : ∀ p ∈ syms g, p.2 = .bool ∧ p.1 ∈ T'.lits
  sem : ∀ σ τ : Env K, T'.Reports σ τ → OffBoundary σ f → truth τ g = truth σ f
  bools : ∀ n, (n, Ty.bool) ∈ syms f → n ∈ T'.booleans.map (·.1)
  recs : ∀ a ∈ atoms f, ∃ c ∈ T'.abstractions.map (·.1), normalizeAtom a = .ok c
  onlyBools : ∀ n ∈ T'.booleans.map (·.1), n ∈ T.booleans.map (·.1) ∨ (n, Ty.bool) ∈ syms f
  onlyAtoms : ∀ c ∈ T'.abstractions.map (·.1), c ∈ T.abstractions.map (·.1) ∨ ∃ a ∈ atoms f, normalizeAtom a = .ok c

/-- The same for a list of arguments. -/
structure ExtractedL (K : Type) [Field K] [LinearOrder K] (T : LitTables) (fs gs : List Formula) (T' : LitTables) :
    Prop where
  len : gs.length = fs.length
  good : T'.Good
  le : T.Le T'
  wt : ∀ g ∈ gs, Formula.wt .bool g = true
  prop : ∀ g ∈ gs, atoms g = []
  lits : ∀ g ∈ gs, ∀ p ∈ syms g, p.2 = .bool ∧ p.1 ∈ T'.lits
  sem : ∀ σ τ : Env K, T'.Reports σ τ → (∀ f ∈ fs, OffBoundary σ f) → gs.map (truth τ) = fs.map (truth σ)
  bools : ∀ n, (n, Ty.bool) ∈ symsList fs → n ∈ T'.booleans.map (·.1)
  recs : ∀ a ∈ atomsList fs, ∃ c ∈ T'.abstractions.map (·.1), normalizeAtom a = .ok c
  onlyBools : ∀ n ∈ T'.booleans.map (·.1), n ∈ T.booleans.map (·.1) ∨ (n, Ty.bool) ∈ symsList fs
  onlyAtoms : ∀ c ∈ T'.abstractions.map (·.1), c ∈ T.abstractions.map (·.1) ∨
    ∃ a ∈ atomsList fs, normalizeAtom a = .ok c

theorem syms_mkAnd (as : List Formula) : syms (mkAnd as) = symsList as := by
  unfold mkAnd; split <;> simp [syms, symsList]
theorem syms_mkOr (as : List Formula) : syms (mkOr as) = symsList as := by
  unfold mkOr; split <;> simp [syms, symsList]
theorem atoms_mkAnd (as : List Formula) : atoms (mkAnd as) = atomsList as := by
  unfold mkAnd; split <;> simp [atoms, atomsList]
theorem atoms_mkOr (as : List Formula) : atoms (mkOr as) = atomsList as := by
  unfold mkOr; split <;> simp [atoms, atomsList]

theorem extractSym_spec {T : LitTables} (h : T.Good) (n : String) :
    Extracted K T (.sym n .bool) (extractSym T n).1 (extractSym T n).2 := by
  unfold extractSym
  cases hl : T.booleans.lookup n with
  | some l =>
    have hm := mem_of_dictGet hl
    have hk : n ∈ T.booleans.map (·.1) := List.mem_map_of_mem hm
    refine ⟨h, .refl T, rfl, rfl, ?_, ?_, ?_, by simp [atoms], fun m hm => Or.inl hm, fun c hc => Or.inl hc⟩
    · simp only [syms, List.mem_singleton, forall_eq, true_and]
      exact List.mem_append_left _ (List.mem_map_of_mem (f := (·.2)) hm)
    · intro σ τ hr _
      simpa [truth] using hr.1 n l hm
    · intro m hm'
      simp only [syms, List.mem_singleton, Prod.mk.injEq, and_true] at hm'
      exact hm' ▸ hk
  | none =>
    have hk : n ∉ T.booleans.map (·.1) := fun hk => by
      obtain ⟨v, hv⟩ := lookup_of_key hk
      rw [hv] at hl; cases hl
    refine ⟨h.addBool hk, ⟨List.prefix_refl _, List.prefix_append _ _⟩, rfl, rfl, ?_, ?_, ?_, by simp [atoms], ?_,
      fun c hc => Or.inl hc⟩
    · simp [syms, LitTables.lits]
    · intro σ τ hr _
      simpa [truth] using hr.1 n _ (by simp)
    · intro m hm'
      simp only [syms, List.mem_singleton, Prod.mk.injEq, and_true] at hm'
      simp [hm']
    · intro m hm'
      simpa [syms] using hm'

theorem extractTest_spec {T : LitTables} (h : T.Good) {l r f : Formula} (hf : f = .le l r ∨ f = .lt l r ∨ f = .equals l r)
    (hwt : wt .bool f = true) {g : Formula} {T' : LitTables} (he : extractTest T f [l, r] = .ok (g, T')) :
    Extracted K T f g T' := by
  unfold extractTest at he
  split at he
  · rename_i hreal
    rw [isAllRealList_iff] at hreal
    have hal := isAllReal_atoms l (hreal l (by simp))
    have har := isAllReal_atoms r (hreal r (by simp))
    have hsl := isAllReal_syms l (hreal l (by simp))
    have hsr := isAllReal_syms r (hreal r (by simp))
    have hsyms : ∀ n, (n, Ty.bool) ∉ syms f := by
      intro n hn
      have : (n, Ty.bool) ∈ syms l ++ syms r := by rcases hf with rfl | rfl | rfl <;> exact hn
      rcases List.mem_append.mp this with h' | h'
      · exact absurd (hsl _ h') (by simp)
      · exact absurd (hsr _ h') (by simp)
    have hatoms : atoms f = [f] := by
      rcases hf with rfl | rfl | rfl <;> simp [atoms, hal, har]
    cases hc : normalizeAtom f with
    | error e => rw [hc] at he; cases he
    | ok c =>
      rw [hc] at he
      have hcmp : f = .le l r ∨ f = .lt l r := by
        rcases hf with h' | h' | h'
        · exact Or.inl h'
        · exact Or.inr h'
        · obtain ⟨e, he'⟩ := normalizeAtom_equals l r
          rw [h', he'] at hc; cases hc
      have hw : wt .real l = true ∧ wt .real r = true := by
        rcases hcmp with rfl | rfl <;> simpa [wt] using hwt
      obtain ⟨-, hsem⟩ := normalizeAtom_sound (K := K) hw.1 hw.2 hcmp hc
      have hoff : ∀ σ : Env K, OffBoundary σ f → value σ l ≠ value σ r := by
        intro σ ho
        have := ho f (by rw [hatoms]; simp)
        rcases hcmp with rfl | rfl <;> exact this
      cases hl : T.abstractions.lookup c with
      | some x =>
        simp only [hl, Except.ok.injEq, Prod.mk.injEq] at he
        obtain ⟨rfl, rfl⟩ := he
        have hm := mem_of_dictGet hl
        refine ⟨h, .refl T, rfl, rfl, ?_, ?_, fun n hn => absurd hn (hsyms n), ?_, fun m hm => Or.inl hm,
          fun c hc => Or.inl hc⟩
        · simp only [syms, List.mem_singleton, forall_eq, true_and]
          exact List.mem_append_right _ (List.mem_map_of_mem (f := (·.2)) hm)
        · intro σ τ hr ho
          rw [← hsem σ (hoff σ ho)]
          simpa [truth] using hr.2 c x hm
        · rw [hatoms]
          intro a ha
          rw [List.mem_singleton] at ha
          exact ⟨c, List.mem_map_of_mem (f := (·.1)) hm, ha ▸ hc⟩
      | none =>
        simp only [hl, Except.ok.injEq, Prod.mk.injEq] at he
        obtain ⟨rfl, rfl⟩ := he
        have hk : c ∉ T.abstractions.map (·.1) := fun hk => by
          obtain ⟨v, hv⟩ := lookup_of_key hk
          rw [hv] at hl; cases hl
        refine ⟨h.addAtom hk, ⟨List.prefix_append _ _, List.prefix_refl _⟩, rfl, rfl, ?_, ?_,
          fun n hn => absurd hn (hsyms n), ?_, fun m hm => Or.inl hm, ?_⟩
        · simp [syms, LitTables.lits]
        · intro σ τ hr ho
          rw [← hsem σ (hoff σ ho)]
          simpa [truth] using hr.2 c _ (by simp)
        · rw [hatoms]
          intro a ha
          rw [List.mem_singleton] at ha
          exact ⟨c, by simp, ha ▸ hc⟩
        · intro d hd
          simp only [List.map_append, List.map_cons, List.map_nil, List.mem_append, List.mem_singleton] at hd
          refine hd.imp id fun e => ⟨f, by rw [hatoms]; simp, by rw [e]; exact hc⟩
  · cases he

theorem extractList_spec {as : List Formula}
    (ih : ∀ a ∈ as, ∀ (T : LitTables) (g : Formula) (T' : LitTables), T.Good → wt .bool a = true →
      extractRec a T = .ok (g, T') → Extracted K T a g T')
    {T : LitTables} (h : T.Good) (hwt : ∀ a ∈ as, wt .bool a = true) {gs : List Formula} {T' : LitTables}
    (he : extractList as T = .ok (gs, T')) : ExtractedL K T as gs T' := by
  induction as generalizing T gs T' with
  | nil =>
    simp only [extractList, Except.ok.injEq, Prod.mk.injEq] at he
    obtain ⟨rfl, rfl⟩ := he
    refine ⟨rfl, h, .refl T, by simp, by simp, by simp, by simp, by simp [symsList], by simp [atomsList],
      fun n hn => Or.inl hn, fun c hc => Or.inl hc⟩
  | cons a as iha =>
    simp only [extractList] at he
    cases h1 : extractRec a T with
    | error e => rw [h1] at he; cases he
    | ok p =>
      obtain ⟨r, T1⟩ := p
      rw [h1] at he
      simp only at he
      cases h2 : extractList as T1 with
      | error e => rw [h2] at he; cases he
      | ok q =>
        obtain ⟨rs, T2⟩ := q
        rw [h2] at he
        simp only [Except.ok.injEq, Prod.mk.injEq] at he
        obtain ⟨rfl, rfl⟩ := he
        have A := ih a (by simp) T r T1 h (hwt a (by simp)) h1
        have B := iha (fun x hx => ih x (by simp [hx])) A.good (fun x hx => hwt x (by simp [hx])) h2
        refine ⟨by simp [B.len], B.good, A.le.trans B.le, ?_, ?_, ?_, ?_, ?_, ?_, ?_, ?_⟩
        · intro g hg
          rcases List.mem_cons.mp hg with rfl | hg
          · exact A.wt
          · exact B.wt g hg
        · intro g hg
          rcases List.mem_cons.mp hg with rfl | hg
          · exact A.prop
          · exact B.prop g hg
        · intro g hg p hp
          rcases List.mem_cons.mp hg with rfl | hg
          · exact ⟨(A.lits p hp).1, B.le.lits (A.lits p hp).2⟩
          · exact B.lits g hg p hp
        · intro σ τ hr ho
          simp only [List.map_cons]
          rw [A.sem σ τ (hr.mono B.le) (ho a (by simp)), B.sem σ τ hr fun f hf => ho f (by simp [hf])]
        · intro n hn
          rcases List.mem_append.mp hn with hn | hn
          · exact (B.le.2.map _).subset (A.bools n hn)
          · exact B.bools n hn
        · intro x hx
          rcases List.mem_append.mp hx with hx | hx
          · obtain ⟨c, hc, hc'⟩ := A.recs x hx
            exact ⟨c, (B.le.1.map _).subset hc, hc'⟩
          · exact B.recs x hx
        · intro n hn
          rcases B.onlyBools n hn with hn | hn
          · exact (A.onlyBools n hn).imp id fun h => List.mem_append_left _ h
          · exact Or.inr (List.mem_append_right _ hn)
        · intro c hc
          rcases B.onlyAtoms c hc with hc | ⟨x, hx, hx'⟩
          · exact (A.onlyAtoms c hc).imp id fun ⟨x, hx, hx'⟩ => ⟨x, List.mem_append_left _ hx, hx'⟩
          · exact Or.inr ⟨x, List.mem_append_right _ hx, hx'⟩

theorem extractList_two (l r : Formula) (T : LitTables) :
    extractList [l, r] T = match extractRec l T with
      | .error e => .error e
      | .ok (a, T1) => match extractRec r T1 with
        | .ok (b, T2) => .ok ([a, b], T2)
        | .error e => .error e := by
  simp only [extractList]
  rcases extractRec l T with e | ⟨a, T1⟩
  · rfl
  · simp only
    rcases extractRec r T1 with e | ⟨b, T2⟩ <;> rfl

theorem extractList_three (c t f : Formula) (T : LitTables) :
    extractList [c, t, f] T = match extractRec c T with
      | .error e => .error e
      | .ok (a, T1) => match extractRec t T1 with
        | .error e => .error e
        | .ok (b, T2) => match extractRec f T2 with
          | .ok (d, T3) => .ok ([a, b, d], T3)
          | .error e => .error e := by
  simp only [extractList]
  rcases extractRec c T with e | ⟨a, T1⟩
  · rfl
  · simp only
    rcases extractRec t T1 with e | ⟨b, T2⟩
    · rfl
    · simp only
      rcases extractRec f T2 with e | ⟨d, T3⟩ <;> rfl

/-- The equation of `extractRec` at a connective, through the list of its arguments. -/
theorem extractRec_conn {f : Formula} {as : List Formula} {mk : List Formula → Formula} (T : LitTables)
    (hf : (f = .and as ∧ mk = mkAnd) ∨ (f = .or as ∧ mk = mkOr) ∨ (∃ a, f = .not a ∧ as = [a] ∧ mk = fun rs => mkNot rs.head!) ∨
      (∃ l r, f = .implies l r ∧ as = [l, r] ∧ mk = fun rs => .implies rs.head! rs[1]!) ∨
      (∃ l r, f = .iff l r ∧ as = [l, r] ∧ mk = fun rs => .iff rs.head! rs[1]!) ∨
      ∃ c t e, f = .ite c t e ∧ as = [c, t, e] ∧ mk = fun rs => .ite rs.head! rs[1]! rs[2]!) :
    extractRec f T = match extractList as T with
      | .ok (rs, T') => .ok (mk rs, T')
      | .error e => .error e := by
  rcases hf with ⟨rfl, rfl⟩ | ⟨rfl, rfl⟩ | ⟨a, rfl, rfl, rfl⟩ | ⟨l, r, rfl, rfl, rfl⟩ | ⟨l, r, rfl, rfl, rfl⟩ |
    ⟨c, t, e, rfl, rfl, rfl⟩
  · simp only [extractRec]
    rcases extractList as T with e | ⟨x, T1⟩ <;> rfl
  · simp only [extractRec]
    rcases extractList as T with e | ⟨x, T1⟩ <;> rfl
  · simp only [extractRec, extractList]
    rcases extractRec a T with e | ⟨x, T1⟩ <;> rfl
  · simp only [extractRec, extractList_two]
    rcases extractRec l T with e | ⟨x, T1⟩
    · rfl
    · simp only
      rcases extractRec r T1 with e | ⟨y, T2⟩ <;> rfl
  · simp only [extractRec, extractList_two]
    rcases extractRec l T with e | ⟨x, T1⟩
    · rfl
    · simp only
      rcases extractRec r T1 with e | ⟨y, T2⟩ <;> rfl
  · simp only [extractRec, extractList_three]
    rcases extractRec c T with e' | ⟨x, T1⟩
    · rfl
    · simp only
      rcases extractRec t T1 with e' | ⟨y, T2⟩
      · rfl
      · simp only
        rcases extractRec e T2 with e' | ⟨z, T3⟩ <;> rfl

/-- Combining the arguments by a connective. -/
theorem Extracted.ofList {T T' : LitTables} {f g : Formula} {as gs : List Formula} (h : ExtractedL K T as gs T')
    (hwt : Formula.wt .bool g = true) (hs : symsList as = syms f) (ha : atomsList as = atoms f)
    (hgs : ∀ p ∈ syms g, p ∈ symsList gs) (hga : ∀ p ∈ atoms g, p ∈ atomsList gs)
    (hsem : ∀ σ τ : Env K, gs.map (truth τ) = as.map (truth σ) → truth τ g = truth σ f) : Extracted K T f g T' := by
  refine ⟨h.good, h.le, hwt, ?_, ?_, ?_, ?_, ?_, ?_, ?_⟩
  · rw [List.eq_nil_iff_forall_not_mem]
    intro x hx
    obtain ⟨a, ha', hxa⟩ := mem_atomsList.mp (hga x hx)
    rw [h.prop a ha'] at hxa
    cases hxa
  · intro p hp
    obtain ⟨a, ha', hpa⟩ := mem_symsList.mp (hgs p hp)
    exact h.lits a ha' p hpa
  · intro σ τ hr ho
    exact hsem σ τ (h.sem σ τ hr fun x hx y hy => ho y (ha ▸ mem_atomsList.mpr ⟨x, hx, hy⟩))
  · exact hs ▸ h.bools
  · exact ha ▸ h.recs
  · exact hs ▸ h.onlyBools
  · exact ha ▸ h.onlyAtoms

theorem extractRec_spec (f : Formula) : ∀ (T : LitTables) (g : Formula) (T' : LitTables), T.Good → wt .bool f = true →
    extractRec f T = .ok (g, T') → Extracted K T f g T' := by
  have key : ∀ (f : Formula) (as : List Formula) (mk : List Formula → Formula)
      (hf : (f = .and as ∧ mk = mkAnd) ∨ (f = .or as ∧ mk = mkOr) ∨
        (∃ a, f = .not a ∧ as = [a] ∧ mk = fun rs => mkNot rs.head!) ∨
        (∃ l r, f = .implies l r ∧ as = [l, r] ∧ mk = fun rs => .implies rs.head! rs[1]!) ∨
        (∃ l r, f = .iff l r ∧ as = [l, r] ∧ mk = fun rs => .iff rs.head! rs[1]!) ∨
        ∃ c t e, f = .ite c t e ∧ as = [c, t, e] ∧ mk = fun rs => .ite rs.head! rs[1]! rs[2]!)
      (hwa : ∀ a ∈ as, wt .bool a = true)
      (ih : ∀ a ∈ as, ∀ (T : LitTables) (g : Formula) (T' : LitTables), T.Good → wt .bool a = true →
        extractRec a T = .ok (g, T') → Extracted K T a g T') (T : LitTables) (g : Formula) (T' : LitTables) (h : T.Good)
      (he : extractRec f T = .ok (g, T')), ∃ gs, ExtractedL K T as gs T' ∧ g = mk gs := by
    intro f as mk hf hwa ih T g T' h he
    rw [extractRec_conn T hf] at he
    cases hl : extractList as T with
    | error e => rw [hl] at he; cases he
    | ok p =>
      obtain ⟨gs, T''⟩ := p
      rw [hl] at he
      simp only [Except.ok.injEq, Prod.mk.injEq] at he
      obtain ⟨rfl, rfl⟩ := he
      exact ⟨gs, extractList_spec ih h hwa hl, rfl⟩
  induction f using Formula.induct with
  | and as ih =>
    intro T g T' h hwt he
    simp only [wt, Bool.and_eq_true, wtAll_iff] at hwt
    obtain ⟨gs, hE, rfl⟩ := key _ as mkAnd (Or.inl ⟨rfl, rfl⟩) hwt.2 ih T g T' h he
    exact .ofList hE (wt_mkAnd hE.wt) rfl rfl (by simp [syms_mkAnd]) (by simp [atoms_mkAnd])
      fun σ τ h => by simp only [truth_mkAnd, truth, truthAll_eq]; exact all_of_map_eq h
  | or as ih =>
    intro T g T' h hwt he
    simp only [wt, Bool.and_eq_true, wtAll_iff] at hwt
    obtain ⟨gs, hE, rfl⟩ := key _ as mkOr (Or.inr (Or.inl ⟨rfl, rfl⟩)) hwt.2 ih T g T' h he
    exact .ofList hE (wt_mkOr hE.wt) rfl rfl (by simp [syms_mkOr]) (by simp [atoms_mkOr])
      fun σ τ h => by simp only [truth_mkOr, truth, truthAny_eq]; exact any_of_map_eq h
  | not a ih =>
    intro T g T' h hwt he
    simp only [wt] at hwt
    obtain ⟨gs, hE, rfl⟩ := key _ [a] _ (Or.inr (Or.inr (Or.inl ⟨a, rfl, rfl, rfl⟩))) (by simpa using hwt)
      (by simpa using ih) T g T' h he
    obtain ⟨x, rfl⟩ := List.length_eq_one_iff.mp hE.len
    have hx := hE.wt x (by simp)
    refine .ofList hE (wt_mkNot hx) (by simp [symsList, syms]) (by simp [atomsList, atoms]) ?_ ?_ ?_
    · simp [syms_mkNot, symsList]
    · simp [atoms_mkNot, atomsList]
    · intro σ τ h
      simp only [List.map_cons, List.map_nil, List.cons.injEq, and_true] at h
      simp [truth, h]
  | implies l r ihl ihr =>
    intro T g T' h hwt he
    simp only [wt, Bool.and_eq_true] at hwt
    obtain ⟨gs, hE, rfl⟩ := key _ [l, r] _ (Or.inr (Or.inr (Or.inr (Or.inl ⟨l, r, rfl, rfl, rfl⟩)))) (by simpa using hwt)
      (by simpa using ⟨ihl, ihr⟩) T g T' h he
    obtain ⟨x, y, rfl⟩ := List.length_eq_two.mp hE.len
    have hx := hE.wt x (by simp)
    have hy := hE.wt y (by simp)
    refine .ofList hE (by simp [wt, hx, hy]) (by simp [symsList, syms]) (by simp [atomsList, atoms]) ?_ ?_ ?_
    · simp [syms, symsList]
    · simp [atoms, atomsList]
    · intro σ τ h
      simp only [List.map_cons, List.map_nil, List.cons.injEq, and_true] at h
      simp [truth, h]
  | iff l r ihl ihr =>
    intro T g T' h hwt he
    simp only [wt, Bool.and_eq_true] at hwt
    obtain ⟨gs, hE, rfl⟩ := key _ [l, r] _ (Or.inr (Or.inr (Or.inr (Or.inr (Or.inl ⟨l, r, rfl, rfl, rfl⟩)))))
      (by simpa using hwt) (by simpa using ⟨ihl, ihr⟩) T g T' h he
    obtain ⟨x, y, rfl⟩ := List.length_eq_two.mp hE.len
    have hx := hE.wt x (by simp)
    have hy := hE.wt y (by simp)
    refine .ofList hE (by simp [wt, hx, hy]) (by simp [symsList, syms]) (by simp [atomsList, atoms]) ?_ ?_ ?_
    · simp [syms, symsList]
    · simp [atoms, atomsList]
    · intro σ τ h
      simp only [List.map_cons, List.map_nil, List.cons.injEq, and_true] at h
      simp [truth, h]
  | ite c t e ihc iht ihe =>
    intro T g T' h hwt he
    simp only [wt, Bool.and_eq_true] at hwt
    obtain ⟨gs, hE, rfl⟩ := key _ [c, t, e] _ (Or.inr (Or.inr (Or.inr (Or.inr (Or.inr ⟨c, t, e, rfl, rfl, rfl⟩)))))
      (by simpa [and_assoc] using hwt) (by simpa using ⟨ihc, iht, ihe⟩) T g T' h he
    obtain ⟨x, y, z, rfl⟩ := List.length_eq_three.mp hE.len
    have hx := hE.wt x (by simp)
    have hy := hE.wt y (by simp)
    have hz := hE.wt z (by simp)
    refine .ofList hE (by simp [wt, hx, hy, hz]) (by simp [symsList, syms]) (by simp [atomsList, atoms]) ?_ ?_ ?_
    · simp [syms, symsList]
    · simp [atoms, atomsList]
    · intro σ τ h
      simp only [List.map_cons, List.map_nil, List.cons.injEq, and_true] at h
      simp [truth, h]
  | le l r _ _ =>
    intro T g T' h hwt he
    exact extractTest_spec h (Or.inl rfl) hwt (by simpa only [extractRec] using he)
  | lt l r _ _ =>
    intro T g T' h hwt he
    exact extractTest_spec h (Or.inr (Or.inl rfl)) hwt (by simpa only [extractRec] using he)
  | equals l r _ _ =>
    intro T g T' h hwt he
    exact extractTest_spec h (Or.inr (Or.inr rfl)) hwt (by simpa only [extractRec] using he)
  | sym n ty =>
    intro T g T' h hwt he
    cases ty with
    | bool =>
      simp only [extractRec, if_true, Except.ok.injEq] at he
      have := extractSym_spec (K := K) h n
      rw [he] at this
      exact this
    | real => simp [extractRec] at he
  | boolC b =>
    intro T g T' h hwt he
    simp only [extractRec, Except.ok.injEq, Prod.mk.injEq] at he
    obtain ⟨rfl, rfl⟩ := he
    exact ⟨h, .refl T, rfl, rfl, by simp [syms], fun _ _ _ _ => rfl, by simp [syms], by simp [atoms],
      fun n hn => Or.inl hn, fun c hc => Or.inl hc⟩
  | _ => intro T g T' h hwt he; simp [extractRec] at he

/-! ### Repeated extraction (why the cache can be left out) -/

theorem lookup_prefix {κ ν : Type} [DecidableEq κ] {d e : List (κ × ν)} (h : d <+: e) {k : κ} {v : ν}
    (hl : d.lookup k = some v) : e.lookup k = some v := by
  obtain ⟨t, rfl⟩ := h
  induction d with
  | nil => simp at hl
  | cons p d ih =>
    obtain ⟨k', w⟩ := p
    by_cases hk : k = k'
    · subst hk
      simpa [List.lookup] using hl
    · have hb : (k == k') = false := beq_eq_false_iff_ne.mpr hk
      simp only [List.cons_append, List.lookup, hb] at hl ⊢
      exact ih hl

theorem lookup_snoc {κ ν : Type} [DecidableEq κ] {d : List (κ × ν)} {k : κ} (v : ν) (hl : d.lookup k = none) :
    (d ++ [(k, v)]).lookup k = some v := by
  induction d with
  | nil => simp [List.lookup]
  | cons p d ih =>
    obtain ⟨k', w⟩ := p
    by_cases hk : k = k'
    · subst hk
      simp [List.lookup] at hl
    · have hb : (k == k') = false := beq_eq_false_iff_ne.mpr hk
      simp only [List.cons_append, List.lookup, hb] at hl ⊢
      exact ih hl

theorem extractSym_again {T U : LitTables} {n : String} (hle : (extractSym T n).2.Le U) :
    extractSym U n = ((extractSym T n).1, U) := by
  unfold extractSym at hle ⊢
  cases hl : T.booleans.lookup n with
  | some l =>
    simp only [hl] at hle
    simp only [lookup_prefix hle.2 hl]
  | none =>
    simp only [hl] at hle
    simp only [lookup_prefix hle.2 (lookup_snoc _ hl)]

theorem extractTest_again {T U T' : LitTables} {f g : Formula} {as : List Formula}
    (h : extractTest T f as = .ok (g, T')) (hle : T'.Le U) : extractTest U f as = .ok (g, U) := by
  unfold extractTest at h ⊢
  split at h
  · rename_i hr
    rw [if_pos hr]
    cases hc : normalizeAtom f with
    | error e => rw [hc] at h; cases h
    | ok c =>
      rw [hc] at h
      cases hl : T.abstractions.lookup c with
      | some x =>
        simp only [hl, Except.ok.injEq, Prod.mk.injEq] at h
        obtain ⟨rfl, rfl⟩ := h
        simp only [lookup_prefix hle.1 hl]
      | none =>
        simp only [hl, Except.ok.injEq, Prod.mk.injEq] at h
        obtain ⟨rfl, rfl⟩ := h
        simp only [lookup_prefix hle.1 (lookup_snoc _ hl)]
  · cases h

theorem extractSym_le (T : LitTables) (n : String) : T.Le (extractSym T n).2 := by
  unfold extractSym
  cases T.booleans.lookup n with
  | some l => exact .refl T
  | none => exact ⟨List.prefix_refl _, List.prefix_append _ _⟩

theorem extractTest_le {T T' : LitTables} {f g : Formula} {as : List Formula}
    (h : extractTest T f as = .ok (g, T')) : T.Le T' := by
  unfold extractTest at h
  split at h
  · cases hc : normalizeAtom f with
    | error e => rw [hc] at h; cases h
    | ok c =>
      rw [hc] at h
      cases hl : T.abstractions.lookup c with
      | some x =>
        simp only [hl, Except.ok.injEq, Prod.mk.injEq] at h
        obtain ⟨rfl, rfl⟩ := h
        exact .refl T
      | none =>
        simp only [hl, Except.ok.injEq, Prod.mk.injEq] at h
        obtain ⟨rfl, rfl⟩ := h
        exact ⟨List.prefix_append _ _, List.prefix_refl _⟩
  · cases h

theorem extractList_again {as : List Formula}
    (ih : ∀ a ∈ as, ∀ (T T' : LitTables) (g : Formula), extractRec a T = .ok (g, T') →
      T.Le T' ∧ ∀ U : LitTables, T'.Le U → extractRec a U = .ok (g, U)) {T T' : LitTables} {gs : List Formula}
    (h : extractList as T = .ok (gs, T')) : T.Le T' ∧ ∀ U : LitTables, T'.Le U → extractList as U = .ok (gs, U) := by
  induction as generalizing T T' gs with
  | nil =>
    simp only [extractList, Except.ok.injEq, Prod.mk.injEq] at h
    obtain ⟨rfl, rfl⟩ := h
    exact ⟨.refl T, fun U _ => rfl⟩
  | cons a as iha =>
    simp only [extractList] at h
    cases h1 : extractRec a T with
    | error e => rw [h1] at h; cases h
    | ok p =>
      obtain ⟨r, T1⟩ := p
      rw [h1] at h
      simp only at h
      cases h2 : extractList as T1 with
      | error e => rw [h2] at h; cases h
      | ok q =>
        obtain ⟨rs, T2⟩ := q
        rw [h2] at h
        simp only [Except.ok.injEq, Prod.mk.injEq] at h
        obtain ⟨rfl, rfl⟩ := h
        obtain ⟨l1, r1⟩ := ih a (by simp) _ _ _ h1
        obtain ⟨l2, r2⟩ := iha (fun x hx => ih x (by simp [hx])) h2
        refine ⟨l1.trans l2, fun U hU => ?_⟩
        simp only [extractList, r1 U (l2.trans hU), r2 U hU]

/-- Extracting a formula again, with the tables left by the first time or any later ones, gives the same result and
changes nothing; so whether the bounded cache of `recurse` still holds the entry is not observable. -/
theorem extract_again (f : Formula) : ∀ (T T' : LitTables) (g : Formula), extractRec f T = .ok (g, T') →
    T.Le T' ∧ ∀ U : LitTables, T'.Le U → extractRec f U = .ok (g, U) := by
  have key : ∀ (f : Formula) (as : List Formula) (mk : List Formula → Formula)
      (_ : (f = .and as ∧ mk = mkAnd) ∨ (f = .or as ∧ mk = mkOr) ∨
        (∃ a, f = .not a ∧ as = [a] ∧ mk = fun rs => mkNot rs.head!) ∨
        (∃ l r, f = .implies l r ∧ as = [l, r] ∧ mk = fun rs => .implies rs.head! rs[1]!) ∨
        (∃ l r, f = .iff l r ∧ as = [l, r] ∧ mk = fun rs => .iff rs.head! rs[1]!) ∨
        ∃ c t e, f = .ite c t e ∧ as = [c, t, e] ∧ mk = fun rs => .ite rs.head! rs[1]! rs[2]!)
      (_ : ∀ a ∈ as, ∀ (T T' : LitTables) (g : Formula), extractRec a T = .ok (g, T') →
        T.Le T' ∧ ∀ U : LitTables, T'.Le U → extractRec a U = .ok (g, U)),
      ∀ (T T' : LitTables) (g : Formula), extractRec f T = .ok (g, T') →
        T.Le T' ∧ ∀ U : LitTables, T'.Le U → extractRec f U = .ok (g, U) := by
    intro f as mk hf ih T T' g he
    rw [extractRec_conn T hf] at he
    cases hl : extractList as T with
    | error e => rw [hl] at he; cases he
    | ok p =>
      obtain ⟨gs, T''⟩ := p
      rw [hl] at he
      simp only [Except.ok.injEq, Prod.mk.injEq] at he
      obtain ⟨rfl, rfl⟩ := he
      obtain ⟨h1, h2⟩ := extractList_again ih hl
      refine ⟨h1, fun U hU => ?_⟩
      rw [extractRec_conn U hf, h2 U hU]
  induction f using Formula.induct with
  | and as ih => exact key _ as _ (Or.inl ⟨rfl, rfl⟩) ih
  | or as ih => exact key _ as _ (Or.inr (Or.inl ⟨rfl, rfl⟩)) ih
  | not a ih => exact key _ [a] _ (Or.inr (Or.inr (Or.inl ⟨a, rfl, rfl, rfl⟩))) (by simpa using ih)
  | implies l r ihl ihr =>
    exact key _ [l, r] _ (Or.inr (Or.inr (Or.inr (Or.inl ⟨l, r, rfl, rfl, rfl⟩)))) (by simpa using ⟨ihl, ihr⟩)
  | iff l r ihl ihr =>
    exact key _ [l, r] _ (Or.inr (Or.inr (Or.inr (Or.inr (Or.inl ⟨l, r, rfl, rfl, rfl⟩))))) (by simpa using ⟨ihl, ihr⟩)
  | ite c t e ihc iht ihe =>
    exact key _ [c, t, e] _ (Or.inr (Or.inr (Or.inr (Or.inr (Or.inr ⟨c, t, e, rfl, rfl, rfl⟩)))))
      (by simpa using ⟨ihc, iht, ihe⟩)
  | le l r _ _ =>
    intro T T' g h
    simp only [extractRec] at h ⊢
    exact ⟨extractTest_le h, fun U hU => extractTest_again h hU⟩
  | lt l r _ _ =>
    intro T T' g h
    simp only [extractRec] at h ⊢
    exact ⟨extractTest_le h, fun U hU => extractTest_again h hU⟩
  | equals l r _ _ =>
    intro T T' g h
    simp only [extractRec] at h ⊢
    exact ⟨extractTest_le h, fun U hU => extractTest_again h hU⟩
  | sym n ty =>
    intro T T' g h
    cases ty with
    | bool =>
      simp only [extractRec, if_true, Except.ok.injEq] at h ⊢
      have h1 : (extractSym T n).2 = T' := by rw [h]
      have h2 : (extractSym T n).1 = g := by rw [h]
      exact ⟨h1 ▸ extractSym_le T n, fun U hU => by rw [extractSym_again (h1 ▸ hU), h2]⟩
    | real => simp [extractRec] at h
  | boolC b =>
    intro T T' g h
    simp only [extractRec, Except.ok.injEq, Prod.mk.injEq] at h
    obtain ⟨rfl, rfl⟩ := h
    exact ⟨.refl T, fun U _ => by simp [extractRec]⟩
  | _ => intro T T' g h; simp [extractRec] at h

/-! ### Which formulas are accepted -/

mutual
/-- SPEC: a propositional combination of Boolean variables and linear inequalities. -/
def litOk : Formula → Bool
  | .boolC _ => true
  | .sym _ ty => ty = .bool
  | .and as => litOkAll as
  | .or as => litOkAll as
  | .not a => litOk a
  | .implies l r => litOk l && litOk r
  | .iff l r => litOk l && litOk r
  | .ite c t e => litOk c && (litOk t && litOk e)
  | .le l r => linTerm l && linTerm r
  | .lt l r => linTerm l && linTerm r
  | _ => false
/-- SPEC: the same for all formulas of a list. -/
def litOkAll : List Formula → Bool
  | [] => true
  | a :: as => litOk a && litOkAll as
end

theorem litOkAll_iff (as : List Formula) : litOkAll as = true ↔ ∀ a ∈ as, litOk a = true := by
  induction as with
  | nil => simp [litOkAll]
  | cons a as ih => simp [litOkAll, ih]

theorem extractTest_total {l r f : Formula} (hf : f = .le l r ∨ f = .lt l r) (hl : linTerm l = true)
    (hr : linTerm r = true) (T : LitTables) : ∃ p, extractTest T f [l, r] = .ok p := by
  obtain ⟨c, hc, -⟩ := normalizeAtom_correct (K := ℚ) hl hr hf
  unfold extractTest
  rw [if_pos ((isAllRealList_iff _).mpr (by simp [linTerm_allReal l hl, linTerm_allReal r hr])), hc]
  cases hlk : T.abstractions.lookup c with
  | none => exact ⟨_, by simp only [hlk]; rfl⟩
  | some x => exact ⟨_, by simp only [hlk]; rfl⟩

theorem extractList_total {as : List Formula} (ih : ∀ a ∈ as, ∀ T, ∃ p, extractRec a T = .ok p) (T : LitTables) :
    ∃ p, extractList as T = .ok p := by
  induction as generalizing T with
  | nil => exact ⟨_, rfl⟩
  | cons a as iha =>
    obtain ⟨⟨r, T1⟩, h1⟩ := ih a (by simp) T
    obtain ⟨⟨rs, T2⟩, h2⟩ := iha (fun x hx => ih x (by simp [hx])) T1
    exact ⟨(r :: rs, T2), by simp only [extractList, h1, h2]⟩

theorem extractRec_total (f : Formula) : litOk f = true → ∀ T, ∃ p, extractRec f T = .ok p := by
  have key : ∀ (f : Formula) (as : List Formula) (mk : List Formula → Formula)
      (_ : (f = .and as ∧ mk = mkAnd) ∨ (f = .or as ∧ mk = mkOr) ∨
        (∃ a, f = .not a ∧ as = [a] ∧ mk = fun rs => mkNot rs.head!) ∨
        (∃ l r, f = .implies l r ∧ as = [l, r] ∧ mk = fun rs => .implies rs.head! rs[1]!) ∨
        (∃ l r, f = .iff l r ∧ as = [l, r] ∧ mk = fun rs => .iff rs.head! rs[1]!) ∨
        ∃ c t e, f = .ite c t e ∧ as = [c, t, e] ∧ mk = fun rs => .ite rs.head! rs[1]! rs[2]!)
      (_ : ∀ a ∈ as, ∀ T, ∃ p, extractRec a T = .ok p), ∀ T, ∃ p, extractRec f T = .ok p := by
    intro f as mk hf ih T
    obtain ⟨⟨gs, T'⟩, h⟩ := extractList_total ih T
    exact ⟨(mk gs, T'), by rw [extractRec_conn T hf, h]⟩
  induction f using Formula.induct with
  | and as ih =>
    intro h
    simp only [litOk, litOkAll_iff] at h
    exact key _ as _ (Or.inl ⟨rfl, rfl⟩) fun a ha => ih a ha (h a ha)
  | or as ih =>
    intro h
    simp only [litOk, litOkAll_iff] at h
    exact key _ as _ (Or.inr (Or.inl ⟨rfl, rfl⟩)) fun a ha => ih a ha (h a ha)
  | not a ih =>
    intro h
    simp only [litOk] at h
    exact key _ [a] _ (Or.inr (Or.inr (Or.inl ⟨a, rfl, rfl, rfl⟩))) (by simpa using ih h)
  | implies l r ihl ihr =>
    intro h
    simp only [litOk, Bool.and_eq_true] at h
    exact key _ [l, r] _ (Or.inr (Or.inr (Or.inr (Or.inl ⟨l, r, rfl, rfl, rfl⟩)))) (by simp only [List.forall_mem_cons]; exact ⟨ihl h.1, ihr h.2, by simp⟩)
  | iff l r ihl ihr =>
    intro h
    simp only [litOk, Bool.and_eq_true] at h
    exact key _ [l, r] _ (Or.inr (Or.inr (Or.inr (Or.inr (Or.inl ⟨l, r, rfl, rfl, rfl⟩)))))
      (by simp only [List.forall_mem_cons]; exact ⟨ihl h.1, ihr h.2, by simp⟩)
  | ite c t e ihc iht ihe =>
    intro h
    simp only [litOk, Bool.and_eq_true] at h
    exact key _ [c, t, e] _ (Or.inr (Or.inr (Or.inr (Or.inr (Or.inr ⟨c, t, e, rfl, rfl, rfl⟩)))))
      (by simp only [List.forall_mem_cons]; exact ⟨ihc h.1, iht h.2.1, ihe h.2.2, by simp⟩)
  | le l r _ _ =>
    intro h T
    simp only [litOk, Bool.and_eq_true] at h
    simpa only [extractRec] using extractTest_total (Or.inl rfl) h.1 h.2 T
  | lt l r _ _ =>
    intro h T
    simp only [litOk, Bool.and_eq_true] at h
    simpa only [extractRec] using extractTest_total (Or.inr rfl) h.1 h.2 T
  | sym n ty =>
    intro h T
    simp only [litOk, decide_eq_true_eq] at h
    exact ⟨extractSym T n, by simp only [extractRec, if_pos h]⟩
  | boolC b => intro _ T; exact ⟨_, rfl⟩
  | _ => intro h; simp [litOk] at h

/-! ### The property -/

/-- SPEC: the assignment of literals that reports `σ`: each literal has the truth value of the variable or inequality it
stands for. -/
def LiteralInfo.report (L : LiteralInfo) (σ : Env K) : Env K :=
  { b := fun l => match L.literals.lookup l with
      | some (.bool n) => σ.b n
      | some (.atom a) => truth σ a
      | none => false
    r := σ.r }

theorem empty_good : (⟨[], []⟩ : LitTables).Good := ⟨by simp, by simp, by simp, by simp⟩

/-- **C43**: whenever extraction succeeds on a formula, the result is propositional over the recorded literals; giving
each literal the truth value of what it stands for yields the truth value of the original at every assignment off the
boundaries; exactly the Boolean variables and (normalised) inequalities of the formula are recorded, each with one
literal; and literals never collide. -/
theorem extractLiterals_correct {f g : Formula} {L : LiteralInfo} (hwt : wt .bool f = true)
    (h : extractLiterals f = .ok (g, L)) :
    L.Linked ∧ wt .bool g = true ∧ atoms g = [] ∧ (∀ p ∈ syms g, p.2 = .bool ∧ p.1 ∈ L.literals.map (·.1)) ∧
    (∀ σ : Env K, OffBoundary σ f → truth (L.report σ) g = truth σ f) ∧
    (∀ n, n ∈ L.booleans.map (·.1) ↔ (n, Ty.bool) ∈ syms f) ∧
    (∀ c, c ∈ L.abstractions.map (·.1) ↔ ∃ a ∈ atoms f, normalizeAtom a = .ok c) := by
  unfold extractLiterals at h
  cases he : extractRec f ⟨[], []⟩ with
  | error e => rw [he] at h; cases h
  | ok p =>
    obtain ⟨g', T⟩ := p
    rw [he] at h
    simp only at h
    have E := extractRec_spec (K := K) f _ g' T empty_good hwt he
    obtain ⟨L', hL, hlink, hA, hB⟩ := LiteralInfo.make_linked E.good.atomKeys E.good.boolKeys E.good.lits_nodup
    rw [hL] at h
    simp only [Except.ok.injEq, Prod.mk.injEq] at h
    obtain ⟨rfl, rfl⟩ := h
    refine ⟨hlink, E.wt, E.prop, ?_, ?_, ?_, ?_⟩
    · intro p hp
      refine ⟨(E.lits p hp).1, ?_⟩
      rcases List.mem_append.mp (E.lits p hp).2 with h | h
      · obtain ⟨q, hq, hq'⟩ := List.mem_map.mp h
        exact List.mem_map.mpr ⟨(q.2, .bool q.1), (hlink.2.1 q.2 q.1).mpr (hB ▸ hq), hq'⟩
      · obtain ⟨q, hq, hq'⟩ := List.mem_map.mp h
        exact List.mem_map.mpr ⟨(q.2, .atom q.1), (hlink.2.2 q.2 q.1).mpr (hA ▸ hq), hq'⟩
    · intro σ ho
      refine E.sem σ _ ⟨?_, ?_⟩ ho
      · intro n l hm
        have := lookup_mem_nodup hlink.1.1 ((hlink.2.1 l n).mpr (hB ▸ hm))
        simp [LiteralInfo.report, this]
      · intro a l hm
        have := lookup_mem_nodup hlink.1.1 ((hlink.2.2 l a).mpr (hA ▸ hm))
        simp [LiteralInfo.report, this]
    · intro n
      rw [hB]
      exact ⟨fun hn => (E.onlyBools n hn).resolve_left (by simp), E.bools n⟩
    · intro c
      rw [hA]
      refine ⟨fun hc => (E.onlyAtoms c hc).resolve_left (by simp), ?_⟩
      rintro ⟨a, ha, hac⟩
      obtain ⟨c', hc', hac'⟩ := E.recs a ha
      rw [hac] at hac'
      cases hac'
      exact hc'

/-- **C43**, totality: extraction succeeds on every propositional combination of Boolean variables and linear
inequalities. -/
theorem extractLiterals_total {f : Formula} (hwt : wt .bool f = true) (h : litOk f = true) :
    ∃ g L, extractLiterals f = .ok (g, L) := by
  obtain ⟨⟨g, T⟩, he⟩ := extractRec_total f h ⟨[], []⟩
  have E := extractRec_spec (K := ℚ) f _ g T empty_good hwt he
  obtain ⟨L, hL, -⟩ := LiteralInfo.make_linked E.good.atomKeys E.good.boolKeys E.good.lits_nodup
  exact ⟨g, L, by simp only [extractLiterals, he, hL]⟩

/-- An equality between reals is refused with an exception, never silently dropped. -/
theorem extract_equals_raises (l r : Formula) (T : LitTables) : ∃ e, extractRec (.equals l r) T = .error e := by
  obtain ⟨e, he⟩ := normalizeAtom_equals l r
  simp only [extractRec, extractTest, he]
  split
  · exact ⟨e, rfl⟩
  · exact ⟨_, rfl⟩

end

/-- A formula with a repeated inequality (once scaled) and a repeated Boolean. -/
def sampleExtract : Formula :=
  .and [.sym "A" .bool, .or [.le (.sym "x" .real) (.realC 1), .not (.sym "A" .bool)],
    .implies (.lt (.times [.realC 2, .sym "x" .real]) (.realC 2)) (.le (.sym "y" .real) (.sym "x" .real))]

theorem sampleExtract_ok : wt .bool sampleExtract = true ∧ litOk sampleExtract = true := by decide +kernel

end Pywmi
