import Mathlib.Data.Nat.Digits.Defs
import Verif.Engine.Wrappers
import Verif.Props.Engine

set_option linter.unusedSectionVars false
set_option linter.unusedSimpArgs false

/-!
# C75: the engines that call an external solver
-/

namespace Pywmi
open Formula Prog MeasureTheory

/-! ### SPEC: result lines -/

/-- SPEC: a decimal digit. -/
def Dig (c : Char) : Prop := c ∈ "0123456789".toList

/-- SPEC: a text the pattern accepts as a number. -/
def NumText (t : List Char) : Prop :=
  ∃ s i f x m e, t = s ++ (i ++ ('.' :: (f ++ (x ++ (m ++ e))))) ∧ (s = [] ∨ s = ['-']) ∧ i ≠ [] ∧ (∀ c ∈ i, Dig c) ∧
    f ≠ [] ∧ (∀ c ∈ f, Dig c) ∧ (x = [] ∨ x = ['E']) ∧ (m = [] ∨ m = ['-']) ∧ (∀ c ∈ e, Dig c)

/-- SPEC: a line that consists of two numbers. -/
def ResultLine (l : List Char) (p : List Char × List Char) : Prop := l = p.1 ++ ' ' :: p.2 ∧ NumText p.1 ∧ NumText p.2

/-- SPEC: a text made of lines. -/
def linesText : List (List Char) → List Char
  | [] => []
  | [l] => l
  | l :: ls => l ++ '\n' :: linesText ls

/-- SPEC: the results read from the lines that follow the first: the line after a result line is not looked at, nor is
the last one. -/
inductive Reported : List (List Char) → List (List Char × List Char) → Prop
  | nil : Reported [] []
  | last (l) : Reported [l] []
  | hit {l l' ls p ps} : ResultLine l p → Reported ls ps → Reported (l :: l' :: ls) (p :: ps)
  | miss {l l' ls ps} : (∀ p, ¬ ResultLine l p) → Reported (l' :: ls) ps → Reported (l :: l' :: ls) ps

/-! ### The matcher -/

theorem isDigit_iff (c : Char) : Rx.isDigit c = true ↔ Dig c := by
  have hc : ∀ d : Char, c = d ↔ c.toNat = d.toNat := fun d => ⟨fun h => by rw [h], fun h => Char.toNat_inj.mp h⟩
  have h1 : ('0' ≤ c) ↔ 48 ≤ c.toNat := by rw [Char.le_def]; exact UInt32.le_iff_toNat_le
  have h2 : (c ≤ '9') ↔ c.toNat ≤ 57 := by rw [Char.le_def]; exact UInt32.le_iff_toNat_le
  simp only [Rx.isDigit, Dig, Bool.and_eq_true, decide_eq_true_eq, h1, h2]
  have : "0123456789".toList = ['0', '1', '2', '3', '4', '5', '6', '7', '8', '9'] := rfl
  rw [this]
  simp only [List.mem_cons, List.not_mem_nil, or_false, hc]
  have e : ('0'.toNat = 48) ∧ ('1'.toNat = 49) ∧ ('2'.toNat = 50) ∧ ('3'.toNat = 51) ∧ ('4'.toNat = 52) ∧ ('5'.toNat = 53) ∧
    ('6'.toNat = 54) ∧ ('7'.toNat = 55) ∧ ('8'.toNat = 56) ∧ ('9'.toNat = 57) := by decide
  obtain ⟨e0, e1, e2, e3, e4, e5, e6, e7, e8, e9⟩ := e
  rw [e0, e1, e2, e3, e4, e5, e6, e7, e8, e9]
  omega

namespace Rx

/-- The pattern matches exactly the prefixes in the language. -/
def Lang (p : Rx) (L : List Char → Prop) : Prop := ∀ s m r, (m, r) ∈ p s ↔ s = m ++ r ∧ L m

theorem lang_chr (c : Char) : Lang (chr c) fun m => m = [c] := by
  intro s m r
  cases s with
  | nil => simp only [chr, List.not_mem_nil, false_iff]; rintro ⟨h, rfl⟩; simp at h
  | cons d s =>
    simp only [chr]
    split_ifs with h
    · subst h
      simp only [List.mem_singleton, Prod.mk.injEq]
      constructor
      · rintro ⟨rfl, rfl⟩; exact ⟨rfl, rfl⟩
      · rintro ⟨h, rfl⟩; simp at h; exact ⟨rfl, h.symm⟩
    · simp only [List.not_mem_nil, false_iff]
      rintro ⟨h', rfl⟩; simp at h'; exact h h'.1

theorem lang_opt {p : Rx} {L : List Char → Prop} (h : Lang p L) : Lang (opt p) fun m => m = [] ∨ L m := by
  intro s m r
  simp only [opt, List.mem_append, h s m r, List.mem_singleton, Prod.mk.injEq]
  constructor
  · rintro (⟨h1, h2⟩ | ⟨rfl, rfl⟩)
    · exact ⟨h1, .inr h2⟩
    · exact ⟨rfl, .inl rfl⟩
  · rintro ⟨h1, rfl | h2⟩
    · exact .inr ⟨rfl, by simpa using h1.symm⟩
    · exact .inl ⟨h1, h2⟩

theorem lang_seq {p q : Rx} {L M : List Char → Prop} (h : Lang p L) (h' : Lang q M) :
    Lang (seq p q) fun m => ∃ a b, m = a ++ b ∧ L a ∧ M b := by
  intro s m r
  simp only [seq, List.mem_flatMap, List.mem_map, Prod.exists, Prod.mk.injEq]
  constructor
  · rintro ⟨a, s', h1, b, r', h2, rfl, rfl⟩
    obtain ⟨rfl, ha⟩ := (h _ _ _).mp h1
    obtain ⟨rfl, hb⟩ := (h' _ _ _).mp h2
    exact ⟨by simp, a, b, rfl, ha, hb⟩
  · rintro ⟨rfl, a, b, rfl, ha, hb⟩
    exact ⟨a, b ++ r, (h _ _ _).mpr ⟨by simp, ha⟩, b, r, (h' _ _ _).mpr ⟨rfl, hb⟩, rfl, rfl⟩

theorem lang_digits0 : Lang digits0 fun m => ∀ c ∈ m, Dig c := by
  intro s
  induction s with
  | nil =>
    intro m r
    simp only [digits0, List.mem_singleton, Prod.mk.injEq]
    constructor
    · rintro ⟨rfl, rfl⟩; simp
    · rintro ⟨h, -⟩; simpa using h.symm
  | cons c s ih =>
    intro m r
    simp only [digits0]
    by_cases hc : isDigit c = true
    · rw [if_pos hc]
      simp only [List.mem_append, List.mem_map, Prod.exists, Prod.mk.injEq, List.mem_singleton]
      constructor
      · rintro (⟨a, b, h1, rfl, rfl⟩ | ⟨rfl, rfl⟩)
        · obtain ⟨rfl, h2⟩ := (ih _ _).mp h1
          refine ⟨by simp, ?_⟩
          intro d hd
          rcases List.mem_cons.mp hd with rfl | hd
          · exact (isDigit_iff _).mp hc
          · exact h2 d hd
        · simp
      · rintro ⟨h1, h2⟩
        cases m with
        | nil => exact .inr ⟨rfl, by simpa using h1.symm⟩
        | cons d m =>
          simp only [List.cons_append, List.cons.injEq] at h1
          obtain ⟨rfl, rfl⟩ := h1
          exact .inl ⟨m, r, (ih _ _).mpr ⟨rfl, fun x hx => h2 x (by simp [hx])⟩, rfl, rfl⟩
    · rw [if_neg hc]
      simp only [List.mem_singleton, Prod.mk.injEq]
      constructor
      · rintro ⟨rfl, rfl⟩; simp
      · rintro ⟨h1, h2⟩
        cases m with
        | nil => exact ⟨rfl, by simpa using h1.symm⟩
        | cons d m =>
          simp only [List.cons_append, List.cons.injEq] at h1
          obtain ⟨rfl, rfl⟩ := h1
          exact absurd ((isDigit_iff _).mpr (h2 c (by simp))) hc

theorem lang_digits1 : Lang digits1 fun m => m ≠ [] ∧ ∀ c ∈ m, Dig c := by
  intro s m r
  cases s with
  | nil =>
    simp only [digits1, List.not_mem_nil, false_iff]
    rintro ⟨h, h', -⟩; simp at h; exact h' h.1
  | cons c s =>
    simp only [digits1]
    by_cases hc : isDigit c = true
    · rw [if_pos hc]
      simp only [List.mem_map, Prod.exists, Prod.mk.injEq]
      constructor
      · rintro ⟨a, b, h1, rfl, rfl⟩
        obtain ⟨rfl, h2⟩ := (lang_digits0 _ _ _).mp h1
        refine ⟨by simp, by simp, ?_⟩
        intro d hd
        rcases List.mem_cons.mp hd with rfl | hd
        · exact (isDigit_iff _).mp hc
        · exact h2 d hd
      · rintro ⟨h1, h0, h2⟩
        cases m with
        | nil => exact absurd rfl h0
        | cons d m =>
          simp only [List.cons_append, List.cons.injEq] at h1
          obtain ⟨rfl, rfl⟩ := h1
          exact ⟨m, r, (lang_digits0 _ _ _).mpr ⟨rfl, fun x hx => h2 x (by simp [hx])⟩, rfl, rfl⟩
    · rw [if_neg hc]
      simp only [List.not_mem_nil, false_iff]
      rintro ⟨h1, h0, h2⟩
      cases m with
      | nil => exact h0 rfl
      | cons d m =>
        simp only [List.cons_append, List.cons.injEq] at h1
        obtain ⟨rfl, rfl⟩ := h1
        exact hc ((isDigit_iff _).mpr (h2 c (by simp)))

theorem lang_number : Lang number NumText := by
  have := lang_seq (lang_opt (lang_chr '-')) (lang_seq lang_digits1 (lang_seq (lang_chr '.') (lang_seq lang_digits1
    (lang_seq (lang_opt (lang_chr 'E')) (lang_seq (lang_opt (lang_chr '-')) lang_digits0)))))
  intro s m r
  refine (this s m r).trans (and_congr Iff.rfl ?_)
  constructor
  · rintro ⟨s, _, rfl, hs, i, _, rfl, ⟨hi, hi'⟩, _, _, rfl, rfl, f, _, rfl, ⟨hf, hf'⟩, x, _, rfl, hx, m, e, rfl, hm, he⟩
    exact ⟨s, i, f, x, m, e, by simp, hs, hi, hi', hf, hf', hx, hm, he⟩
  · rintro ⟨s, i, f, x, m, e, rfl, hs, hi, hi', hf, hf', hx, hm, he⟩
    exact ⟨s, _, rfl, hs, i, _, rfl, ⟨hi, hi'⟩, ['.'], _, rfl, rfl, f, _, rfl, ⟨hf, hf'⟩, x, _, rfl, hx, m, e, rfl, hm, he⟩

theorem numText_chars {t : List Char} (h : NumText t) : ' ' ∉ t ∧ '\n' ∉ t := by
  obtain ⟨s, i, f, x, m, e, rfl, hs, -, hi, -, hf, hx, hm, he⟩ := h
  have d1 : ¬ Dig ' ' := by unfold Dig; decide
  have d2 : ¬ Dig '\n' := by unfold Dig; decide
  have key : ∀ c : Char, ¬ Dig c → c ≠ '-' → c ≠ 'E' → c ≠ '.' → c ∉ s ++ (i ++ ('.' :: (f ++ (x ++ (m ++ e))))) := by
    intro c h0 h1 h2 h3 hmem
    simp only [List.mem_append, List.mem_cons] at hmem
    rcases hmem with h | h | h | h | h | h | h
    · rcases hs with rfl | rfl <;> simp at h; exact h1 h
    · exact h0 (hi c h)
    · exact h3 h
    · exact h0 (hf c h)
    · rcases hx with rfl | rfl <;> simp at h; exact h2 h
    · rcases hm with rfl | rfl <;> simp at h; exact h1 h
    · exact h0 (he c h)
  exact ⟨key _ d1 (by decide) (by decide) (by decide), key _ d2 (by decide) (by decide) (by decide)⟩

/-- A result at the start of the text. -/
theorem resultAt_mem (s a b : List Char) (k : ℕ) :
    (a, b, k) ∈ ((chr '\n' s).flatMap fun m0 => (number m0.2).flatMap fun m1 => (chr ' ' m1.2).flatMap fun m2 =>
      (number m2.2).flatMap fun m3 => (chr '\n' m3.2).map fun _ => (m1.1, m3.1, m1.1.length + m3.1.length + 3)) ↔
    ∃ r, s = '\n' :: (a ++ ' ' :: (b ++ '\n' :: r)) ∧ NumText a ∧ NumText b ∧ k = a.length + b.length + 3 := by
  simp only [List.mem_flatMap, List.mem_map, Prod.exists, Prod.mk.injEq]
  constructor
  · rintro ⟨m0, s0, h0, m1, s1, h1, m2, s2, h2, m3, s3, h3, m4, s4, h4, rfl, rfl, rfl⟩
    obtain ⟨rfl, rfl⟩ := (lang_chr _ _ _ _).mp h0
    obtain ⟨rfl, n1⟩ := (lang_number _ _ _).mp h1
    obtain ⟨rfl, rfl⟩ := (lang_chr _ _ _ _).mp h2
    obtain ⟨rfl, n2⟩ := (lang_number _ _ _).mp h3
    obtain ⟨rfl, rfl⟩ := (lang_chr _ _ _ _).mp h4
    exact ⟨s4, by simp, n1, n2, rfl⟩
  · rintro ⟨r, rfl, n1, n2, rfl⟩
    exact ⟨['\n'], _, (lang_chr _ _ _ _).mpr ⟨rfl, rfl⟩, a, _, (lang_number _ _ _).mpr ⟨rfl, n1⟩,
      [' '], _, (lang_chr _ _ _ _).mpr ⟨rfl, rfl⟩, b, _, (lang_number _ _ _).mpr ⟨rfl, n2⟩,
      ['\n'], r, (lang_chr _ _ _ _).mpr ⟨rfl, rfl⟩, rfl, rfl, rfl⟩

theorem split_inj {c : Char} {a a' x y : List Char} (h : c ∉ a) (h' : c ∉ a') (e : a ++ c :: x = a' ++ c :: y) :
    a = a' ∧ x = y := by
  induction a generalizing a' with
  | nil =>
    cases a' with
    | nil => simpa using e
    | cons d a' => simp at e h'; exact absurd e.1 h'.1
  | cons d a ih =>
    cases a' with
    | nil => simp at e h; exact absurd e.1.symm h.1
    | cons d' a' =>
      simp only [List.cons_append, List.cons.injEq] at e
      obtain ⟨rfl, e⟩ := e
      obtain ⟨rfl, rfl⟩ := ih (by simp at h; exact h.2) (by simp at h'; exact h'.2) e
      exact ⟨rfl, rfl⟩

theorem resultAt_some {a b r : List Char} (ha : NumText a) (hb : NumText b) :
    resultAt ('\n' :: (a ++ ' ' :: (b ++ '\n' :: r))) = some (a, b, a.length + b.length + 3) := by
  have hmem := (resultAt_mem ('\n' :: (a ++ ' ' :: (b ++ '\n' :: r))) a b _).mpr ⟨r, rfl, ha, hb, rfl⟩
  unfold resultAt
  cases hl : ((chr '\n' ('\n' :: (a ++ ' ' :: (b ++ '\n' :: r)))).flatMap fun m0 => (number m0.2).flatMap fun m1 =>
      (chr ' ' m1.2).flatMap fun m2 => (number m2.2).flatMap fun m3 =>
      (chr '\n' m3.2).map fun _ => (m1.1, m3.1, m1.1.length + m3.1.length + 3)) with
  | nil => rw [hl] at hmem; simp at hmem
  | cons p ps =>
    obtain ⟨a', b', k'⟩ := p
    obtain ⟨r', e, ha', hb', rfl⟩ := (resultAt_mem _ a' b' k').mp (by rw [hl]; simp)
    simp only [List.cons.injEq, true_and] at e
    obtain ⟨rfl, e'⟩ := split_inj (numText_chars ha).1 (numText_chars ha').1 e
    obtain ⟨rfl, -⟩ := split_inj (numText_chars hb).2 (numText_chars hb').2 e'
    rfl

theorem resultAt_none {s : List Char}
    (h : ∀ a b r, s = '\n' :: (a ++ ' ' :: (b ++ '\n' :: r)) → NumText a → NumText b → False) : resultAt s = none := by
  cases hr : resultAt s with
  | none => rfl
  | some p =>
    obtain ⟨a, b, k⟩ := p
    obtain ⟨r, e, ha, hb, -⟩ := (resultAt_mem s a b k).mp (List.mem_of_mem_head? hr)
    exact (h a b r e ha hb).elim

theorem findAll_skip (x s : List Char) : findAll x.length (x ++ s) = findAll 0 s := by
  induction x with
  | nil => rfl
  | cons c x ih => simpa [findAll] using ih

theorem findAll_line {l : List Char} (h : '\n' ∉ l) (s : List Char) : findAll 0 (l ++ s) = findAll 0 s := by
  induction l with
  | nil => rfl
  | cons c l ih =>
    simp only [List.mem_cons, not_or] at h
    simp only [List.cons_append, findAll]
    rw [resultAt_none (by intro a b r e; simp at e; exact absurd e.1.symm h.1)]
    exact ih h.2

end Rx

theorem linesText_cons (l : List Char) (ls : List (List Char)) :
    linesText (l :: ls) = l ++ (match ls with | [] => [] | _ => '\n' :: linesText ls) := by
  cases ls <;> simp [linesText]

/-- **C75**: what is read from the output of the solver, for every output. -/
theorem xadd_reported (l0 : List Char) (ls : List (List Char)) (h0 : '\n' ∉ l0) (h : ∀ l ∈ ls, '\n' ∉ l) :
    Reported ls (Rx.findAll 0 (linesText (l0 :: ls))) := by
  match ls, h with
  | [], _ =>
    rw [linesText_cons, Rx.findAll_line h0]
    exact .nil
  | [l], h =>
    rw [linesText_cons, Rx.findAll_line h0]
    have hl : '\n' ∉ l := h l (by simp)
    have : Rx.findAll 0 ('\n' :: linesText [l]) = [] := by
      simp only [Rx.findAll, linesText]
      rw [Rx.resultAt_none]
      · have := Rx.findAll_line hl []
        simpa [Rx.findAll] using this
      · intro a b r e _ _
        simp only [List.cons.injEq, true_and] at e
        apply hl; rw [e]; simp
    rw [this]
    exact .last l
  | l :: l' :: ls, h =>
    rw [linesText_cons, Rx.findAll_line h0]
    have hl : '\n' ∉ l := h l (by simp)
    have hl' : '\n' ∉ l' := h l' (by simp)
    simp only
    have htext : linesText (l :: l' :: ls) = l ++ '\n' :: linesText (l' :: ls) := rfl
    by_cases hr : ∃ p, ResultLine l p
    · obtain ⟨⟨a, b⟩, rfl, ha, hb⟩ := hr
      have e : Rx.findAll 0 ('\n' :: linesText ((a ++ ' ' :: b) :: l' :: ls)) = (a, b) :: Rx.findAll 0 (linesText (l' :: ls)) := by
        simp only [Rx.findAll, htext]
        rw [List.append_assoc, List.cons_append, Rx.resultAt_some ha hb]
        simp only
        congr 1
        have := Rx.findAll_skip (a ++ ' ' :: (b ++ ['\n'])) (linesText (l' :: ls))
        rw [← this]
        congr 1
        · simp; omega
        · simp
      simp only at e ⊢
      rw [e]
      exact .hit ⟨rfl, ha, hb⟩ (xadd_reported l' ls hl' fun x hx => h x (by simp [hx]))
    · push Not at hr
      refine .miss hr ?_
      have e : Rx.findAll 0 ('\n' :: linesText (l :: l' :: ls)) = Rx.findAll 0 (linesText (l :: l' :: ls)) := by
        simp only [Rx.findAll]
        rw [Rx.resultAt_none]
        intro a b r e ha hb
        rw [htext] at e
        simp only [List.cons.injEq, true_and] at e
        have := Rx.split_inj (a := l) (a' := a ++ ' ' :: b) (c := '\n') (y := r) hl
          (by
            have h1 := (Rx.numText_chars ha).2
            have h2 := (Rx.numText_chars hb).2
            simp [h1, h2]) (e.trans (by simp))
        exact hr (a, b) ⟨this.1, ha, hb⟩
      rw [e]
      exact xadd_reported l (l' :: ls) hl fun x hx => h x (by simp [hx])
termination_by ls.length

theorem ResultLine.unique {l : List Char} {p q : List Char × List Char} (hp : ResultLine l p) (hq : ResultLine l q) : p = q := by
  obtain ⟨a, b⟩ := p
  obtain ⟨c, d⟩ := q
  obtain ⟨h1, h2⟩ := Rx.split_inj (Rx.numText_chars hp.2.1).1 (Rx.numText_chars hq.2.1).1 (hp.1.symm.trans hq.1)
  exact Prod.ext h1 h2

/-- **C75**: the first result line is read, whatever surrounds it. -/
theorem reported_first {pre post : List (List Char)} {l l' : List Char} {p : List Char × List Char}
    {rs : List (List Char × List Char)} (hpre : ∀ x ∈ pre, ∀ q, ¬ ResultLine x q) (hl : ResultLine l p)
    (h : Reported (pre ++ l :: l' :: post) rs) : ∃ rs', rs = p :: rs' := by
  induction pre generalizing rs with
  | nil =>
    cases h with
    | hit h1 h2 => exact ⟨_, by rw [h1.unique hl]⟩
    | miss h1 _ => exact absurd hl (h1 p)
  | cons x pre ih =>
    have hx := hpre x (by simp)
    cases pre with
    | nil =>
      cases h with
      | hit h1 _ => exact absurd h1 (hx _)
      | miss _ h2 => exact ih (by simp) h2
    | cons y pre =>
      cases h with
      | hit h1 _ => exact absurd h1 (hx _)
      | miss _ h2 => exact ih (fun z hz => hpre z (by simp at hz ⊢; tauto)) h2

/-- **C75**: nothing is read when there is no result line. -/
theorem reported_none {ls : List (List Char)} {rs : List (List Char × List Char)}
    (hls : ∀ x ∈ ls.dropLast, ∀ q, ¬ ResultLine x q) (h : Reported ls rs) : rs = [] := by
  induction h with
  | nil => rfl
  | last => rfl
  | hit h1 _ _ => exact absurd h1 (hls _ (by simp) _)
  | miss h1 h2 ih => exact ih fun x hx => hls x (by simp only [List.dropLast_cons_cons, List.mem_cons]; exact .inr hx)

open Classical in
/-- **C75**: when no two result lines follow one another and the last line is none, all of them are read, in order. -/
theorem reported_all_partial {ls : List (List Char)} {rs : List (List Char × List Char)} (h : Reported ls rs)
    (hsep : ls.IsChain fun x y => (∃ p, ResultLine x p) → ∀ q, ¬ ResultLine y q)
    (hlast : ∀ l ∈ ls.getLast?, ∀ q, ¬ ResultLine l q) :
    List.Forall₂ ResultLine (ls.filter fun l => ∃ p, ResultLine l p) rs := by
  induction h with
  | nil => exact .nil
  | last l =>
    have := hlast l (by simp)
    rw [List.filter_cons_of_neg (by simpa using this)]
    exact .nil
  | @hit l l' ls p ps h1 h2 ih =>
    have hl' : ∀ q, ¬ ResultLine l' q := (List.isChain_cons_cons.mp hsep).1 ⟨p, h1⟩
    rw [List.filter_cons_of_pos (by simpa using ⟨_, _, h1⟩), List.filter_cons_of_neg (by simpa using hl')]
    refine .cons h1 (ih ?_ ?_)
    · exact ((List.isChain_cons_cons.mp hsep).2).tail
    · intro x hx
      cases ls with
      | nil => simp at hx
      | cons a as => exact hlast x (by simpa using hx)
  | @miss l l' ls ps h1 h2 ih =>
    rw [List.filter_cons_of_neg (by simpa using h1)]
    exact ih (List.isChain_cons_cons.mp hsep).2 fun x hx => hlast x (by simpa using hx)

/-! ### Numbers -/

/-- SPEC: the value of a digit. -/
def digVal (c : Char) : ℕ := "0123456789".toList.idxOf c

/-- SPEC: a number as Java prints it: sign, digits before and after the point, exponent. -/
structure JNum where
  neg : Bool
  int : List Char
  frac : List Char
  exp : Option (Bool × List Char)

/-- SPEC: digits only, and none of the digit sequences empty. -/
def JNum.ok (n : JNum) : Prop :=
  n.int ≠ [] ∧ (∀ c ∈ n.int, Dig c) ∧ n.frac ≠ [] ∧ (∀ c ∈ n.frac, Dig c) ∧ ∀ x ∈ n.exp, x.2 ≠ [] ∧ ∀ c ∈ x.2, Dig c

/-- SPEC: the text of a number. -/
def JNum.text (n : JNum) : List Char :=
  (if n.neg then ['-'] else []) ++ (n.int ++ ('.' :: (n.frac ++
    (match n.exp with | none => [] | some (s, e) => 'E' :: ((if s then ['-'] else []) ++ e)))))

/-- SPEC: the number denoted. -/
def JNum.val (n : JNum) : ℚ :=
  (if n.neg then -1 else 1) * ((Nat.ofDigits 10 ((n.int ++ n.frac).map digVal).reverse : ℕ) : ℚ) *
    (10 : ℚ) ^ ((match n.exp with
      | none => 0
      | some (s, e) => (if s then -1 else 1) * ((Nat.ofDigits 10 (e.map digVal).reverse : ℕ) : ℤ)) - n.frac.length : ℤ)

theorem digVal_eq {c : Char} (h : Dig c) : c.toNat - '0'.toNat = digVal c := by
  have : c ∈ ['0', '1', '2', '3', '4', '5', '6', '7', '8', '9'] := h
  simp only [List.mem_cons, List.not_mem_nil, or_false] at this
  rcases this with rfl | rfl | rfl | rfl | rfl | rfl | rfl | rfl | rfl | rfl <;> rfl

theorem decNat_eq {cs : List Char} (h : ∀ c ∈ cs, Dig c) : decNat cs = Nat.ofDigits 10 (cs.map digVal).reverse := by
  have key : ∀ (cs : List Char) (n : ℕ), (∀ c ∈ cs, Dig c) →
      cs.foldl (fun n c => 10 * n + (c.toNat - '0'.toNat)) n = Nat.ofDigits 10 (cs.map digVal).reverse + 10 ^ cs.length * n := by
    intro cs
    induction cs with
    | nil => intro n _; simp
    | cons c cs ih =>
      intro n h
      rw [List.foldl_cons, ih _ fun x hx => h x (by simp [hx]), digVal_eq (h c (by simp))]
      simp only [List.map_cons, List.reverse_cons, Nat.ofDigits_append, List.length_reverse, List.length_map,
        Nat.ofDigits_singleton, List.length_cons]
      ring
  unfold decNat
  rw [key cs 0 h]; simp

theorem span_digits {ds t : List Char} (hd : ∀ c ∈ ds, Dig c) (ht : ∀ c ∈ t.head?, ¬ Dig c) :
    (ds ++ t).span Rx.isDigit = (ds, t) := by
  rw [List.span_eq_takeWhile_dropWhile]
  have h1 : ∀ c ∈ ds, Rx.isDigit c = true := fun c hc => (isDigit_iff c).mpr (hd c hc)
  rw [List.takeWhile_append_of_pos h1, List.dropWhile_append_of_pos h1]
  cases t with
  | nil => simp
  | cons c t =>
    have : ¬ Rx.isDigit c = true := fun h => ht c (by simp) ((isDigit_iff c).mp h)
    simp [this]

theorem JNum.numText {n : JNum} (h : n.ok) : NumText n.text := by
  obtain ⟨h1, h2, h3, h4, h5⟩ := h
  unfold JNum.text
  cases hx : n.exp with
  | none =>
    exact ⟨if n.neg then ['-'] else [], n.int, n.frac, [], [], [], by simp, by cases n.neg <;> simp, h1, h2, h3, h4, by simp, by simp, by simp⟩
  | some x =>
    obtain ⟨s, e⟩ := x
    obtain ⟨h6, h7⟩ := h5 (s, e) hx
    exact ⟨if n.neg then ['-'] else [], n.int, n.frac, ['E'], if s then ['-'] else [], e, by simp, by cases n.neg <;> simp, h1, h2, h3, h4,
      by simp, by cases s <;> simp, h7⟩

theorem strip_minus (neg : Bool) {t : List Char} (ht : ∀ c ∈ t.head?, c ≠ '-') :
    stripMinus ((if neg then ['-'] else []) ++ t) = (neg, t) := by
  cases neg with
  | true => rfl
  | false =>
    cases t with
    | nil => rfl
    | cons c t =>
      have : c ≠ '-' := ht c (by simp)
      simp only [Bool.false_eq_true, if_false, List.nil_append, stripMinus]
      split
      · rename_i h; simp at h; exact absurd h.1 this
      · rfl

theorem dig_ne {c d : Char} (h : Dig c) (hd : ¬ Dig d) : c ≠ d := fun e => hd (e ▸ h)

/-- **C75**: a number printed by the solver is read as the number it denotes. -/
theorem pyFloat_text {n : JNum} (h : n.ok) : pyFloat n.text = .ok n.val := by
  obtain ⟨h1, h2, h3, h4, h5⟩ := h
  have dm : ¬ Dig '-' := by unfold Dig; decide
  have dp : ¬ Dig '.' := by unfold Dig; decide
  have dE : ¬ Dig 'E' := by unfold Dig; decide
  have hhead : ∀ {ds t : List Char}, ds ≠ [] → (∀ c ∈ ds, Dig c) → ∀ c ∈ (ds ++ t).head?, c ≠ '-' := by
    intro ds t hne hd c hc
    cases ds with
    | nil => exact absurd rfl hne
    | cons d ds => simp at hc; subst hc; exact dig_ne (hd d (by simp)) dm
  have hm : ∀ m : List Char, (∀ c ∈ m.head?, ¬ Dig c) → (n.int ++ ('.' :: (n.frac ++ m))).span Rx.isDigit = (n.int, '.' :: (n.frac ++ m)) ∧
      (n.frac ++ m).span Rx.isDigit = (n.frac, m) := fun m hm =>
    ⟨span_digits h2 (by simpa using dp), span_digits h4 hm⟩
  have hmant : (decNat n.int : ℚ) + decNat n.frac / 10 ^ n.frac.length =
      ((Nat.ofDigits 10 ((n.int ++ n.frac).map digVal).reverse : ℕ) : ℚ) * (10 : ℚ) ^ (-(n.frac.length : ℤ)) := by
    rw [decNat_eq h2, decNat_eq h4, List.map_append, List.reverse_append, Nat.ofDigits_append]
    simp only [List.length_reverse, List.length_map, zpow_neg, zpow_natCast]
    push_cast
    field_simp
    ring
  unfold JNum.text pyFloat
  rw [strip_minus _ (hhead h1 h2)]
  simp only
  cases hx : n.exp with
  | none =>
    obtain ⟨e1, e2⟩ := hm [] (by simp)
    simp only [e1, e2, h1, false_and, if_false]
    rw [hmant, JNum.val, hx]
    cases n.neg <;> simp
  | some x =>
    obtain ⟨s, e⟩ := x
    obtain ⟨h6, h7⟩ := h5 (s, e) hx
    simp only at h6 h7
    obtain ⟨e1, e2⟩ := hm ('E' :: ((if s then ['-'] else []) ++ e)) (by simpa using dE)
    simp only [e1, e2, h1, false_and, if_false]
    have e3 : e.span Rx.isDigit = (e, []) := by simpa using span_digits (t := []) h7 (by simp)
    have := strip_minus s (t := e) (by simpa using hhead (t := []) h6 h7)
    rw [this]
    simp only [e3, h6, ne_eq, not_true_eq_false, or_self, if_false]
    rw [hmant, decNat_eq h7, JNum.val, hx]
    simp only
    rw [sub_eq_add_neg, zpow_add₀ (by norm_num : (10 : ℚ) ≠ 0)]
    cases s <;> cases n.neg <;> simp [zpow_neg, zpow_natCast] <;> field_simp

/-! ### What the solver is asked -/

/-- The engine with the box added describes the same integral. -/
theorem withBounds_spec {e : EngineObj} {w : Formula} {ab : Bool} (hw : e.weight = some w) (hp : Problem e.domain e.support w) :
    ∃ S', withBounds e ab = .ok ⟨e.domain, S', some w⟩ ∧
      (∀ σ : Env ℝ, truth σ S' = true ↔ truth σ e.support = true ∧ (ab = true → e.domain.inBox σ)) ∧
      e.domain.volumeOf false (density S' w) = e.domain.volumeOf ab (density e.support w) := by
  obtain ⟨D, S, W⟩ := e
  simp only at hw hp ⊢
  subst hw
  cases ab with
  | false => exact ⟨S, rfl, by simp, rfl⟩
  | true =>
    have hty : ∀ p ∈ D.varDomains, D.varTypes.lookup p.1 = some .real := fun p hp' =>
      lookup_mem_nodup hp.box.wf.typesNodup ((hp.box.wf.doms p.1).mp (List.mem_map_of_mem hp'))
    obtain ⟨b, h1, h2⟩ := add_bounds_volume exactVol_exists (e := ⟨D, S, some w⟩) rfl hp
    obtain ⟨b', h1', -, h3⟩ := Domain.getBounds_correct (K := ℝ) D hty
    simp only at h1
    obtain rfl : b = b' := by rw [h1] at h1'; exact Except.ok.inj h1'
    refine ⟨.and [S, b], ?_, ?_, Except.ok.inj h2⟩
    · simp only [withBounds, if_true, h1]; rfl
    · intro σ
      simp only [truth, truthAll, Bool.and_true, Bool.and_eq_true, h3 σ, forall_const]
      rfl

theorem jarVolume_eq (run : XaddSolver) (o : XaddOpts) (e : EngineObj) (timeout : Option ℕ) (ab : Bool) :
    jarVolume run o e timeout ab =
      match withBounds e ab with
      | .error err => .error err
      | .ok e =>
        match callWmi run o e none (volTimeout timeout o.timeout) with
        | .error err => .error err
        | .ok none => .ok none
        | .ok (some []) => .ok none
        | .ok (some (r :: _)) => .ok (some r) := by
  cases ab with
  | false => rfl
  | true =>
    simp only [jarVolume, withBounds, if_true]
    cases e.domain.getBounds <;> rfl

theorem reported_lines {ls : List (List Char)} {rs : List (List Char × List Char)} (h : Reported ls rs) :
    ∀ r ∈ rs, ∃ l ∈ ls, ResultLine l r := by
  induction h with
  | nil => simp
  | last => simp
  | @hit l l' ls p ps h1 _ ih =>
    intro r hr
    rcases List.mem_cons.mp hr with rfl | hr
    · exact ⟨l, by simp, h1⟩
    · obtain ⟨x, hx, h⟩ := ih r hr; exact ⟨x, by simp [hx], h⟩
  | @miss l l' ls ps _ _ ih =>
    intro r hr
    obtain ⟨x, hx, h⟩ := ih r hr
    exact ⟨x, by simp at hx ⊢; tauto, h⟩

/-- SPEC: the answer of the solver for the volume: the second number of the first result line, if there is one. -/
inductive Answer : SolverRun → Option ℚ → Prop
  | failed : Answer .failed none
  | timeout : Answer .timeout none
  | silent {l0 ls} : '\n' ∉ l0 → (∀ l ∈ ls, '\n' ∉ l) → (∀ l ∈ ls.dropLast, ∀ q, ¬ ResultLine l q) →
      Answer (.output (linesText (l0 :: ls))) none
  | printed {l0 pre l l' post} {p v : JNum} : '\n' ∉ l0 → (∀ x ∈ pre ++ l :: l' :: post, '\n' ∉ x) → (∀ x ∈ pre, ∀ q, ¬ ResultLine x q) →
      p.ok → v.ok → l = p.text ++ ' ' :: v.text →
      (∀ x ∈ l' :: post, ∀ q, ResultLine x q → ∃ n : JNum, n.ok ∧ q.2 = n.text) →
      Answer (.output (linesText (l0 :: (pre ++ l :: l' :: post)))) (some v.val)

/-- **C75**: the XADD engine gives the solver the support within the box, and returns the second number of the first
result line; `None` when the solver failed, took too long, or printed no result. -/
theorem xadd_volume_correct {e : EngineObj} {w : Formula} (hw : e.weight = some w) (hp : Problem e.domain e.support w)
    (o : XaddOpts) (hjar : o.jar = true) (timeout : Option ℕ) (ab : Bool) :
    ∃ S',
      (∀ σ : Env ℝ, truth σ S' = true ↔ truth σ e.support = true ∧ (ab = true → e.domain.inBox σ)) ∧
      e.domain.volumeOf false (density S' w) = e.domain.volumeOf ab (density e.support w) ∧
      ∀ (run : XaddSolver) (a : Option ℚ),
        Answer (run e.domain S' (some w) none (if o.mode = some "" then none else o.mode)
          (if timeout = none ∨ timeout = some 0 then o.timeout else timeout)) a →
        jarVolume run o e timeout ab = .ok a := by
  obtain ⟨S', h1, h2, h3⟩ := withBounds_spec (ab := ab) hw hp
  refine ⟨S', h2, h3, fun run a ha => ?_⟩
  rw [jarVolume_eq, h1]
  simp only
  have hmode : modeArg o.mode = if o.mode = some "" then none else o.mode := by
    cases o.mode with
    | none => rfl
    | some m => by_cases hm : m = "" <;> simp [modeArg, hm]
  have htime : effTimeout (volTimeout timeout o.timeout) o.timeout =
      if timeout = none ∨ timeout = some 0 then o.timeout else timeout := by
    cases timeout with
    | none => simp only [volTimeout, effTimeout, true_or, if_true]; split <;> simp_all
    | some t => cases t <;> simp [volTimeout, effTimeout]
  unfold callWmi
  simp only [hjar, Bool.true_eq_false, if_false]
  rw [htime, hmode]
  have hread : ∀ l0 ls, '\n' ∉ l0 → (∀ l ∈ ls, '\n' ∉ l) → Reported ls (Rx.findAll 0 (linesText (l0 :: ls))) :=
    xadd_reported
  generalize hr : run e.domain S' (some w) none (if o.mode = some "" then none else o.mode)
      (if timeout = none ∨ timeout = some 0 then o.timeout else timeout) = out at ha
  cases ha with
  | failed => rfl
  | timeout => rfl
  | silent h0 hls hno =>
    have := reported_none hno (hread _ _ h0 hls)
    simp only [this, mapE]
  | @printed l0 pre l l' post p v h0 hls hpre hpk hvk hl hrest =>
    have hrep := hread _ _ h0 hls
    have hres : ResultLine l (p.text, v.text) := ⟨hl, p.numText hpk, v.numText hvk⟩
    obtain ⟨rs', hrs⟩ := reported_first hpre hres hrep
    have hall : ∀ r ∈ rs', ∃ n : JNum, n.ok ∧ r.2 = n.text := by
      intro r hr'
      obtain ⟨x, hx, hxr⟩ := reported_lines hrep r (by rw [hrs]; simp [hr'])
      simp only [List.mem_append, List.mem_cons] at hx
      rcases hx with hx | rfl | hx
      · exact absurd hxr (hpre x hx r)
      · exact ⟨v, hvk, by rw [hxr.unique hres]⟩
      · exact hrest x (by simpa using hx) r hxr
    have hmap : ∀ rs : List (List Char × List Char), (∀ r ∈ rs, ∃ n : JNum, n.ok ∧ r.2 = n.text) → ∃ vs, mapE (xaddResult none) rs = .ok vs := by
      intro rs
      induction rs with
      | nil => intro _; exact ⟨[], rfl⟩
      | cons r rs ih =>
        intro h
        obtain ⟨n, hn, hr'⟩ := h r (by simp)
        obtain ⟨vs, hvs⟩ := ih fun x hx => h x (by simp [hx])
        exact ⟨n.val :: vs, by simp [mapE, xaddResult, hr', pyFloat_text hn, hvs]⟩
    obtain ⟨vs, hvs⟩ := hmap rs' hall
    simp [hrs, mapE, xaddResult, pyFloat_text hvk, hvs]

theorem mapE_congr_mem {α β : Type} {f g : α → Except PyErr β} {as : List α} (h : ∀ a ∈ as, f a = g a) : mapE f as = mapE g as := by
  induction as with
  | nil => rfl
  | cons a as ih =>
    simp only [mapE, h a (by simp), ih fun x hx => h x (by simp [hx])]

/-- **C75**: when the solver gives no answer, a query raises a `TypeError`. -/
theorem probabilities_none {K : Type} [Field K] [LinearOrder K] {vol : EngineObj → Bool → Except PyErr (Option K)} {e : EngineObj} {ab : Bool}
    (h : vol e ab = .ok none) (q : Formula) (qs : List Formula) :
    computeProbabilitiesOpt vol e (q :: qs) ab = .error .typeError := by
  simp [computeProbabilitiesOpt, h, mapE]

/-- **C75**: when the solver always answers, the probabilities are those of the base class (C23). -/
theorem probabilities_some {K : Type} [Field K] [LinearOrder K] {vol : EngineObj → Bool → Except PyErr (Option K)} (e : EngineObj) {ab : Bool}
    {vol' : EngineObj → Bool → Except PyErr K} (qs : List Formula)
    (h : ∀ e', e' = e ∨ (∃ q ∈ qs, e' = e.withConstraint q) → vol e' ab = (vol' e' ab).map some) :
    computeProbabilitiesOpt vol e qs ab = e.computeProbabilities vol' qs ab := by
  have h0 := h e (.inl rfl)
  unfold computeProbabilitiesOpt EngineObj.computeProbabilities
  rw [h0]
  cases hv : vol' e ab with
  | error err => simp [Except.map]
  | ok v =>
    simp only [Except.map]
    refine mapE_congr_mem fun q hq => ?_
    by_cases hpos : v > 0
    · simp only [hpos, if_true, h _ (.inr ⟨q, hq, rfl⟩)]
      cases vol' (e.withConstraint q) ab <;> rfl
    · simp only [hpos, if_false]

theorem takeWhile_all {α : Type} {p : α → Bool} : ∀ {l : List α}, (∀ x ∈ l, p x = true) → l.takeWhile p = l
  | [], _ => rfl
  | a :: l, h => by rw [List.takeWhile_cons_of_pos (h a (by simp)), takeWhile_all fun x hx => h x (by simp [hx])]

theorem dropWhile_all {α : Type} {p : α → Bool} : ∀ {l : List α}, (∀ x ∈ l, p x = true) → l.dropWhile p = []
  | [], _ => rfl
  | a :: l, h => by rw [List.dropWhile_cons_of_pos (h a (by simp)), dropWhile_all fun x hx => h x (by simp [hx])]

/-- **C75**: `normalize` asks for the new support within the old one, and reads the first line of the answer; a run that
fails raises, one that takes too long gives `None`. -/
theorem xadd_normalize_correct (run : XaddNormalizer) (parse : List Char → Except PyErr Formula) (o : XaddOpts) (hjar : o.jar = true)
    (e : EngineObj) (ns : Formula) (conjoin paths : Bool) :
    ∃ S', (∀ σ : Env ℝ, truth σ S' = true ↔ truth σ ns = true ∧ (conjoin = true → truth σ e.support = true)) ∧
      (∀ out l rest f, '\n' ∉ l → run e.domain e.support e.weight S' paths o.timeout = (.output out, l ++ '\n' :: rest) →
        parse (l ++ ['\n']) = .ok f → xaddNormalize run parse o e ns conjoin paths = .ok (some f)) ∧
      (∀ out l f, l ≠ [] → '\n' ∉ l → run e.domain e.support e.weight S' paths o.timeout = (.output out, l) →
        parse l = .ok f → xaddNormalize run parse o e ns conjoin paths = .ok (some f)) ∧
      (∀ c, run e.domain e.support e.weight S' paths o.timeout = (.timeout, c) → xaddNormalize run parse o e ns conjoin paths = .ok none) ∧
      (∀ c, run e.domain e.support e.weight S' paths o.timeout = (.failed, c) →
        ∃ err, xaddNormalize run parse o e ns conjoin paths = .error err) := by
  refine ⟨if conjoin then .and [e.support, ns] else ns, ?_, ?_, ?_, ?_, ?_⟩
  · intro σ
    cases conjoin <;> simp [truth, truthAll, and_comm]
  · intro out l rest f hl hrun hparse
    have hfirst : firstLine (l ++ '\n' :: rest) = some (l ++ ['\n']) := by
      have hspan : (l ++ '\n' :: rest).span (· ≠ '\n') = (l, '\n' :: rest) := by
        rw [List.span_eq_takeWhile_dropWhile]
        have : ∀ c ∈ l, (decide (c ≠ '\n')) = true := fun c hc => by
          simp only [ne_eq, decide_not, Bool.not_eq_eq_eq_not, Bool.not_true, decide_eq_false_iff_not]
          rintro rfl; exact hl hc
        rw [List.takeWhile_append_of_pos this, List.dropWhile_append_of_pos this]
        simp
      cases l with
      | nil => rfl
      | cons c l =>
        simp only [firstLine, List.cons_append] at hspan ⊢
        rw [hspan]
        rfl
    simp only [xaddNormalize, hjar, Bool.true_eq_false, if_false, hrun, hfirst, hparse]
  · intro out l f hne hl hrun hparse
    have hfirst : firstLine l = some l := by
      have hspan : l.span (· ≠ '\n') = (l, []) := by
        rw [List.span_eq_takeWhile_dropWhile]
        have : ∀ c ∈ l, (decide (c ≠ '\n')) = true := fun c hc => by
          simp only [ne_eq, decide_not, Bool.not_eq_eq_eq_not, Bool.not_true, decide_eq_false_iff_not]
          rintro rfl; exact hl hc
        rw [takeWhile_all this, dropWhile_all this]
      cases l with
      | nil => exact absurd rfl hne
      | cons c l =>
        simp only [firstLine] at hspan ⊢
        rw [hspan]
    simp only [xaddNormalize, hjar, Bool.true_eq_false, if_false, hrun, hfirst, hparse]
  · intro c hrun
    simp only [xaddNormalize, hjar, Bool.true_eq_false, if_false, hrun]
  · intro c hrun
    exact ⟨.other, by simp only [xaddNormalize, hjar, Bool.true_eq_false, if_false, hrun]⟩

/-- **C75**: two result lines that follow one another: the second is lost. -/
theorem xadd_adjacent_lost :
    Rx.findAll 0 "licence\n0.5 1.0\n0.25 1.0\n".toList = [("0.5".toList, "1.0".toList)] := by decide +kernel

/-- **C75**: a text the pattern accepts but `float` does not makes the call raise. -/
theorem xadd_bad_number (run : XaddSolver) (hrun : ∀ D S w q m t, run D S w q m t = .output "\n1.0 2.0-5\n".toList) (e : EngineObj) :
    jarVolume run ⟨none, none, true⟩ e none false = .error .valueError := by
  have h1 : Rx.findAll 0 "\n1.0 2.0-5\n".toList = [("1.0".toList, "2.0-5".toList)] := by decide +kernel
  have h2 : pyFloat "2.0-5".toList = .error .valueError := by decide +kernel
  rw [jarVolume_eq]
  simp only [withBounds, Bool.false_eq_true, if_false, callWmi, Bool.true_eq_false, hrun, h1, mapE, xaddResult, h2]

/-! ### The other engines -/

/-- **C75**: message passing: the volume is the total of the problem within the box, the probabilities are the ratios; a
total of zero makes every query raise. -/
theorem mpwmi_correct {K : Type} [Field K] [LinearOrder K] {e : EngineObj} {w : Formula} (hw : e.weight = some w)
    (hp : Problem e.domain e.support w) (cache ab : Bool) :
    ∃ S',
      (∀ σ : Env ℝ, truth σ S' = true ↔ truth σ e.support = true ∧ (ab = true → e.domain.inBox σ)) ∧
      e.domain.volumeOf false (density S' w) = e.domain.volumeOf ab (density e.support w) ∧
      ∀ (solve : MpwmiSolver K) (Z : K),
        (∀ vs, solve S' (some w) [] cache = .ok (Z, vs) → mpwmiVolume solve cache e ab = .ok Z) ∧
        (∀ qs vs, solve S' (some w) qs cache = .ok (Z, vs) →
          (Z ≠ 0 → mpwmiProbabilities solve cache e qs ab = .ok (vs.map (· / Z))) ∧
          (Z = 0 → vs ≠ [] → mpwmiProbabilities solve cache e qs ab = .error .zeroDivision)) := by
  obtain ⟨S', h1, h2, h3⟩ := withBounds_spec (ab := ab) hw hp
  refine ⟨S', h2, h3, fun solve Z => ⟨fun vs h => ?_, fun qs vs h => ⟨fun hZ => ?_, fun hZ hvs => ?_⟩⟩⟩
  · simp only [mpwmiVolume, h1, h]
  · simp only [mpwmiProbabilities, h1, h]
    clear h
    induction vs with
    | nil => rfl
    | cons v vs ih => simp only [mapE, hZ, if_false, List.map_cons] at ih ⊢; rw [ih]
  · cases vs with
    | nil => exact absurd rfl hvs
    | cons v vs => simp only [mpwmiProbabilities, h1, h, mapE, hZ, if_true]

/-- **C75**: predicate abstraction: the answer is the solver's for the problem within the box and the variables of the
domain; the options of the engine have no effect. -/
theorem pa_correct {K : Type} [Field K] [LinearOrder K] {e : EngineObj} {w : Formula} (hw : e.weight = some w)
    (hp : Problem e.domain e.support w) (ab : Bool) :
    ∃ S',
      (∀ σ : Env ℝ, truth σ S' = true ↔ truth σ e.support = true ∧ (ab = true → e.domain.inBox σ)) ∧
      e.domain.volumeOf false (density S' w) = e.domain.volumeOf ab (density e.support w) ∧
      ∀ (solve : PaSolver K) (o : PaOpts), paVolume solve o e ab = solve S' (some w) (.boolC true) e.domain.bools e.domain.reals := by
  obtain ⟨S', h1, h2, h3⟩ := withBounds_spec (ab := ab) hw hp
  refine ⟨S', h2, h3, fun solve o => ?_⟩
  simp only [paVolume, h1, hp.box.wf.boolVars, hp.box.wf.realVars]
  rfl

/-- SPEC: a solver that gives the exact normalised probability over the variables of a domain. -/
noncomputable def exactPraise (D : Domain) : PraiseSolver ℝ := fun S w q =>
  match w with
  | none => .error .other
  | some w =>
    if D.volumeOf false (density S w) = 0 then .error .zeroDivision
    else .ok (D.volumeOf false (queryDensity S w q) / D.volumeOf false (density S w))

/-- **C75**: PRAiSE: the volume is 1 whatever the problem; the probabilities are those of the support without the box,
whether or not the bounds are to be added. -/
theorem praise_correct_partial {e : EngineObj} {w : Formula} (hw : e.weight = some w)
    (hZ : e.domain.volumeOf false (density e.support w) ≠ 0) (ab : Bool) :
    praiseVolume (exactPraise e.domain) e ab = .ok 1 ∧
    ∀ qs, praiseProbabilities (exactPraise e.domain) e qs ab =
      .ok (qs.map fun q => e.domain.volumeOf false (queryDensity e.support w q) / e.domain.volumeOf false (density e.support w)) := by
  have htrue : queryDensity e.support w (.boolC true) = density e.support w := by
    funext σ; simp [queryDensity, truth]
  constructor
  · simp only [praiseVolume, praiseCall, exactPraise, hw, hZ, if_false, Option.getD_none, htrue, div_self hZ]
  · intro qs
    unfold praiseProbabilities
    induction qs with
    | nil => rfl
    | cons q qs ih =>
      simp only [mapE, praiseCall, exactPraise, hw, hZ, if_false, Option.getD_some, List.map_cons] at ih ⊢
      rw [ih]

/-! ### Concrete cases -/

/-- One real variable in [0, 1]. -/
def boxDomain : Domain := ⟨["x"], [("x", .real)], [("x", some 0, some 1)]⟩
/-- The support reaches twice as far as the box. -/
def boxEngine : EngineObj := ⟨boxDomain, .and [.le (.realC 0) (.sym "x" .real), .le (.sym "x" .real) (.realC 2)], some (.realC 1)⟩

theorem boxDomain_box : BoxOk boxDomain where
  wf := by
    constructor <;> simp [boxDomain]
  box := by
    intro v b h
    simp only [boxDomain, List.lookup] at h
    split at h
    · simp at h; subst h; exact ⟨0, 1, rfl, by norm_num⟩
    · simp at h

theorem boxEngine_problem : Problem boxEngine.domain boxEngine.support (.realC 1) where
  box := boxDomain_box
  supportWt := rfl
  weightWt := rfl
  supportVars := by
    intro p hp
    simp only [boxEngine, syms, symsList, List.append_nil, List.nil_append, List.mem_append, List.mem_singleton] at hp
    rcases hp with rfl | rfl <;> exact ⟨by decide, rfl⟩
  weightVars := by intro p hp; simp [syms] at hp

theorem box_volume (a b : ℝ) (hab : a ≤ b) (φ : Env ℝ → ℝ) (h : ∀ σ, φ σ = if a ≤ σ.r "x" ∧ σ.r "x" ≤ b then 1 else 0) :
    boxDomain.volumeOf false φ = b - a := by
  have hb : boxDomain.bools = [] := by decide
  have hr : boxDomain.reals = ["x"] := by decide
  unfold Domain.volumeOf wmiOf
  rw [hb, hr]
  simp only [sumBools, intReals]
  have : (fun x : Fin ["x"].length → ℝ => boxDomain.restricted false φ (env0.setReals ["x"] x)) =
      (Set.Icc (fun _ => a) (fun _ => b)).indicator 1 := by
    funext x
    have hx : (env0.setReals ["x"] x).r "x" = x 0 := by simp [Env.setReals]
    simp only [Domain.restricted, Bool.false_eq_true, false_imp_iff, if_true, h, hx]
    have : Subsingleton (Fin ["x"].length) := inferInstanceAs (Subsingleton (Fin 1))
    have hiff : (a ≤ x 0 ∧ x 0 ≤ b) ↔ x ∈ Set.Icc (fun _ => a) (fun _ => b) := by
      simp only [Set.mem_Icc, Pi.le_def]
      constructor
      · rintro ⟨h1, h2⟩; exact ⟨fun i => by rw [Subsingleton.elim i 0]; exact h1, fun i => by rw [Subsingleton.elim i 0]; exact h2⟩
      · rintro ⟨h1, h2⟩; exact ⟨h1 0, h2 0⟩
    by_cases hin : x ∈ Set.Icc (fun _ => a) (fun _ => b)
    · rw [if_pos (hiff.mpr hin), Set.indicator_of_mem hin]; rfl
    · rw [if_neg fun h' => hin (hiff.mp h'), Set.indicator_of_notMem hin]
  rw [this, integral_indicator_one measurableSet_Icc]
  have hle : (fun _ : Fin ["x"].length => a) ≤ fun _ => b := fun _ => hab
  have := Real.volume_Icc_pi_toReal hle
  simp only [Measure.real, this]
  simp

theorem box_total : boxDomain.volumeOf false (density boxEngine.support (.realC 1)) = 2 := by
  rw [box_volume 0 2 (by norm_num)]
  · norm_num
  · intro σ
    simp [density, boxEngine, truth, truthAll, value]

theorem box_query : boxDomain.volumeOf false (queryDensity boxEngine.support (.realC 1) (.le (.sym "x" .real) (.realC 1))) = 1 := by
  rw [box_volume 0 1 (by norm_num)]
  · norm_num
  · intro σ
    simp only [queryDensity, density, boxEngine, truth, truthAll, value, Bool.and_true, Bool.and_eq_true, decide_eq_true_eq]
    push_cast
    by_cases h1 : σ.r "x" ≤ 1
    · have h2 : σ.r "x" ≤ 2 := by linarith
      simp [h1, h2]
    · simp [h1]

/-- **C75**: PRAiSE does not return the volume: here it is 2 and the answer is 1. -/
theorem praise_volume_wrong :
    boxEngine.domain.volumeOf false (density boxEngine.support (.realC 1)) = 2 ∧
    praiseVolume (exactPraise boxEngine.domain) boxEngine false = .ok 1 :=
  ⟨box_total, (praise_correct_partial rfl (by
    show boxDomain.volumeOf false (density boxEngine.support (.realC 1)) ≠ 0
    rw [box_total]; norm_num) false).1⟩

/-- **C75**: PRAiSE ignores the box of the domain: within it the query is certain, and the answer is one half. -/
theorem praise_bounds_ignored :
    boxEngine.domain.volumeOf true (queryDensity boxEngine.support (.realC 1) (.le (.sym "x" .real) (.realC 1))) =
      boxEngine.domain.volumeOf true (density boxEngine.support (.realC 1)) ∧
    praiseProbabilities (exactPraise boxEngine.domain) boxEngine [.le (.sym "x" .real) (.realC 1)] true = .ok [1 / 2] := by
  constructor
  · unfold Domain.volumeOf
    congr 1
    refine restricted_congr fun σ hσ => ?_
    have := (hσ rfl ("x", some 0, some 1) (by simp [boxEngine, boxDomain])).2 1 rfl
    unfold queryDensity
    rw [if_pos]
    simpa [truth, value] using this
  · rw [(praise_correct_partial (e := boxEngine) (w := .realC 1) rfl (by
      show boxDomain.volumeOf false (density boxEngine.support (.realC 1)) ≠ 0
      rw [box_total]; norm_num) true).2]
    show Except.ok [boxDomain.volumeOf false _ / boxDomain.volumeOf false _] = _
    rw [box_total, box_query]

/-- The solver prints a licence line, a comment and a result; the engine returns the second number. -/
example : ∃ run : XaddSolver, jarVolume run ⟨some "mass", none, true⟩ boxEngine none true = .ok (some (5 / 4)) := by
  obtain ⟨S', -, -, h⟩ := xadd_volume_correct (e := boxEngine) rfl boxEngine_problem ⟨some "mass", none, true⟩ rfl none true
  refine ⟨fun _ _ _ _ _ _ => .output "licence\nrunning\n1.0 12.5E-1\n".toList, ?_⟩
  refine h _ _ ?_
  have := Answer.printed (l0 := "licence".toList) (pre := ["running".toList]) (l := "1.0 12.5E-1".toList) (l' := []) (post := [])
    (p := ⟨false, ['1'], ['0'], none⟩) (v := ⟨false, ['1', '2'], ['5'], some (true, ['1'])⟩) (by decide) (by decide)
    ?_ ?_ ?_ (by decide) ?_
  · have e : (JNum.mk false ['1', '2'] ['5'] (some (true, ['1']))).val = 5 / 4 := by
      have d : digVal '1' = 1 ∧ digVal '2' = 2 ∧ digVal '5' = 5 := by decide
      simp only [JNum.val, Bool.false_eq_true, if_false, if_true, List.cons_append, List.nil_append, List.map_cons, List.map_nil, d.1, d.2.1, d.2.2,
        List.length_cons, List.length_nil]
      norm_num [Nat.ofDigits]
    rw [e] at this
    exact this
  · intro x hx q hq
    simp only [List.mem_singleton] at hx
    subst hx
    have : ' ' ∈ "running".toList := by rw [hq.1]; simp
    revert this; decide
  · exact ⟨by simp, by simp [Dig], by simp, by simp [Dig], by simp⟩
  · exact ⟨by simp, by simp [Dig], by simp, by simp [Dig], by simp [Dig]⟩
  · intro x hx q hq
    simp only [List.mem_singleton] at hx
    subst hx
    exact absurd hq.1 (by simp)

/-- A box problem has a message passing and a predicate abstraction run. -/
example (solve : PaSolver ℚ) (h : ∀ S w q bs rs, solve S w q bs rs = .ok (if rs = ["x"] ∧ bs = [] then 1 else 0)) :
    paVolume solve ⟨none, some 3⟩ boxEngine true = .ok 1 := by
  obtain ⟨S', -, -, h'⟩ := pa_correct (K := ℚ) (e := boxEngine) rfl boxEngine_problem true
  rw [h', h, if_pos ⟨by decide, by decide⟩]

end Pywmi
