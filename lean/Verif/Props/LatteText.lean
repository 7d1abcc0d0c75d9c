import Verif.Engine.Convex
import Verif.Props.Wrappers

set_option linter.unusedSectionVars false
set_option linter.unusedSimpArgs false

/-!
# C78: the texts exchanged with LattE

The specification is a reader of LattE's input formats and a description of the answers in its output.
-/

namespace Pywmi
open Prog

/-! ## SPEC: LattE's reading of its input -/

namespace LatteReader

/-- SPEC: a natural number in decimal notation. -/
def nat (t : List Char) : Option ℕ :=
  if t ≠ [] ∧ ∀ c ∈ t, c ∈ "0123456789".toList then some (Nat.ofDigits 10 (t.map digVal).reverse) else none

/-- SPEC: an integer. -/
def int : List Char → Option ℤ
  | '-' :: t => (nat t).map fun n : ℕ => -(n : ℤ)
  | t => (nat t).map fun n : ℕ => (n : ℤ)

/-- SPEC: a rational number, `a` or `a/b`. -/
def rat (t : List Char) : Option ℚ :=
  match t.splitOn '/' with
  | [a] => (int a).map fun z : ℤ => (z : ℚ)
  | [a, b] => (int a).bind fun z => (nat b).map fun n : ℕ => (z : ℚ) / (n : ℚ)
  | _ => none

/-- SPEC: the results if there are any for all. -/
def all {α β : Type} (f : α → Option β) : List α → Option (List β)
  | [] => some []
  | a :: as => (f a).bind fun b => (all f as).map (b :: ·)

/-- SPEC: the inequalities: a line with the numbers of rows and columns, then the rows, one in each line, then nothing but
empty lines. -/
def hrep (t : List Char) : Option (ℕ × List (List ℤ)) :=
  match t.splitOn '\n' with
  | [] => none
  | l :: ls =>
    match all nat (l.splitOn ' ') with
    | some [m, n] =>
      match all (fun l => all int (l.splitOn ' ')) (ls.take m) with
      | some rows =>
        if rows.length = m ∧ (∀ r ∈ rows, r.length = n) ∧ ∀ l ∈ ls.drop m, l = [] then some (n, rows) else none
      | none => none
    | _ => none

/-- SPEC: where the reader of a polynomial is. -/
inductive St
  | start
  | list (ms : List (ℚ × List ℕ))
  | coef (ms : List (ℚ × List ℕ)) (acc : List Char)
  | opening (ms : List (ℚ × List ℕ)) (c : ℚ)
  | exps (ms : List (ℚ × List ℕ)) (c : ℚ) (es : List ℕ) (acc : List Char)
  | closing (ms : List (ℚ × List ℕ)) (c : ℚ) (es : List ℕ)
  | done (ms : List (ℚ × List ℕ))
  | bad

/-- SPEC: the reader of a polynomial, `[[c,[e,...,e]],...]`. -/
def step : St → Char → St
  | .start, ch => if ch = '[' then .list [] else .bad
  | .list ms, ch => if ch = '[' then .coef ms [] else if ch = ',' ∧ ms ≠ [] then .list ms else if ch = ']' then .done ms else .bad
  | .coef ms acc, ch =>
    if ch = ',' then
      match rat acc with
      | some c => .opening ms c
      | none => .bad
    else .coef ms (acc ++ [ch])
  | .opening ms c, ch => if ch = '[' then .exps ms c [] [] else .bad
  | .exps ms c es acc, ch =>
    if ch = ',' then
      match nat acc with
      | some e => .exps ms c (es ++ [e]) []
      | none => .bad
    else if ch = ']' then
      if acc = [] ∧ es = [] then .closing ms c []
      else
        match nat acc with
        | some e => .closing ms c (es ++ [e])
        | none => .bad
    else .exps ms c es (acc ++ [ch])
  | .closing ms c es, ch => if ch = ']' then .list (ms ++ [(c, es)]) else .bad
  | .done ms, ch => if ch = '\n' then .done ms else .bad
  | .bad, _ => .bad

/-- SPEC: the polynomial in a file. -/
def poly (t : List Char) : Option (List (ℚ × List ℕ)) :=
  match t.foldl step .start with
  | .done ms => some ms
  | _ => none

end LatteReader

/-! ## Numbers -/

namespace Latte
open LatteReader

instance (c : Char) : Decidable (Dig c) := inferInstanceAs (Decidable (c ∈ _))

theorem dig_ofNat {d : ℕ} (h : d < 10) : Dig (Char.ofNat ('0'.toNat + d)) ∧ digVal (Char.ofNat ('0'.toNat + d)) = d := by
  interval_cases d <;> decide

theorem natText_digits (n : ℕ) : natText n ≠ [] ∧ ∀ c ∈ natText n, Dig c := by
  unfold natText
  split_ifs with h
  · exact ⟨by simp, by decide⟩
  · refine ⟨by simp [Nat.digits_ne_nil_iff_ne_zero.mpr h], fun c hc => ?_⟩
    simp only [List.mem_reverse, List.mem_map] at hc
    obtain ⟨d, hd, rfl⟩ := hc
    exact (dig_ofNat (Nat.digits_lt_base (by norm_num) hd)).1

theorem nat_natText (n : ℕ) : nat (natText n) = some n := by
  have h : natText n ≠ [] ∧ ∀ c ∈ natText n, c ∈ "0123456789".toList := natText_digits n
  rw [nat, if_pos h]
  congr 1
  unfold natText
  split_ifs with h0
  · subst h0; decide
  · rw [List.map_reverse, List.reverse_reverse, List.map_map]
    have : (Nat.digits 10 n).map (digVal ∘ fun d => Char.ofNat ('0'.toNat + d)) = Nat.digits 10 n := by
      conv_rhs => rw [← List.map_id (Nat.digits 10 n)]
      exact List.map_congr_left fun d hd => (dig_ofNat (Nat.digits_lt_base (by norm_num) hd)).2
    rw [this, Nat.ofDigits_digits]

theorem dig_not {c : Char} (h : Dig c) : c ≠ '-' ∧ c ≠ ' ' ∧ c ≠ '\n' ∧ c ≠ '/' ∧ c ≠ ',' ∧ c ≠ '[' ∧ c ≠ ']' := by
  have : c ∈ ['0', '1', '2', '3', '4', '5', '6', '7', '8', '9'] := h
  simp only [List.mem_cons, List.not_mem_nil, or_false] at this
  rcases this with rfl | rfl | rfl | rfl | rfl | rfl | rfl | rfl | rfl | rfl <;> decide

theorem int_digits {t : List Char} (h : ∀ c ∈ t, Dig c) : int t = (nat t).map fun n : ℕ => (n : ℤ) := by
  cases t with
  | nil => rfl
  | cons c t =>
    have := (dig_not (h c (by simp))).1
    unfold int
    split
    · rename_i heq; simp at heq; exact absurd heq.1 this
    · rfl

theorem int_intText (z : ℤ) : int (intText z) = some z := by
  unfold intText
  split_ifs with h
  · have e : int ('-' :: natText z.natAbs) = (nat (natText z.natAbs)).map fun n : ℕ => -(n : ℤ) := rfl
    rw [e, nat_natText]
    simp only [Option.map_some, Option.some.injEq]; omega
  · rw [int_digits (natText_digits _).2, nat_natText]
    simp only [Option.map_some, Option.some.injEq]; omega

theorem intText_chars (z : ℤ) : ∀ c ∈ intText z, c = '-' ∨ Dig c := by
  intro c hc
  unfold intText at hc
  split_ifs at hc
  · rcases List.mem_cons.mp hc with rfl | hc
    · exact .inl rfl
    · exact .inr ((natText_digits _).2 c hc)
  · exact .inr ((natText_digits _).2 c hc)

theorem intText_not (z : ℤ) {d : Char} (h : d = ' ' ∨ d = '\n' ∨ d = '/' ∨ d = ',' ∨ d = '[' ∨ d = ']') : d ∉ intText z := by
  intro hd
  rcases intText_chars z d hd with rfl | hd
  · revert h; decide
  · have := dig_not hd
    rcases h with rfl | rfl | rfl | rfl | rfl | rfl <;> simp at this

theorem natText_not (n : ℕ) {d : Char} (h : d = ' ' ∨ d = '\n' ∨ d = '/' ∨ d = ',' ∨ d = '[' ∨ d = ']') : d ∉ natText n := by
  intro hd
  have := dig_not ((natText_digits n).2 d hd)
  rcases h with rfl | rfl | rfl | rfl | rfl | rfl <;> simp at this

theorem splitOn_none' {c : Char} {a : List Char} (h : c ∉ a) : a.splitOn c = [a] := by
  have := List.splitOn_intercalate (ls := [a]) c (by simpa using h) (by simp)
  simpa using this

theorem splitOn_two {c : Char} {a b : List Char} (h : c ∉ a) (h' : c ∉ b) : (a ++ c :: b).splitOn c = [a, b] := by
  have := List.splitOn_intercalate (ls := [a, b]) c (by simp [h, h']) (by simp)
  simpa [List.intercalate, List.intersperse] using this

theorem rat_fracText (q : ℚ) : rat (fracText q) = some q := by
  unfold fracText rat
  split_ifs with h
  · rw [splitOn_none' (intText_not _ (by simp))]
    simp only [int_intText, Option.map_some, Option.some.injEq]
    exact (Rat.den_eq_one_iff q).mp h
  · rw [splitOn_two (intText_not _ (by simp)) (natText_not _ (by simp))]
    simp only [int_intText, nat_natText, Option.bind_some, Option.map_some, Option.some.injEq]
    exact Rat.num_div_den q

theorem fracText_not (q : ℚ) {d : Char} (h : d = ',' ∨ d = '[' ∨ d = ']') : d ∉ fracText q := by
  have h1 := intText_not q.num (d := d) (by tauto)
  have h2 := natText_not q.den (d := d) (by tauto)
  unfold fracText
  split_ifs
  · exact h1
  · simp only [List.mem_append, List.mem_cons, not_or]
    exact ⟨h1, by rcases h with rfl | rfl | rfl <;> decide, h2⟩

/-! ## The inequalities -/

theorem all_map {α β γ : Type} {f : α → Option β} {g : γ → α} {k : γ → β} {cs : List γ} (h : ∀ c ∈ cs, f (g c) = some (k c)) :
    all f (cs.map g) = some (cs.map k) := by
  induction cs with
  | nil => rfl
  | cons c cs ih =>
    rw [List.map_cons, all, h c (by simp), ih fun x hx => h x (by simp [hx])]
    rfl

theorem mem_intercalate {c d : Char} {ls : List (List Char)} (h : ∀ l ∈ ls, c ∉ l) (hd : c ≠ d) : c ∉ [d].intercalate ls := by
  induction ls with
  | nil => simp
  | cons l ls ih =>
    cases ls with
    | nil => simpa using h l (by simp)
    | cons l' ls =>
      rw [List.intercalate_cons_cons]
      simp only [List.mem_append, List.mem_singleton, not_or]
      exact ⟨⟨h l (by simp), hd⟩, ih fun x hx => h x (by simp [hx])⟩

/-- **C78**: the file of inequalities is read as the rows, for rows of integers with one entry per column. -/
theorem hrepText_correct {n : ℕ} {rows : List (List ℚ)} (hr : ∀ row ∈ rows, row.length = n + 1 ∧ ∀ a ∈ row, ∃ z : ℤ, a = z) :
    hrep (hrepText n rows) = some (n + 1, rows.map fun row => row.map (·.num)) := by
  have hrow : ∀ row ∈ rows, all int ((rowText row).splitOn ' ') = some (row.map (·.num)) := by
    intro row hrow
    have hne : row ≠ [] := List.ne_nil_of_length_pos (by rw [(hr row hrow).1]; omega)
    rw [rowText, List.splitOn_intercalate]
    · exact all_map fun a _ => int_intText _
    · intro l hl
      obtain ⟨a, _, rfl⟩ := List.mem_map.mp hl
      exact intText_not _ (by simp)
    · simpa using hne
  have hnl : ∀ row ∈ rows, '\n' ∉ rowText row := fun row _ => by
    refine mem_intercalate (fun l hl => ?_) (by decide)
    obtain ⟨a, _, rfl⟩ := List.mem_map.mp hl
    exact intText_not _ (by simp)
  have hhead : '\n' ∉ natText rows.length ++ ' ' :: natText (n + 1) := by
    simp only [List.mem_append, List.mem_cons, not_or]
    exact ⟨natText_not _ (by simp), by decide, natText_not _ (by simp)⟩
  have hsplit : (hrepText n rows).splitOn '\n' =
      (natText rows.length ++ ' ' :: natText (n + 1)) :: ((if rows = [] then [[]] else rows.map rowText) ++ [[]]) := by
    have key : hrepText n rows = ['\n'].intercalate
        ((natText rows.length ++ ' ' :: natText (n + 1)) :: ((if rows = [] then [[]] else rows.map rowText) ++ [[]])) := by
      have h1 : ∀ (l : List Char) (ls : List (List Char)), ['\n'].intercalate (l :: ls ++ [[]]) = ['\n'].intercalate (l :: ls) ++ ['\n'] := by
        intro l ls
        induction ls generalizing l with
        | nil => simp [List.intercalate, List.intersperse]
        | cons l' ls ih =>
          rw [List.cons_append, List.cons_append, List.intercalate_cons_cons, ← List.cons_append, ih, List.intercalate_cons_cons]
          simp
      unfold hrepText
      cases rows with
      | nil => simp [List.intercalate, List.intersperse]
      | cons r rs =>
        rw [if_neg (by simp), List.map_cons, ← List.cons_append, h1, List.intercalate_cons_cons]
        simp
    rw [key, List.splitOn_intercalate]
    · intro l hl
      rcases List.mem_cons.mp hl with rfl | hl
      · exact hhead
      · rcases List.mem_append.mp hl with hl | hl
        · split_ifs at hl
          · simp at hl; subst hl; simp
          · obtain ⟨row, hrow, rfl⟩ := List.mem_map.mp hl
            exact hnl row hrow
        · simp at hl; subst hl; simp
    · simp
  have hwords : all nat ((natText rows.length ++ ' ' :: natText (n + 1)).splitOn ' ') = some [rows.length, n + 1] := by
    rw [splitOn_two (natText_not _ (by simp)) (natText_not _ (by simp))]
    simp [all, nat_natText]
  unfold hrep
  rw [hsplit]
  simp only [hwords]
  by_cases h0 : rows = []
  · subst h0; rfl
  · rw [if_neg h0]
    have ht : (rows.map rowText ++ [[]]).take rows.length = rows.map rowText := List.take_left' (by simp)
    have hd : (rows.map rowText ++ [[]]).drop rows.length = [[]] := List.drop_left' (by simp)
    rw [ht, all_map (f := fun l => all int (l.splitOn ' ')) (g := rowText) hrow]
    simp only
    rw [if_pos ⟨by simp, by
      intro r hr'
      obtain ⟨row, h, rfl⟩ := List.mem_map.mp hr'
      rw [List.length_map]; exact (hr row h).1, by rw [hd]; simp⟩]

/-! ## The polynomial -/

theorem fold_coef {t : List Char} (h : ',' ∉ t) (ms : List (ℚ × List ℕ)) (acc : List Char) :
    t.foldl step (.coef ms acc) = .coef ms (acc ++ t) := by
  induction t generalizing acc with
  | nil => simp
  | cons c t ih =>
    simp only [List.mem_cons, not_or] at h
    rw [List.foldl_cons, step, if_neg (Ne.symm h.1), ih h.2]; simp

theorem fold_exps {t : List Char} (h : ',' ∉ t) (h' : ']' ∉ t) (ms : List (ℚ × List ℕ)) (c : ℚ) (es : List ℕ) (acc : List Char) :
    t.foldl step (.exps ms c es acc) = .exps ms c es (acc ++ t) := by
  induction t generalizing acc with
  | nil => simp
  | cons d t ih =>
    simp only [List.mem_cons, not_or] at h h'
    rw [List.foldl_cons, step, if_neg (Ne.symm h.1), if_neg (Ne.symm h'.1), ih h.2 h'.2]; simp

theorem fold_expList (ms : List (ℚ × List ℕ)) (c : ℚ) (e : ℕ) (es : List ℕ) (done : List ℕ) :
    (([','].intercalate ((e :: es).map natText)) ++ [']']).foldl step (.exps ms c done []) = .closing ms c (done ++ e :: es) := by
  induction es generalizing e done with
  | nil =>
    rw [List.map_cons, List.map_nil, List.intercalate_singleton, List.foldl_append,
      fold_exps (natText_not _ (by simp)) (natText_not _ (by simp)), List.nil_append, List.foldl_cons, List.foldl_nil, step,
      if_neg (by decide), if_pos rfl, if_neg (by simp [(natText_digits e).1]), nat_natText]
  | cons e' es ih =>
    rw [List.map_cons, List.map_cons, List.intercalate_cons_cons, List.append_assoc, List.append_assoc, List.foldl_append,
      fold_exps (natText_not _ (by simp)) (natText_not _ (by simp)), List.nil_append, List.foldl_append, List.foldl_cons,
      List.foldl_nil, step, if_pos rfl, nat_natText]
    simp only
    rw [← List.map_cons, ih]; simp

theorem fold_mono (ms : List (ℚ × List ℕ)) (m : ℚ × List ℕ) : (monoText m).foldl step (.list ms) = .list (ms ++ [m]) := by
  obtain ⟨c, es⟩ := m
  have e : monoText (c, es) = '[' :: (fracText c ++ (',' :: '[' :: (([','].intercalate (es.map natText) ++ [']']) ++ [']']))) := by
    simp [monoText]
  rw [e, List.foldl_cons, step, if_pos rfl, List.foldl_append, fold_coef (fracText_not c (by simp)), List.nil_append,
    List.foldl_cons, step, if_pos rfl, rat_fracText, List.foldl_cons]
  simp only
  rw [step, if_pos rfl, List.foldl_append]
  cases es with
  | nil =>
    simp [step]
  | cons e es =>
    rw [fold_expList]
    simp [step]

/-- **C78**: the file with the polynomial is read as the list of monomials. -/
theorem polyText_correct (ms : List (ℚ × List ℕ)) : poly (polyText ms) = some ms := by
  have key : ∀ (ms : List (ℚ × List ℕ)) (m : ℚ × List ℕ) (done : List (ℚ × List ℕ)),
      ([','].intercalate ((m :: ms).map monoText)).foldl step (.list done) = .list (done ++ m :: ms) := by
    intro ms
    induction ms with
    | nil => intro m done; simp [fold_mono]
    | cons m' ms ih =>
      intro m done
      rw [List.map_cons, List.map_cons, List.intercalate_cons_cons, List.foldl_append, List.foldl_append, fold_mono,
        List.foldl_cons, List.foldl_nil, step, if_neg (by decide), if_pos ⟨rfl, by simp⟩, ← List.map_cons, ih]
      simp
  unfold poly polyText
  cases ms with
  | nil => rfl
  | cons m ms =>
    rw [List.cons_append, List.foldl_cons, step, if_pos rfl, List.foldl_append, key]
    simp [step]

/-! ## SPEC: answers in the output -/

/-- SPEC: white space. -/
def White (c : Char) : Prop := c ∈ " \t\n\r\x0b\x0c".toList

/-- SPEC: the text starts with `Answer:`, white space and the fraction `a/b`. -/
def AnswerHere (s a b : List Char) : Prop :=
  ∃ ws r, s = "Answer:".toList ++ (ws ++ (a ++ '/' :: (b ++ r))) ∧ ws ≠ [] ∧ (∀ c ∈ ws, White c) ∧
    (∃ sign ds, a = sign ++ ds ∧ (sign = [] ∨ sign = ['-']) ∧ ds ≠ [] ∧ ∀ c ∈ ds, Dig c) ∧
    b ≠ [] ∧ (∀ c ∈ b, Dig c) ∧ ∀ c ∈ r.head?, ¬ Dig c

/-! ### The matcher -/

theorem isSpace_iff (c : Char) : isSpace c = true ↔ White c := by
  have : " \t\n\r\x0b\x0c".toList = [' ', '\t', '\n', '\r', '\x0b', '\x0c'] := rfl
  simp only [isSpace, White, this, List.mem_cons, List.not_mem_nil, or_false, Bool.or_eq_true, beq_iff_eq, or_assoc]

theorem head_flatMap {α β : Type} {l : List α} {f : α → List β} {x : α} {y : β} (h : l.head? = some x) (h' : (f x).head? = some y) :
    (l.flatMap f).head? = some y := by
  cases l with
  | nil => cases h
  | cons a l =>
    simp only [List.head?_cons, Option.some.injEq] at h
    subst h
    rw [List.flatMap_cons, List.head?_append, h']; rfl

theorem head_map {α β : Type} {l : List α} {f : α → β} {x : α} (h : l.head? = some x) : (l.map f).head? = some (f x) := by
  rw [List.head?_map, h]; rfl

theorem head_digits0 {ds t : List Char} (hd : ∀ c ∈ ds, Dig c) (ht : ∀ c ∈ t.head?, ¬ Dig c) :
    (Rx.digits0 (ds ++ t)).head? = some (ds, t) := by
  induction ds with
  | nil =>
    cases t with
    | nil => rfl
    | cons c t =>
      have : ¬ Rx.isDigit c = true := fun h => ht c (by simp) ((isDigit_iff c).mp h)
      simp [Rx.digits0, this]
  | cons c ds ih =>
    rw [List.cons_append, Rx.digits0, if_pos ((isDigit_iff c).mpr (hd c (by simp))), List.head?_append,
      head_map (ih fun x hx => hd x (by simp [hx]))]
    rfl

theorem head_digits1 {ds t : List Char} (h0 : ds ≠ []) (hd : ∀ c ∈ ds, Dig c) (ht : ∀ c ∈ t.head?, ¬ Dig c) :
    (Rx.digits1 (ds ++ t)).head? = some (ds, t) := by
  cases ds with
  | nil => exact absurd rfl h0
  | cons c ds =>
    rw [List.cons_append, Rx.digits1, if_pos ((isDigit_iff c).mpr (hd c (by simp))),
      head_map (head_digits0 (fun x hx => hd x (by simp [hx])) ht)]

theorem head_spaces0 {ws t : List Char} (hw : ∀ c ∈ ws, White c) (ht : ∀ c ∈ t.head?, ¬ White c) :
    (spaces0 (ws ++ t)).head? = some (ws, t) := by
  induction ws with
  | nil =>
    cases t with
    | nil => rfl
    | cons c t =>
      have : ¬ isSpace c = true := fun h => ht c (by simp) ((isSpace_iff c).mp h)
      simp [spaces0, this]
  | cons c ws ih =>
    rw [List.cons_append, spaces0, if_pos ((isSpace_iff c).mpr (hw c (by simp))), List.head?_append,
      head_map (ih fun x hx => hw x (by simp [hx]))]
    rfl

theorem head_spaces1 {ws t : List Char} (h0 : ws ≠ []) (hw : ∀ c ∈ ws, White c) (ht : ∀ c ∈ t.head?, ¬ White c) :
    (spaces1 (ws ++ t)).head? = some (ws, t) := by
  cases ws with
  | nil => exact absurd rfl h0
  | cons c ws =>
    rw [List.cons_append, spaces1, if_pos ((isSpace_iff c).mpr (hw c (by simp))),
      head_map (head_spaces0 (fun x hx => hw x (by simp [hx])) ht)]

theorem head_lit (t s : List Char) : (lit t (t ++ s)).head? = some (t, s) := by
  induction t with
  | nil => rfl
  | cons c t ih =>
    rw [List.cons_append, lit, Rx.seq]
    exact head_flatMap (x := ([c], t ++ s)) (by simp [Rx.chr]) (head_map ih)

theorem white_not_dig {c : Char} (h : White c) : ¬ Dig c ∧ c ≠ '-' := by
  have : c ∈ [' ', '\t', '\n', '\r', '\x0b', '\x0c'] := h
  simp only [List.mem_cons, List.not_mem_nil, or_false] at this
  have e : "0123456789".toList = ['0', '1', '2', '3', '4', '5', '6', '7', '8', '9'] := rfl
  rcases this with rfl | rfl | rfl | rfl | rfl | rfl <;> simp [Dig, e]

theorem head_signed {sign ds t : List Char} (hs : sign = [] ∨ sign = ['-']) (h0 : ds ≠ []) (hd : ∀ c ∈ ds, Dig c)
    (ht : ∀ c ∈ t.head?, ¬ Dig c) :
    (Rx.seq (Rx.opt (Rx.chr '-')) Rx.digits1 (sign ++ (ds ++ t))).head? = some (sign ++ ds, t) := by
  refine head_flatMap (x := (sign, ds ++ t)) ?_ (head_map (head_digits1 h0 hd ht))
  rcases hs with rfl | rfl
  · cases ds with
    | nil => exact absurd rfl h0
    | cons c ds =>
      have : c ≠ '-' := (dig_not (hd c (by simp))).1
      simp [Rx.opt, Rx.chr, this]
  · simp [Rx.opt, Rx.chr]

theorem slash_not : ∀ (x : List Char), ∀ c ∈ ('/' :: x).head?, ¬ Dig c := by
  intro x c hc
  simp only [List.head?_cons, Option.mem_some_iff] at hc
  subst hc
  have e : "0123456789".toList = ['0', '1', '2', '3', '4', '5', '6', '7', '8', '9'] := rfl
  simp [Dig, e]

theorem answerAt_some {s a b : List Char} (h : AnswerHere s a b) : answerAt s = some (a, b) := by
  obtain ⟨ws, r, rfl, h1, h2, ⟨sign, ds, rfl, hs, hd0, hd⟩, hb0, hb, hr⟩ := h
  unfold answerAt
  refine head_flatMap (head_lit _ _) (head_flatMap (head_spaces1 h1 h2 ?_) (head_flatMap (x := (sign ++ ds, '/' :: (b ++ r))) ?_ ?_))
  · intro c hc hw
    obtain ⟨w1, w2⟩ := white_not_dig hw
    rcases hs with rfl | rfl
    · cases ds with
      | nil => exact hd0 rfl
      | cons d ds =>
        simp at hc; subst hc
        exact w1 (hd d (by simp))
    · simp at hc; exact w2 hc.symm
  · rw [List.append_assoc]
    exact head_signed hs hd0 hd (slash_not _)
  · refine head_flatMap (x := (['/'], b ++ r)) (by simp [Rx.chr]) ?_
    exact head_map (head_digits1 hb0 hb hr)

theorem lang_spaces0 {s m r : List Char} (h : (m, r) ∈ spaces0 s) : s = m ++ r ∧ ∀ c ∈ m, White c := by
  induction s generalizing m with
  | nil => simp only [spaces0, List.mem_singleton, Prod.mk.injEq] at h; obtain ⟨rfl, rfl⟩ := h; simp
  | cons c s ih =>
    simp only [spaces0] at h
    split_ifs at h with hc
    · simp only [List.mem_append, List.mem_map, Prod.exists, Prod.mk.injEq, List.mem_singleton] at h
      rcases h with ⟨a, b, h, rfl, rfl⟩ | ⟨rfl, rfl⟩
      · obtain ⟨rfl, h'⟩ := ih h
        exact ⟨rfl, List.forall_mem_cons.mpr ⟨(isSpace_iff c).mp hc, h'⟩⟩
      · simp
    · simp only [List.mem_singleton, Prod.mk.injEq] at h; obtain ⟨rfl, rfl⟩ := h; simp

theorem lang_spaces1 {s m r : List Char} (h : (m, r) ∈ spaces1 s) : s = m ++ r ∧ m ≠ [] ∧ ∀ c ∈ m, White c := by
  cases s with
  | nil => simp [spaces1] at h
  | cons c s =>
    simp only [spaces1] at h
    split_ifs at h with hc
    · simp only [List.mem_map, Prod.exists, Prod.mk.injEq] at h
      obtain ⟨a, b, h, rfl, rfl⟩ := h
      obtain ⟨rfl, h'⟩ := lang_spaces0 h
      exact ⟨rfl, by simp, List.forall_mem_cons.mpr ⟨(isSpace_iff c).mp hc, h'⟩⟩
    · cases h

theorem lang_lit {t s m r : List Char} (h : (m, r) ∈ lit t s) : s = t ++ r := by
  induction t generalizing s m with
  | nil => simp only [lit, List.mem_singleton, Prod.mk.injEq] at h; exact h.2.symm
  | cons c t ih =>
    simp only [lit, Rx.seq, List.mem_flatMap, List.mem_map, Prod.exists, Prod.mk.injEq] at h
    obtain ⟨a, s', h1, b, r', h2, rfl, rfl⟩ := h
    obtain ⟨rfl, rfl⟩ := (Rx.lang_chr c _ _ _).mp h1
    rw [ih h2]; rfl

theorem answerAt_here {s a b : List Char} (h : answerAt s = some (a, b)) : AnswerHere s a b := by
  have hm := List.mem_of_head? h
  simp only [List.mem_flatMap, List.mem_map, Prod.exists, Prod.mk.injEq] at hm
  obtain ⟨_, s0, h0, ws, s1, h1, a', s2, h2, _, s3, h3, b', s4, h4, rfl, rfl⟩ := hm
  obtain rfl := lang_lit h0
  obtain ⟨rfl, w1, w2⟩ := lang_spaces1 h1
  obtain ⟨rfl, sign, ds, rfl, hs, hd0, hd⟩ := (Rx.lang_seq (Rx.lang_opt (Rx.lang_chr '-')) Rx.lang_digits1 _ _ _).mp h2
  obtain ⟨rfl, rfl⟩ := (Rx.lang_chr '/' _ _ _).mp h3
  obtain ⟨rfl, hb0, hb⟩ := (Rx.lang_digits1 _ _ _).mp h4
  -- the longest run of digits
  have hsplit : ∃ x y, s4 = x ++ y ∧ (∀ c ∈ x, Dig c) ∧ ∀ c ∈ y.head?, ¬ Dig c := by
    clear h h0 h1 h2 h3 h4
    induction s4 with
    | nil => exact ⟨[], [], rfl, by simp, by simp⟩
    | cons c s ih =>
      by_cases hc : Dig c
      · obtain ⟨x, y, rfl, hx, hy⟩ := ih
        exact ⟨c :: x, y, rfl, List.forall_mem_cons.mpr ⟨hc, hx⟩, hy⟩
      · exact ⟨[], c :: s, rfl, by simp, by simpa using hc⟩
  obtain ⟨x, y, rfl, hx, hy⟩ := hsplit
  have : AnswerHere ("Answer:".toList ++ (ws ++ ((sign ++ ds) ++ '/' :: ((b' ++ x) ++ y)))) (sign ++ ds) (b' ++ x) :=
    ⟨ws, y, rfl, w1, w2, ⟨sign, ds, rfl, hs, hd0, hd⟩, by simp [hb0], fun c hc => by
      rcases List.mem_append.mp hc with hc | hc
      · exact hb c hc
      · exact hx c hc, hy⟩
  have hsome := answerAt_some this
  have e : "Answer:".toList ++ (ws ++ ((sign ++ ds) ++ '/' :: ((b' ++ x) ++ y))) =
      "Answer:".toList ++ (ws ++ ((sign ++ ds) ++ (['/'] ++ (b' ++ (x ++ y))))) := by simp
  rw [e] at hsome this
  rw [hsome] at h
  simp only [Option.some.injEq, Prod.mk.injEq] at h
  have hx0 : x = [] := by simpa using h.2
  subst hx0
  simpa using this

theorem answerAt_iff (s a b : List Char) : answerAt s = some (a, b) ↔ AnswerHere s a b := ⟨answerAt_here, answerAt_some⟩

/-! ## The answer that is read -/

/-- SPEC: the fraction `a/b` of the last answer that starts in the first line in which an answer starts. -/
def Found (out a b : List Char) : Prop :=
  ∃ before line s, out = before ++ (line ++ s) ∧ (before = [] ∨ ∃ x, before = x ++ ['\n']) ∧ '\n' ∉ line ∧ AnswerHere s a b ∧
    (∀ x y, before = x ++ y → y ≠ [] → ∀ a b, ¬ AnswerHere (y ++ (line ++ s)) a b) ∧
    ∀ x y, s = x ++ y → x ≠ [] → '\n' ∉ x → ∀ a b, ¬ AnswerHere y a b

/-- SPEC: no answer anywhere. -/
def NoAnswer (out : List Char) : Prop := ∀ x y, out = x ++ y → ∀ a b, ¬ AnswerHere y a b

theorem answerAt_none {s : List Char} (h : ∀ a b, ¬ AnswerHere s a b) : answerAt s = none := by
  cases e : answerAt s with
  | none => rfl
  | some p => exact absurd (answerAt_here (a := p.1) (b := p.2) e) (h _ _)

theorem lineAnswer_none {s : List Char} (h : ∀ x y, s = x ++ y → '\n' ∉ x → ∀ a b, ¬ AnswerHere y a b) : lineAnswer s = none := by
  induction s with
  | nil => exact answerAt_none (h [] [] rfl (by simp))
  | cons c s ih =>
    have h0 := answerAt_none (h [] (c :: s) rfl (by simp))
    rw [lineAnswer]
    split_ifs with hc
    · exact h0
    · rw [h0, ih fun x y e hx => h (c :: x) y (by simp [e]) (by simp [hx, Ne.symm hc])]; rfl

theorem lineAnswer_line {line s : List Char} (h : '\n' ∉ line) {r : List Char × List Char} (hs : lineAnswer s = some r) :
    lineAnswer (line ++ s) = some r := by
  induction line with
  | nil => exact hs
  | cons c line ih =>
    simp only [List.mem_cons, not_or] at h
    rw [List.cons_append, lineAnswer, if_neg (Ne.symm h.1), ih h.2]; rfl

theorem AnswerHere.ne {s a b : List Char} (h : AnswerHere s a b) : ∃ t, s = 'A' :: t := by
  obtain ⟨ws, r, rfl, -⟩ := h
  exact ⟨_, rfl⟩

/-- **C78**: the answer that is read from the output: the last one that starts in the first line in which one starts; and
none is read when there is none. -/
theorem search_correct (out : List Char) :
    (∀ a b, search out = some (a, b) ↔ Found out a b) ∧ (search out = none ↔ NoAnswer out) := by
  have h1 : ∀ {out : List Char}, NoAnswer out → search out = none := by
    intro out h
    induction out with
    | nil => exact lineAnswer_none fun x y e _ => h x y e
    | cons c s ih =>
      rw [search, lineAnswer_none fun x y e _ => h x y e, ih fun x y e => h (c :: x) y (by simp [e])]; rfl
  have h2 : ∀ {out a b : List Char}, Found out a b → search out = some (a, b) := by
    rintro out a b ⟨before, line, s, rfl, hb, hl, hs, hearly, hlate⟩
    induction before with
    | nil =>
      obtain ⟨t, rfl⟩ := hs.ne
      have : lineAnswer ('A' :: t) = some (a, b) := by
        rw [lineAnswer, if_neg (by decide), lineAnswer_none (s := t) fun x y e hx =>
          hlate ('A' :: x) y (by simp [e]) (by simp) (by simp [hx]), answerAt_some hs]; rfl
      have hline := lineAnswer_line hl this
      rw [List.nil_append]
      cases e : line ++ 'A' :: t with
      | nil => simp at e
      | cons c u => rw [search, ← e, hline]; rfl
    | cons c before ih =>
      rw [List.cons_append, search]
      have hsome : ∀ z, c :: before = z → ∃ x, z = x ++ ['\n'] := by
        rintro z rfl
        rcases hb with h | h
        · cases h
        · exact h
      obtain ⟨x, hx⟩ := hsome _ rfl
      have hnone : lineAnswer (c :: (before ++ (line ++ s))) = none := by
        refine lineAnswer_none fun u v e hu => ?_
        -- the line ends inside `before`
        have hlen : u.length < (c :: before).length := by
          by_contra hge
          have : (c :: before).length ≤ u.length := not_lt.mp hge
          have hpre : (c :: before) <+: u := by
            refine List.prefix_of_prefix_length_le (l₃ := c :: (before ++ (line ++ s))) ⟨line ++ s, by simp⟩ ⟨v, e.symm⟩ this
          obtain ⟨w, rfl⟩ := hpre
          rw [hx] at hu
          simp at hu
        have hpre : u <+: (c :: before) :=
          List.prefix_of_prefix_length_le (l₃ := c :: (before ++ (line ++ s))) ⟨v, e.symm⟩ ⟨line ++ s, by simp⟩ hlen.le
        obtain ⟨w, hw⟩ := hpre
        have hv : v = w ++ (line ++ s) := by
          have : u ++ v = u ++ (w ++ (line ++ s)) := by
            rw [← e, ← List.append_assoc u w, hw]; simp
          exact List.append_cancel_left this
        rw [hv]
        refine hearly u w hw.symm ?_
        rintro rfl
        simp at hw
        rw [← hw] at hlen
        exact lt_irrefl _ hlen
      rw [hnone, Option.none_or]
      refine ih ?_ fun x y e hy => hearly (c :: x) y (by simp [e]) hy
      cases before with
      | nil => exact .inl rfl
      | cons d before =>
        right
        cases x with
        | nil => simp at hx
        | cons e x => simp at hx; exact ⟨x, by simpa using hx.2⟩
  -- either there is an answer in some line or none
  have h3 : ∀ out : List Char, NoAnswer out ∨ ∃ a b, Found out a b := by
    intro out
    -- the last answer of a line
    have last : ∀ n, ∀ s : List Char, s.length = n → (∃ x y, s = x ++ y ∧ '\n' ∉ x ∧ ∃ a b, AnswerHere y a b) →
        ∃ x y a b, s = x ++ y ∧ '\n' ∉ x ∧ AnswerHere y a b ∧ ∀ u v, y = u ++ v → u ≠ [] → '\n' ∉ u → ∀ a b, ¬ AnswerHere v a b := by
      intro n
      induction n using Nat.strong_induction_on with
      | _ n ih =>
        rintro s hn ⟨x, y, rfl, hx, a, b, hy⟩
        by_cases hl : ∃ u v, y = u ++ v ∧ u ≠ [] ∧ '\n' ∉ u ∧ ∃ a b, AnswerHere v a b
        · obtain ⟨u, v, rfl, hu, hu', a', b', hv⟩ := hl
          have hlt : (v).length < n := by
            rw [← hn]; simp only [List.length_append]
            have := List.length_pos_of_ne_nil hu
            omega
          obtain ⟨p, q, a2, b2, rfl, hp, hq, hlast⟩ := ih _ hlt v rfl ⟨[], v, rfl, by simp, a', b', hv⟩
          exact ⟨x ++ u ++ p, q, a2, b2, by simp, by simp [hx, hu', hp], hq, hlast⟩
        · push Not at hl
          exact ⟨x, y, a, b, rfl, hx, hy, fun u v e hu hu' a b h => hl u v e hu hu' a b h⟩
    have lines : ∀ n, ∀ out : List Char, out.length = n → NoAnswer out ∨ ∃ a b, Found out a b := by
      intro n
      induction n using Nat.strong_induction_on with
      | _ n ih =>
        intro out hn
        by_cases hline : ∃ x y, out = x ++ y ∧ '\n' ∉ x ∧ ∃ a b, AnswerHere y a b
        · obtain ⟨x, y, a, b, rfl, hx, hy, hlast⟩ := last _ out rfl hline
          exact .inr ⟨a, b, [], x, y, rfl, .inl rfl, hx, hy, fun u v e hv => by simp at e; exact absurd e.2 hv, hlast⟩
        · push Not at hline
          by_cases hnl : '\n' ∈ out
          · obtain ⟨x, y, e, hx⟩ := List.eq_append_cons_of_mem hnl
            have hearly : ∀ u v, x ++ ['\n'] = u ++ v → v ≠ [] → ∀ z a b, out = (x ++ ['\n']) ++ z → ¬ AnswerHere (v ++ z) a b := by
              intro u v huv hv z a b hz
              have hu : '\n' ∉ u := by
                intro hmem
                obtain ⟨w, rfl⟩ : u <+: x := by
                  refine List.prefix_of_prefix_length_le (l₃ := x ++ ['\n']) ⟨v, huv.symm⟩ ⟨_, rfl⟩ ?_
                  have h1 := congrArg List.length huv
                  have h2 := List.length_pos_of_ne_nil hv
                  simp at h1; omega
                exact hx (by simp [hmem])
              exact hline u (v ++ z) (by rw [hz, huv]; simp) hu a b
            rcases ih y.length (by rw [← hn, e]; simp; omega) y rfl with h | ⟨a, b, before, line, s, rfl, hb, hl, hs, he, hlast⟩
            · left
              intro u v huv a b hv
              rcases List.append_eq_append_iff.mp (e.symm.trans huv) with ⟨w, rfl, hw⟩ | ⟨w, rfl, rfl⟩
              · cases w with
                | nil =>
                  obtain ⟨t, ht⟩ := hv.ne
                  simp at hw; rw [ht] at hw; simp at hw
                | cons c w =>
                  simp at hw
                  exact h w v hw.2 a b hv
              · exact hline u (w ++ '\n' :: y) (by rw [e]; simp) (fun h => hx (by simp [h])) a b hv
            · right
              refine ⟨a, b, x ++ '\n' :: before, line, s, by rw [e]; simp, ?_, hl, hs, ?_, hlast⟩
              · right
                rcases hb with rfl | ⟨p, rfl⟩
                · exact ⟨x, rfl⟩
                · exact ⟨x ++ '\n' :: p, by simp⟩
              · intro u v huv hv a b
                rcases List.append_eq_append_iff.mp huv with ⟨w, rfl, hw⟩ | ⟨w, rfl, rfl⟩
                · cases w with
                  | nil =>
                    simp at hw
                    rw [← hw]
                    intro hA
                    obtain ⟨t, ht⟩ := hA.ne
                    simp at ht
                  | cons c w =>
                    simp at hw
                    exact he w v hw.2 hv a b
                · have := hearly u (w ++ ['\n']) (by simp) (by simp) (before ++ (line ++ s)) a b (by rw [e]; simp)
                  simpa using this
          · left
            intro u v huv a b
            exact hline u v huv (fun h => hnl (by rw [huv]; simp [h])) a b
    exact lines _ out rfl
  have huniq : ∀ {a b a' b'}, Found out a b → Found out a' b' → a = a' ∧ b = b' := fun h h' => by
    have := (h2 h).symm.trans (h2 h')
    simpa using this
  refine ⟨fun a b => ⟨fun h => ?_, h2⟩, ⟨fun h => ?_, h1⟩⟩
  · rcases h3 out with hn | ⟨a', b', hf⟩
    · rw [h1 hn] at h; cases h
    · rw [h2 hf] at h
      simp only [Option.some.injEq, Prod.mk.injEq] at h
      obtain ⟨rfl, rfl⟩ := h
      exact hf
  · rcases h3 out with hn | ⟨a', b', hf⟩
    · exact hn
    · rw [h2 hf] at h; cases h

/-! ## The value -/

theorem decNat_nat {t : List Char} (h : t ≠ []) (hd : ∀ c ∈ t, Dig c) : nat t = some (decNat t) := by
  rw [nat, if_pos ⟨h, hd⟩, decNat_eq hd]

theorem readInt_int {t : List Char} (h : ∃ sign ds, t = sign ++ ds ∧ (sign = [] ∨ sign = ['-']) ∧ ds ≠ [] ∧ ∀ c ∈ ds, Dig c) :
    int t = some (readInt t) := by
  obtain ⟨sign, ds, rfl, hs, h0, hd⟩ := h
  have hm : ∀ c ∈ ds.head?, c ≠ '-' := fun c hc => (dig_not (hd c (List.mem_of_mem_head? hc))).1
  rcases hs with rfl | rfl
  · have := strip_minus false hm
    simp only [Bool.false_eq_true, if_false] at this
    rw [readInt, this, List.nil_append, int_digits hd, decNat_nat h0 hd]
    simp
  · have := strip_minus true hm
    simp only [if_true] at this
    have e : int (['-'] ++ ds) = (nat ds).map fun n : ℕ => -(n : ℤ) := rfl
    rw [readInt, this, e, decNat_nat h0 hd]
    simp

/-- **C78**: the value read: the quotient of the two numbers of the answer, an exception if the second is zero, and zero if
there is no answer. -/
theorem readAnswer_correct (out : List Char) :
    (∀ a b, Found out a b → ∃ (z : ℤ) (n : ℕ), int a = some z ∧ nat b = some n ∧
      (n ≠ 0 → readAnswer out = .ok (z / n)) ∧ (n = 0 → readAnswer out = .error .zeroDivision)) ∧
    (NoAnswer out → readAnswer out = .ok 0) := by
  constructor
  · intro a b hf
    obtain ⟨_, _, s, _, _, _, ⟨ws, r, _, _, _, ha, hb0, hb, _⟩, _, _⟩ := id hf
    have hs := ((search_correct out).1 a b).mpr hf
    have hbm : ∀ c ∈ b.head?, c ≠ '-' := fun c hc => (dig_not (hb c (List.mem_of_mem_head? hc))).1
    have hbi : readInt b = (decNat b : ℤ) := by
      have := strip_minus false hbm
      simp only [Bool.false_eq_true, if_false, List.nil_append] at this
      rw [readInt, this]; simp
    refine ⟨_, _, readInt_int ha, decNat_nat hb0 hb, fun hn => ?_, fun hn => ?_⟩
    · have : ¬ ((decNat b : ℕ) : ℤ) = 0 := by exact_mod_cast hn
      simp only [readAnswer, hs, fraction, hbi, this, if_false, Int.cast_natCast]
    · simp only [readAnswer, hs, fraction, hbi, hn, Nat.cast_zero, if_true]
  · intro h
    simp only [readAnswer, (search_correct out).2.mpr h]

/-! ### Findings -/

/-- An integer without denominator is no answer for the reader: zero is returned for it. -/
theorem integer_answer_lost : readAnswer "     Answer: 5\n".toList = .ok 0 ∧ readAnswer "     Answer: 5/1\n".toList = .ok 5 := by
  decide +kernel

/-- Two answers in a line: the last one counts; in different lines: the first one. -/
example : search "Answer: 1/2 Answer: 1/3\nAnswer: 1/4".toList = some ("1".toList, "3".toList) := by decide +kernel

end Latte
end Pywmi
