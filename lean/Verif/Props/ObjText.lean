import Verif.Math.Text
import Verif.Props.TreeText
import Verif.Props.LatteText

set_option linter.unusedSectionVars false
set_option linter.unusedSimpArgs false

/-!
# C105: the texts of polynomials, inequalities and domains
-/

namespace Pywmi
open Formula Prog

/-! ## Specification -/

/-- SPEC: the characters with which texts are put together. -/
def Marks (c : Char) : Prop := c ∈ [' ', '*', ',', '[', ']', ')']

instance (c : Char) : Decidable (Marks c) := inferInstanceAs (Decidable (c ∈ _))

/-- SPEC: `str` of numbers: different numbers have different texts, which are not empty, not `None`, and consist of characters `num` that are no
marks. -/
structure StrText (num : Char → Prop) (text : ℚ → List Char) : Prop where
  inj : Function.Injective text
  ne : ∀ q, text q ≠ []
  notNone : ∀ q, text q ≠ ['N', 'o', 'n', 'e']
  chars : ∀ q, ∀ c ∈ text q, num c
  marks : ∀ c, num c → ¬Marks c

/-- SPEC: a name without marks. -/
def MarkFree (n : String) : Prop := ∀ c ∈ n.toList, ¬Marks c

/-- SPEC: a name without marks that cannot continue a number. -/
def NameLike (num : Char → Prop) (n : String) : Prop := MarkFree n ∧ ∃ c r, n.toList = c :: r ∧ ¬num c

/-- SPEC: what a domain says about a variable: nothing for Booleans, the bounds for reals. -/
def Domain.tells (d : Domain) (v : String) : Option (Option Bounds) :=
  match d.varTypes.lookup v with
  | none => none
  | some .bool => some none
  | some .real => (d.varDomains.lookup v).map some

/-! ## Texts with separators -/

theorem toList_inj' {a b : String} (h : a.toList = b.toList) : a = b := String.toList_inj.mp h

/-- Words without the first character of the separator can be told apart. -/
theorem sep_inj {x : Char} {s : List Char} : ∀ (ws ws' : List (List Char)), (∀ w ∈ ws, x ∉ w) → (∀ w ∈ ws', x ∉ w) → ws ≠ [] → ws' ≠ [] →
    (x :: s).intercalate ws = (x :: s).intercalate ws' → ws = ws'
  | [w], [w'], _, _, _, _, h => by simpa using h
  | [w], w' :: u' :: ws', h1, _, _, _, h => by
    rw [List.intercalate_cons_cons, List.intercalate_singleton] at h
    exact absurd (by rw [h]; simp) (h1 w (by simp))
  | w :: u :: ws, [w'], _, h2, _, _, h => by
    rw [List.intercalate_cons_cons, List.intercalate_singleton] at h
    exact absurd (by rw [← h]; simp) (h2 w' (by simp))
  | w :: u :: ws, w' :: u' :: ws', h1, h2, _, _, h => by
    rw [List.intercalate_cons_cons, List.intercalate_cons_cons, List.append_assoc, List.append_assoc, List.cons_append, List.cons_append] at h
    obtain ⟨h3, -, h4⟩ := word_inj (p := (· = x)) (fun c hc e => h1 w (by simp) (e ▸ hc)) (fun c hc e => h2 w' (by simp) (e ▸ hc)) rfl rfl h
    rw [h3, sep_inj (u :: ws) (u' :: ws') (fun v hv => h1 v (by simp [hv])) (fun v hv => h2 v (by simp [hv])) (by simp) (by simp)
      (List.append_cancel_left h4)]

variable {num : Char → Prop} {text : ℚ → List Char}

/-! ## Polynomials -/

theorem polyTermText_inj (ht : StrText num text) {e e' : Mono × ℚ} (h1 : ∀ n ∈ e.1, MarkFree n) (h2 : ∀ n ∈ e'.1, MarkFree n)
    (h : polyTermText text e = polyTermText text e') : e = e' := by
  have star : ∀ {e : Mono × ℚ}, (∀ n ∈ e.1, MarkFree n) → ∀ w ∈ e.1.map String.toList ++ [text e.2], '*' ∉ w := by
    intro e he w hw hc
    simp only [List.mem_append, List.mem_map, List.mem_singleton] at hw
    rcases hw with ⟨n, hn, rfl⟩ | rfl
    · exact he n hn _ hc (by decide)
    · exact ht.marks _ (ht.chars _ _ hc) (by decide)
  have h := sep_inj _ _ (star h1) (star h2) (by simp) (by simp) h
  have h := List.append_inj' h rfl
  refine Prod.ext ?_ (ht.inj (by simpa using h.2))
  exact List.map_injective_iff.mpr (fun a b => toList_inj') h.1

theorem polyTermText_blank (ht : StrText num text) {e : Mono × ℚ} (h1 : ∀ n ∈ e.1, MarkFree n) : ' ' ∉ polyTermText text e := by
  refine Latte.mem_intercalate ?_ (by decide)
  intro w hw hc
  simp only [List.mem_append, List.mem_map, List.mem_singleton] at hw
  rcases hw with ⟨n, hn, rfl⟩ | rfl
  · exact h1 n hn _ hc (by decide)
  · exact ht.marks _ (ht.chars _ _ hc) (by decide)

theorem polyTermText_ne (ht : StrText num text) (e : Mono × ℚ) : polyTermText text e ≠ [] := by
  obtain ⟨k, v⟩ := e
  cases k with
  | nil => simpa [polyTermText] using ht.ne v
  | cons n k =>
    unfold polyTermText
    cases hk : k.map String.toList ++ [text v] with
    | nil => simp at hk
    | cons u ws =>
      simp only [List.map_cons, List.cons_append, hk]
      rw [List.intercalate_cons_cons]
      simp

/-- **C105**: the text of a polynomial tells its terms, their coefficients and their order. -/
theorem poly_text (ht : StrText num text) {d d' : Dict} (h1 : ∀ e ∈ d, ∀ n ∈ e.1, MarkFree n) (h2 : ∀ e ∈ d', ∀ n ∈ e.1, MarkFree n) :
    polyText text d = polyText text d' ↔ d = d' := by
  refine ⟨fun h => ?_, fun h => by rw [h]⟩
  have hne : ∀ {d : Dict}, d ≠ [] → polyText text d ≠ [] := by
    intro d hd
    cases d with
    | nil => exact absurd rfl hd
    | cons e d =>
      cases d with
      | nil => simpa [polyText] using polyTermText_ne ht e
      | cons e' d =>
        simp only [polyText, List.map_cons]
        rw [List.intercalate_cons_cons]
        simp
  by_cases hd : d = []
  · subst hd
    by_contra hd'
    exact hne (Ne.symm hd') (by rw [← h]; simp [polyText])
  · by_cases hd' : d' = []
    · subst hd'
      exact absurd (by rw [h]; simp [polyText]) (hne hd)
    · have hmap := sep_inj (d.map (polyTermText text)) (d'.map (polyTermText text))
        (fun w hw => by obtain ⟨e, he, rfl⟩ := List.mem_map.mp hw; exact polyTermText_blank ht (h1 e he))
        (fun w hw => by obtain ⟨e, he, rfl⟩ := List.mem_map.mp hw; exact polyTermText_blank ht (h2 e he)) (by simpa using hd) (by simpa using hd') h
      clear h hd hd' hne
      induction d generalizing d' with
      | nil => cases d' with
        | nil => rfl
        | cons e d' => simp at hmap
      | cons e d ih => cases d' with
        | nil => simp at hmap
        | cons e' d' =>
          simp only [List.map_cons, List.cons.injEq] at hmap
          rw [polyTermText_inj ht (h1 e (by simp)) (h2 e' (by simp)) hmap.1,
            ih (fun x hx => h1 x (by simp [hx])) (fun x hx => h2 x (by simp [hx])) hmap.2]

/-- **C105**, negation: equal polynomials can have different texts. -/
theorem poly_text_order (ht : StrText num text) : polyEq [(["x"], 1), (["y"], 1)] [(["y"], 1), (["x"], 1)] = true ∧
    polyText text [(["x"], 1), (["y"], 1)] ≠ polyText text [(["y"], 1), (["x"], 1)] := by
  refine ⟨by decide, fun h => ?_⟩
  have := (poly_text ht (by simp [MarkFree, Marks]) (by simp [MarkFree, Marks])).mp h
  simp at this

/-! ## Inequalities -/

theorem linTermText_inj (ht : StrText num text) {n n' : String} {v v' : ℚ} (h1 : NameLike num n) (h2 : NameLike num n')
    (h : linTermText text ([n], v) = linTermText text ([n'], v')) : n = n' ∧ v = v' := by
  obtain ⟨-, c, r, hn, hc⟩ := h1
  obtain ⟨-, c', r', hn', hc'⟩ := h2
  simp only [linTermText, List.flatMap_cons, List.flatMap_nil, List.append_nil] at h
  have hnum : ∀ v : ℚ, ∀ c ∈ (if v = 1 then [] else text v), ¬¬num c := by
    intro v c hc
    split at hc
    · simp at hc
    · exact not_not.mpr (ht.chars _ _ hc)
  rw [hn, hn'] at h
  obtain ⟨h3, h4, h5⟩ := word_inj (p := fun c => ¬num c) (hnum v) (hnum v') hc hc' h
  refine ⟨toList_inj' (by rw [hn, hn', h4, h5]), ?_⟩
  by_cases hv : v = 1
  · by_cases hv' : v' = 1
    · rw [hv, hv']
    · rw [if_pos hv, if_neg hv'] at h3
      exact absurd h3.symm (ht.ne _)
  · by_cases hv' : v' = 1
    · rw [if_neg hv, if_pos hv'] at h3
      exact absurd h3 (ht.ne _)
    · rw [if_neg hv, if_neg hv'] at h3
      exact ht.inj h3

theorem linTermText_blank (ht : StrText num text) {n : String} {v : ℚ} (h1 : NameLike num n) : ' ' ∉ linTermText text ([n], v) := by
  simp only [linTermText, List.flatMap_cons, List.flatMap_nil, List.append_nil, List.mem_append, not_or]
  refine ⟨fun h => ?_, fun h => h1.1 _ h (by decide)⟩
  split at h
  · simp at h
  · exact ht.marks _ (ht.chars _ _ h) (by decide)

/-- Sums that are followed by a comparison. -/
theorem sums_inj (ht : StrText num text) : ∀ (es es' : Dict) (r r' : List Char), (∀ e ∈ es, ∃ n, e.1 = [n] ∧ NameLike num n) →
    (∀ e ∈ es', ∃ n, e.1 = [n] ∧ NameLike num n) →
    [' ', '+', ' '].intercalate (es.map (linTermText text)) ++ ' ' :: '<' :: r = [' ', '+', ' '].intercalate (es'.map (linTermText text)) ++ ' ' :: '<' :: r' →
    es = es' ∧ r = r' := by
  have split : ∀ (e : Mono × ℚ) (es : Dict) (r : List Char), ∃ t,
      [' ', '+', ' '].intercalate ((e :: es).map (linTermText text)) ++ ' ' :: '<' :: r = linTermText text e ++ ' ' :: t ∧
      ((es = [] ∧ t = '<' :: r) ∨ (es ≠ [] ∧ t = '+' :: ' ' :: ([' ', '+', ' '].intercalate (es.map (linTermText text)) ++ ' ' :: '<' :: r))) := by
    intro e es r
    cases es with
    | nil => exact ⟨_, by simp, .inl ⟨rfl, rfl⟩⟩
    | cons e' es =>
      refine ⟨_, ?_, .inr ⟨by simp, rfl⟩⟩
      simp only [List.map_cons]
      rw [List.intercalate_cons_cons]
      simp
  have hne : ∀ e : Mono × ℚ, (∃ n, e.1 = [n] ∧ NameLike num n) → linTermText text e ≠ [] := by
    rintro ⟨k, v⟩ ⟨n, rfl, -, c, r, hn, -⟩
    simp [linTermText, hn]
  have hb : ∀ e : Mono × ℚ, (∃ n, e.1 = [n] ∧ NameLike num n) → ∀ c ∈ linTermText text e, ¬c = ' ' := by
    rintro ⟨k, v⟩ ⟨n, rfl, hn⟩ c hc rfl
    exact linTermText_blank ht hn hc
  intro es
  induction es with
  | nil =>
    intro es' r r' _ h2 h
    cases es' with
    | nil => simpa using h
    | cons e' es' =>
      obtain ⟨t, h3, -⟩ := split e' es' r'
      rw [h3] at h
      exact absurd (word_inj (p := (· = ' ')) (a := []) (by simp) (hb e' (h2 e' (by simp))) rfl rfl h).1.symm (hne e' (h2 e' (by simp)))
  | cons e es ih =>
    intro es' r r' h1 h2 h
    obtain ⟨t, h3, h4⟩ := split e es r
    rw [h3] at h
    cases es' with
    | nil => exact absurd (word_inj (p := (· = ' ')) (a' := []) (hb e (h1 e (by simp))) (by simp) rfl rfl h).1 (hne e (h1 e (by simp)))
    | cons e' es' =>
      obtain ⟨t', h5, h6⟩ := split e' es' r'
      rw [h5] at h
      obtain ⟨h7, -, h8⟩ := word_inj (p := (· = ' ')) (hb e (h1 e (by simp))) (hb e' (h2 e' (by simp))) rfl rfl h
      have he : e = e' := by
        obtain ⟨k, v⟩ := e
        obtain ⟨k', v'⟩ := e'
        obtain ⟨n, hk, hn⟩ := h1 _ List.mem_cons_self
        obtain ⟨n', hk', hn'⟩ := h2 _ List.mem_cons_self
        simp only at hk hk'
        subst hk hk'
        obtain ⟨rfl, rfl⟩ := linTermText_inj ht hn hn' h7
        rfl
      rcases h4 with ⟨h4, h4t⟩ | ⟨h4, h4t⟩ <;> rcases h6 with ⟨h6, h6t⟩ | ⟨h6, h6t⟩ <;> rw [h4t, h6t] at h8
      · exact ⟨by rw [he, h4, h6], (List.cons.inj h8).2⟩
      · exact absurd (List.cons.inj h8).1 (by decide)
      · exact absurd (List.cons.inj h8).1 (by decide)
      · obtain ⟨h9, h10⟩ := ih es' r r' (fun x hx => h1 x (by simp [hx])) (fun x hx => h2 x (by simp [hx])) (by simpa using h8)
        exact ⟨by rw [he, h9], h10⟩

theorem linCoef_named (d : Dict) {k : Mono} (hk : k ≠ []) : linCoef (d.filter fun e => e.1 ≠ []) k = linCoef d k := by
  unfold linCoef
  congr 1
  induction d with
  | nil => rfl
  | cons e d ih =>
    obtain ⟨k', v⟩ := e
    by_cases hk' : k' = []
    · subst hk'
      have : (k == ([] : Mono)) = false := by simpa using hk
      simp only [ne_eq, not_true_eq_false, decide_false, Bool.false_eq_true, not_false_eq_true, List.filter_cons_of_neg, List.lookup_cons, this]
      exact ih
    · simp only [ne_eq, hk', not_false_eq_true, decide_true, List.filter_cons_of_pos, List.lookup_cons]
      split
      · rfl
      · exact ih

/-- **C105** (partial: names cannot continue numbers): the text of a linear inequality tells its coefficients, its constant, and the order of the
variables. -/
theorem lin_text_partial (ht : StrText num text) {d d' : Dict} (h1 : ∀ e ∈ d, e.1 ≠ [] → ∃ n, e.1 = [n] ∧ NameLike num n)
    (h2 : ∀ e ∈ d', e.1 ≠ [] → ∃ n, e.1 = [n] ∧ NameLike num n) :
    (linText text d = linText text d' ↔ (d.filter fun e => e.1 ≠ []) = (d'.filter fun e => e.1 ≠ []) ∧ linCoef d [] = linCoef d' []) ∧
      (linText text d = linText text d' → ∀ k, linCoef d k = linCoef d' k) := by
  have key : linText text d = linText text d' → (d.filter fun e => e.1 ≠ []) = (d'.filter fun e => e.1 ≠ []) ∧ linCoef d [] = linCoef d' [] := by
    intro h
    have := sums_inj ht _ _ _ _ (fun e he => by
      obtain ⟨h3, h4⟩ := List.mem_filter.mp he; exact h1 e h3 (by simpa using h4)) (fun e he => by
      obtain ⟨h3, h4⟩ := List.mem_filter.mp he; exact h2 e h3 (by simpa using h4)) h
    exact ⟨this.1, neg_injective (ht.inj (List.cons.inj this.2).2)⟩
  refine ⟨⟨key, fun ⟨h3, h4⟩ => by rw [linText, linText, h3, h4]⟩, fun h k => ?_⟩
  obtain ⟨h3, h4⟩ := key h
  by_cases hk : k = []
  · rw [hk, h4]
  · rw [← linCoef_named d hk, h3, linCoef_named d' hk]

/-- **C105**, negation: if a name may begin with a number, then two different inequalities have the same text. -/
theorem lin_text_digit_wrong : ∃ n, linText text [([n], 1), ([], -3)] = linText text [(["x"], 2), ([], -3)] := by
  refine ⟨String.ofList (text 2 ++ ['x']), ?_⟩
  simp [linText, linTermText, linCoef, List.lookup]

/-- **C105**, negation: strict and other comparisons are printed in the same way, with <. -/
theorem lin_text_strict_wrong (l r : Formula) : linFromSmt (.le l r) = linFromSmt (.lt l r) ∧
    linFromSmt (.le (.sym "x" .real) (.realC 1)) = .ok [(["x"], 1), ([], -1)] ∧
    linText text [(["x"], 1), ([], -1)] = 'x' :: ' ' :: '<' :: ' ' :: text 1 := by
  refine ⟨?_, by decide +kernel, by simp [linText, linTermText, linCoef, List.lookup]⟩
  unfold linFromSmt mathDict
  rfl

/-! ## Domains -/

/-- The text of a variable. -/
def tellText (text : ℚ → List Char) (e : String × Option Bounds) : List Char :=
  match e.2 with
  | none => e.1.toList
  | some b => e.1.toList ++ '[' :: boundText text b.1 ++ ',' :: ' ' :: boundText text b.2 ++ [']']

/-- The rest of the text of a domain after a variable. -/
def tellRest (text : ℚ → List Char) : List (String × Option Bounds) → List Char
  | [] => [')']
  | e :: es => ',' :: ' ' :: (tellText text e ++ tellRest text es)

theorem tellRest_eq (e : String × Option Bounds) (es : List (String × Option Bounds)) :
    [',', ' '].intercalate ((e :: es).map (tellText text)) ++ [')'] = tellText text e ++ tellRest text es := by
  induction es generalizing e with
  | nil => simp [tellRest]
  | cons e' es ih =>
    simp only [List.map_cons] at ih ⊢
    rw [List.intercalate_cons_cons, List.append_assoc, ih e']
    simp [tellRest]

theorem boundText_marks (ht : StrText num text) (b : Option ℚ) : ∀ c ∈ boundText text b, ¬Marks c := by
  cases b with
  | none => intro c hc; simp only [boundText, List.mem_cons, List.not_mem_nil, or_false] at hc; rcases hc with rfl | rfl | rfl | rfl <;> decide
  | some q => exact fun c hc => ht.marks c (ht.chars q c hc)

theorem boundText_inj (ht : StrText num text) : Function.Injective (boundText text) := by
  intro a b h
  cases a with
  | none => cases b with
    | none => rfl
    | some q => exact absurd h.symm (ht.notNone q)
  | some p => cases b with
    | none => exact absurd h (ht.notNone p)
    | some q => rw [ht.inj h]

theorem tellRest_mark (es : List (String × Option Bounds)) : ∃ x t, tellRest text es = x :: t ∧ (x = ',' ∨ x = ')') := by
  cases es with
  | nil => exact ⟨_, _, rfl, .inr rfl⟩
  | cons e es => exact ⟨_, _, rfl, .inl rfl⟩

theorem tellText_inj (ht : StrText num text) {e e' : String × Option Bounds} {es es' : List (String × Option Bounds)} (h1 : MarkFree e.1)
    (h2 : MarkFree e'.1) (h : tellText text e ++ tellRest text es = tellText text e' ++ tellRest text es') :
    e = e' ∧ tellRest text es = tellRest text es' := by
  obtain ⟨n, b⟩ := e
  obtain ⟨n', b'⟩ := e'
  obtain ⟨x, t, hx, hx'⟩ := tellRest_mark (text := text) es
  obtain ⟨y, u, hy, hy'⟩ := tellRest_mark (text := text) es'
  have mx : Marks x := by rcases hx' with rfl | rfl <;> decide
  have my : Marks y := by rcases hy' with rfl | rfl <;> decide
  cases b with
  | none =>
    cases b' with
    | none =>
      simp only [tellText] at h
      rw [hx, hy] at h
      obtain ⟨h3, h4, h5⟩ := word_inj h1 h2 mx my h
      rw [hx, hy, h4, h5]
      exact ⟨Prod.ext (toList_inj' h3) rfl, rfl⟩
    | some c =>
      simp only [tellText, List.append_assoc, List.cons_append] at h
      rw [hx] at h
      have := (word_inj h1 h2 mx (by decide) h).2.1
      rcases hx' with rfl | rfl <;> exact absurd this (by decide)
  | some a =>
    cases b' with
    | none =>
      simp only [tellText, List.append_assoc, List.cons_append] at h
      rw [hy] at h
      have := (word_inj h1 h2 (by decide) my h).2.1
      rcases hy' with rfl | rfl <;> exact absurd this (by decide)
    | some c =>
      simp only [tellText, List.append_assoc, List.cons_append, List.nil_append] at h
      obtain ⟨h3, -, h4⟩ := word_inj h1 h2 (by decide) (by decide) h
      obtain ⟨h5, -, h6⟩ := word_inj (boundText_marks ht a.1) (boundText_marks ht c.1) (by decide) (by decide) h4
      obtain ⟨h7, -, h8⟩ := word_inj (boundText_marks ht a.2) (boundText_marks ht c.2) (by decide) (by decide) (List.cons.inj h6).2
      refine ⟨Prod.ext (toList_inj' h3) ?_, h8⟩
      exact congrArg some (Prod.ext (boundText_inj ht h5) (boundText_inj ht h7))

theorem tellRest_inj (ht : StrText num text) : ∀ {es es' : List (String × Option Bounds)}, (∀ e ∈ es, MarkFree e.1) → (∀ e ∈ es', MarkFree e.1) →
    tellRest text es = tellRest text es' → es = es'
  | [], [], _, _, _ => rfl
  | [], _ :: _, _, _, h => by simp [tellRest] at h
  | _ :: _, [], _, _, h => by simp [tellRest] at h
  | e :: es, e' :: es', h1, h2, h => by
    simp only [tellRest, List.cons.injEq, true_and] at h
    obtain ⟨h3, h4⟩ := tellText_inj ht (h1 e (by simp)) (h2 e' (by simp)) h
    rw [h3, tellRest_inj ht (fun x hx => h1 x (by simp [hx])) (fun x hx => h2 x (by simp [hx])) h4]

theorem domVarText_eq (d : Domain) (v : String) : domVarText text d v = match d.tells v with
    | some b => .ok (tellText text (v, b))
    | none => .error .keyError := by
  unfold domVarText Domain.tells
  cases d.varTypes.lookup v with
  | none => rfl
  | some t =>
    cases t with
    | bool => rfl
    | real => cases d.varDomains.lookup v <;> rfl

/-- What a domain tells about a list of variables. -/
def Domain.tellAll (d : Domain) : List String → Option (List (String × Option Bounds))
  | [] => some []
  | v :: vs =>
    match d.tells v, d.tellAll vs with
    | some b, some es => some ((v, b) :: es)
    | _, _ => none

theorem tellAll_iff (d : Domain) : ∀ {vs : List String} {es : List (String × Option Bounds)},
    d.tellAll vs = some es ↔ vs = es.map (·.1) ∧ ∀ e ∈ es, d.tells e.1 = some e.2
  | [], es => by
    simp only [Domain.tellAll, Option.some.injEq]
    constructor
    · rintro rfl; simp
    · rintro ⟨h, -⟩; simpa using h
  | v :: vs, es => by
    simp only [Domain.tellAll]
    constructor
    · intro h
      split at h
      · rename_i b es' h1 h2
        cases h
        obtain ⟨h3, h4⟩ := (tellAll_iff d).mp h2
        refine ⟨by simp [h3], ?_⟩
        intro e he
        rcases List.mem_cons.mp he with rfl | he
        · exact h1
        · exact h4 e he
      · cases h
    · rintro ⟨h1, h2⟩
      cases es with
      | nil => simp at h1
      | cons e es =>
        simp only [List.map_cons, List.cons.injEq] at h1
        obtain ⟨rfl, h1⟩ := h1
        rw [h2 e (by simp), (tellAll_iff d).mpr ⟨h1, fun x hx => h2 x (by simp [hx])⟩]

theorem mapE_domVarText (d : Domain) (vs : List String) : mapE (domVarText text d) vs = match d.tellAll vs with
    | some es => .ok (es.map (tellText text))
    | none => .error .keyError := by
  induction vs with
  | nil => rfl
  | cons v vs ih =>
    rw [mapE, domVarText_eq, ih, Domain.tellAll]
    cases d.tells v <;> cases d.tellAll vs <;> rfl

/-- **C105**: a domain is printed exactly if all its variables have types and its real variables have bounds, else printing raises KeyError. -/
theorem dom_text_ok (d : Domain) :
    ((∃ t, domText text d = .ok t) ↔ ∀ v ∈ d.vars, d.tells v ≠ none) ∧ (domText text d = .error .keyError ↔ ∃ v ∈ d.vars, d.tells v = none) := by
  have h : d.tellAll d.vars = none ↔ ∃ v ∈ d.vars, d.tells v = none := by
    generalize d.vars = vs
    induction vs with
    | nil => simp [Domain.tellAll]
    | cons v vs ih =>
      simp only [Domain.tellAll, List.mem_cons, exists_eq_or_imp]
      rw [← ih]
      cases d.tells v <;> cases d.tellAll vs <;> simp
  rw [domText, mapE_domVarText]
  cases hd : d.tellAll d.vars with
  | none =>
    obtain ⟨v, hv, hv'⟩ := h.mp hd
    exact ⟨by simpa using ⟨v, hv, hv'⟩, by simpa using ⟨v, hv, hv'⟩⟩
  | some es =>
    have hn : ¬∃ v ∈ d.vars, d.tells v = none := fun hc => by rw [h.mpr hc] at hd; cases hd
    refine ⟨⟨fun _ v hv hc => hn ⟨v, hv, hc⟩, fun _ => ⟨_, rfl⟩⟩, ⟨fun hc => ?_, fun hc => absurd hc hn⟩⟩
    simp at hc

/-- **C105** (partial: names without marks): two domains have the same text exactly if they have the same variables, in the same order, of the same
types and with the same bounds. -/
theorem dom_text_partial (ht : StrText num text) {d d' : Domain} (h1 : ∀ v ∈ d.vars, MarkFree v) (h2 : ∀ v ∈ d'.vars, MarkFree v)
    (hd : ∀ v ∈ d.vars, v ≠ "") (hd' : ∀ v ∈ d'.vars, v ≠ "") {t : List Char}
    (h : domText text d = .ok t) : domText text d' = .ok t ↔ d'.vars = d.vars ∧ ∀ v ∈ d.vars, d'.tells v = d.tells v := by
  have eval : ∀ {d : Domain} {t}, domText text d = .ok t ↔ ∃ es, d.tellAll d.vars = some es ∧ t = '(' :: ([',', ' '].intercalate (es.map (tellText text)) ++ [')']) := by
    intro d t
    rw [domText, mapE_domVarText]
    cases d.tellAll d.vars with
    | none => simp
    | some es => simp [eq_comm]
  obtain ⟨es, hes, rfl⟩ := eval.mp h
  obtain ⟨hv, htell⟩ := (tellAll_iff d).mp hes
  rw [eval]
  constructor
  · rintro ⟨es', hes', ht'⟩
    obtain ⟨hv', htell'⟩ := (tellAll_iff d').mp hes'
    have hm : ∀ e ∈ es, MarkFree e.1 := fun e he => h1 _ (by rw [hv]; exact List.mem_map_of_mem he)
    have hm' : ∀ e ∈ es', MarkFree e.1 := fun e he => h2 _ (by rw [hv']; exact List.mem_map_of_mem he)
    have hee : es = es' := by
      have ht' := (List.cons.inj ht').2
      have first : ∀ {e : String × Option Bounds} {es}, MarkFree e.1 → e.1 ≠ "" →
          [',', ' '].intercalate ((e :: es).map (tellText text)) ++ [')'] ≠ [')'] := by
        intro e es he hne hc
        rw [tellRest_eq] at hc
        have : e.1.toList ≠ [] := fun h0 => hne (toList_inj' (by simpa using h0))
        obtain ⟨c, r, hcr⟩ := List.exists_cons_of_ne_nil this
        have hc' : c ≠ ')' := fun h0 => he c (by rw [hcr]; simp) (by rw [h0]; decide)
        obtain ⟨n, b⟩ := e
        simp only at hcr
        cases b with
        | none => simp only [tellText, hcr, List.cons_append, List.cons.injEq] at hc; exact hc' hc.1
        | some b => simp only [tellText, hcr, List.cons_append, List.cons.injEq] at hc; exact hc' hc.1
      cases es with
      | nil => cases es' with
        | nil => rfl
        | cons e' es' => exact absurd ht'.symm (first (hm' e' (by simp)) (hd' _ (by rw [hv']; simp)))
      | cons e es => cases es' with
        | nil => exact absurd ht' (first (hm e (by simp)) (hd _ (by rw [hv]; simp)))
        | cons e' es' =>
          rw [tellRest_eq, tellRest_eq] at ht'
          obtain ⟨h3, h4⟩ := tellText_inj ht (hm e (by simp)) (hm' e' (by simp)) ht'
          rw [h3, tellRest_inj ht (fun x hx => hm x (by simp [hx])) (fun x hx => hm' x (by simp [hx])) h4]
    subst hee
    refine ⟨by rw [hv, hv'], fun v hvv => ?_⟩
    rw [hv] at hvv
    obtain ⟨e, he, rfl⟩ := List.mem_map.mp hvv
    rw [htell e he, htell' e he]
  · rintro ⟨h3, h4⟩
    refine ⟨es, (tellAll_iff d').mpr ⟨by rw [h3, hv], fun e he => ?_⟩, rfl⟩
    rw [h4 e.1 (by rw [hv]; exact List.mem_map_of_mem he), htell e he]

/-- **C105**, negation: with marks in names a domain with one Boolean has the text of one with a real variable. -/
theorem dom_text_wrong : ∃ n t, domText text ⟨[n], [(n, .bool)], []⟩ = .ok t ∧ domText text ⟨["x"], [("x", .real)], [("x", (some 0, some 1))]⟩ = .ok t := by
  refine ⟨String.ofList ("x[".toList ++ text 0 ++ ", ".toList ++ text 1 ++ "]".toList), 
    '(' :: ("x[".toList ++ text 0 ++ ", ".toList ++ text 1 ++ "]".toList) ++ [')'], ?_, ?_⟩ <;>
  simp [domText, mapE, domVarText, List.lookup, boundText]

/-! ## An instance -/

/-- Numbers in unary. -/
theorem unary_strText : StrText (fun c => c ∈ ['-', '+', '1', '/']) unaryShow where
  inj := unary_shareText.inj
  ne q := by simp [unaryShow]
  notNone q := by
    simp only [unaryShow, List.cons_append, ne_eq, List.cons.injEq, not_and]
    split <;> intro h <;> exact absurd h (by decide)
  chars q c hc := by
    simp only [unaryShow, List.cons_append, List.mem_cons, List.mem_append, List.mem_replicate] at hc
    rcases hc with h | h | h | h
    · split at h <;> simp [h]
    · simp [h.2]
    · simp [h]
    · simp [h.2]
  marks c hc := by
    simp only [List.mem_cons, List.not_mem_nil, or_false] at hc
    rcases hc with rfl | rfl | rfl | rfl <;> decide

example : NameLike (fun c => c ∈ ['-', '+', '1', '/']) "x1" := ⟨by simp [MarkFree, Marks], 'x', ['1'], by decide, by decide⟩

example : polyText unaryShow [(["x", "y"], 2), ([], -1/3)] = "x*y*+11/1 + -1/111".toList := by decide +kernel
example : linText unaryShow [(["x"], 1), (["y"], -2), ([], -3)] = "x + -11/1y < +111/1".toList := by decide +kernel
example : domText unaryShow ⟨["a", "x"], [("a", .bool), ("x", .real)], [("x", (some 0, none))]⟩ = .ok "(a, x[+/1, None])".toList := by decide +kernel

theorem nameLike_letters : ∀ n ∈ ["a", "x", "y"], NameLike (fun c => c ∈ ['-', '+', '1', '/']) n := by
  intro n hn
  simp only [List.mem_cons, List.not_mem_nil, or_false] at hn
  rcases hn with rfl | rfl | rfl
  · exact ⟨by simp [MarkFree, Marks], 'a', [], by decide, by decide⟩
  · exact ⟨by simp [MarkFree, Marks], 'x', [], by decide, by decide⟩
  · exact ⟨by simp [MarkFree, Marks], 'y', [], by decide, by decide⟩

/-- The hypotheses on inequalities are met. -/
example : linText unaryShow [(["x"], 1), (["y"], -2), ([], -3)] ≠ linText unaryShow [(["y"], -2), (["x"], 1), ([], -3)] := by
  intro h
  have hx := nameLike_letters "x" (by simp)
  have hy := nameLike_letters "y" (by simp)
  have := ((lin_text_partial unary_strText (by
    intro e he hne
    simp only [List.mem_cons, List.not_mem_nil, or_false] at he
    rcases he with rfl | rfl | rfl
    · exact ⟨_, rfl, hx⟩
    · exact ⟨_, rfl, hy⟩
    · exact absurd rfl hne) (by
    intro e he hne
    simp only [List.mem_cons, List.not_mem_nil, or_false] at he
    rcases he with rfl | rfl | rfl
    · exact ⟨_, rfl, hy⟩
    · exact ⟨_, rfl, hx⟩
    · exact absurd rfl hne)).1.mp h).1
  revert this
  decide +kernel

/-- The hypotheses on domains are met. -/
example : domText unaryShow ⟨["a", "x"], [("a", .bool), ("x", .real)], [("x", (some 0, some 1))]⟩ ≠
    domText unaryShow ⟨["a", "x"], [("a", .bool), ("x", .real)], [("x", (some 0, some 2))]⟩ := by
  intro h
  obtain ⟨t, ht⟩ := (dom_text_ok (text := unaryShow) ⟨["a", "x"], [("a", .bool), ("x", .real)], [("x", (some 0, some 1))]⟩).1.mpr (by decide)
  have hv : ∀ v ∈ ["a", "x"], MarkFree v := fun v hv => (nameLike_letters v (by simp at hv ⊢; tauto)).1
  have := (dom_text_partial unary_strText hv hv (by simp) (by simp) ht).mp (h ▸ ht)
  exact absurd (this.2 "x" (by simp)) (by decide +kernel)

end Pywmi
