import Verif.Parse.Json
import Verif.Props.Domain

set_option linter.unusedSectionVars false
set_option linter.unusedSimpArgs false

/-!
# Facts about the reader and writer of JSON (helper lemmas)
-/

namespace Pywmi.Json

/-! ## Characters and digits -/

theorem charDigit_digitChar (d : Fin 10) : charDigit (digitChar d) = some d := by
  revert d; decide

theorem natDigits_ne (n : ℕ) : natDigits n ≠ [] := by
  unfold natDigits; split <;> simp

theorem digitsNat_append (ds : List (Fin 10)) (d : Fin 10) : digitsNat (ds ++ [d]) = 10 * digitsNat ds + d.val := by
  simp [digitsNat]

theorem digitsNat_natDigits (n : ℕ) : digitsNat (natDigits n) = n := by
  induction n using Nat.strong_induction_on with
  | _ n ih =>
    unfold natDigits
    split
    · rename_i h
      simp [digitsNat, Fin.ofNat, Nat.mod_eq_of_lt h]
    · rename_i h
      rw [digitsNat_append, ih (n / 10) (by omega)]
      simp only [Fin.ofNat]
      omega

/-- The first digit is 0 for the number 0 only. -/
theorem natDigits_head (n : ℕ) : ∃ d ds, natDigits n = d :: ds ∧ (d = 0 ↔ n = 0) ∧ (n = 0 → ds = []) := by
  induction n using Nat.strong_induction_on with
  | _ n ih =>
    unfold natDigits
    split
    · rename_i h
      refine ⟨_, _, rfl, ?_, fun _ => rfl⟩
      rw [Fin.ext_iff]
      simp [Fin.ofNat, Nat.mod_eq_of_lt h]
    · rename_i h
      obtain ⟨d, ds, h1, h2, h3⟩ := ih (n / 10) (by omega)
      refine ⟨d, ds ++ [Fin.ofNat 10 n], by rw [h1]; rfl, ?_, fun h0 => absurd h0 (by omega)⟩
      rw [h2]; omega

/-- A text that does not go on with a digit. -/
def NoDigit (r : List Char) : Prop := ∀ c t, r = c :: t → charDigit c = none

theorem readDigits_map (ds : List (Fin 10)) {r : List Char} (h : NoDigit r) :
    readDigits (ds.map digitChar ++ r) = (ds, r) := by
  induction ds with
  | nil =>
    cases r with
    | nil => rfl
    | cons c t => simp [readDigits, h c t rfl]
  | cons d ds ih => simp [readDigits, charDigit_digitChar, ih]

theorem readWhole_digits (n : ℕ) {r : List Char} (h : NoDigit r) :
    readWhole ((natDigits n).map digitChar ++ r) = some (n, r) := by
  obtain ⟨d, ds, h1, h2, h3⟩ := natDigits_head n
  rw [readWhole, readDigits_map _ h, h1]
  simp only
  split
  · rename_i h0
    have hn := h2.mp h0
    rw [h3 hn, hn]
    rfl
  · rw [← h1, digitsNat_natDigits]

/-- Where a value may end: the end of the text or a delimiter. -/
def Stops (r : List Char) : Prop := r = [] ∨ ∃ c t, r = c :: t ∧ (c = ',' ∨ c = ']' ∨ c = '}')

theorem Stops.noDigit {r : List Char} (h : Stops r) : NoDigit r := by
  intro c t e
  rcases h with rfl | ⟨c', t', rfl, h⟩
  · cases e
  · cases e; rcases h with rfl | rfl | rfl <;> decide

theorem readExp_text (e : Option (Option Bool × Fin 10 × List (Fin 10))) {r : List Char} (h : Stops r) :
    readExp ((match e with
      | none => []
      | some (s, d, ds) =>
        'e' :: ((match s with | none => [] | some true => ['-'] | some false => ['+']) ++ (d :: ds).map digitChar)) ++ r) =
      (e, r) := by
  cases e with
  | none =>
    rcases h with rfl | ⟨c, t, rfl, h⟩
    · rfl
    · rcases h with rfl | rfl | rfl <;> simp [readExp]
  | some p =>
    obtain ⟨s, d, ds⟩ := p
    have hd := readDigits_map (d :: ds) h.noDigit
    have hs : ∀ x : Fin 10, digitChar x ≠ '-' ∧ digitChar x ≠ '+' := by decide
    cases s with
    | none =>
      have : readSign (digitChar d :: (ds.map digitChar ++ r)) = (none, digitChar d :: (ds.map digitChar ++ r)) := by
        simp [readSign, hs d]
      simp only [List.map_cons, List.cons_append, List.nil_append] at hd ⊢
      simp [readExp, this, hd]
    | some b =>
      cases b <;>
      · simp only [List.map_cons, List.cons_append, List.nil_append] at hd ⊢
        simp [readExp, readSign, hd]

theorem readFrac_text (fr : List (Fin 10)) {r : List Char} (h : NoDigit r) (hdot : ∀ t, r ≠ '.' :: t) :
    readFrac ((if fr.isEmpty then [] else '.' :: fr.map digitChar) ++ r) = (fr, r) := by
  cases fr with
  | nil =>
    cases r with
    | nil => rfl
    | cons c t =>
      have : c ≠ '.' := fun e => hdot t (by rw [e])
      simp [readFrac, this]
  | cons d ds =>
    have := readDigits_map (d :: ds) h
    simp only [List.isEmpty_cons, Bool.false_eq_true, if_false, List.map_cons, List.cons_append] at this ⊢
    simp [readFrac, this]

theorem readNumber_text (t : Numeral) {r : List Char} (h : Stops r) : readNumber (numChars t ++ r) = some (t, r) := by
  obtain ⟨neg, n, fr, e⟩ := t
  unfold numChars
  simp only [List.append_assoc]
  generalize he : (match e with
      | none => []
      | some (s, d, ds) =>
        'e' :: ((match s with | none => [] | some true => ['-'] | some false => ['+']) ++ (d :: ds).map digitChar)) ++ r = E
  have hE : NoDigit E ∧ ∀ t, E ≠ '.' :: t := by
    cases e with
    | none =>
      have he : r = E := he
      rw [← he]
      refine ⟨h.noDigit, fun t e => ?_⟩
      rcases h with rfl | ⟨c, t', rfl, h⟩
      · cases e
      · cases e; simp at h
    | some p =>
      obtain ⟨s, d, ds⟩ := p
      have : ∃ t, E = 'e' :: t := ⟨_, he.symm⟩
      obtain ⟨t, rfl⟩ := this
      exact ⟨fun c t e => by cases e; decide, fun t e => by simp at e⟩
  have hx := readExp_text e h
  rw [he] at hx
  generalize hf : (if fr.isEmpty = true then [] else '.' :: fr.map digitChar) ++ E = F
  have hF : NoDigit F := by
    cases fr with
    | nil => have hf : E = F := hf; rw [← hf]; exact hE.1
    | cons d ds =>
      have : ∃ t, F = '.' :: t := ⟨_, hf.symm⟩
      obtain ⟨t, rfl⟩ := this
      exact fun c t e => by cases e; decide
  have hr := readFrac_text fr hE.1 hE.2
  rw [hf] at hr
  have hw := readWhole_digits n hF
  obtain ⟨d, ds, hd, -, -⟩ := natDigits_head n
  have hneg : ∀ x : Fin 10, digitChar x ≠ '-' := by decide
  cases neg with
  | true => simp [readNumber, hw, hr, hx]
  | false =>
    have : ((natDigits n).map digitChar ++ F).head? ≠ some '-' := by rw [hd]; simp [hneg d]
    simp only [readNumber, List.nil_append, Bool.false_eq_true, if_false, this, hw, hr, hx, decide_false]

/-! ## Strings -/

theorem prefix_append_cases {p a b : List Char} (h : p <+: a ++ b) :
    (p <+: a ∧ p ≠ a) ∨ ∃ q, p = a ++ q ∧ q <+: b := by
  rcases List.prefix_or_prefix_of_prefix h (List.prefix_append a b) with h1 | ⟨q, rfl⟩
  · by_cases e : p = a
    · exact .inr ⟨[], by simp [e], List.nil_prefix⟩
    · exact .inl ⟨h1, e⟩
  · exact .inr ⟨q, rfl, (List.prefix_append_right_inj a).mp h⟩

theorem hexVal_hexChar : ∀ n < 16, hexVal (hexChar n) = some n := by decide

theorem hex4_u4 {n : ℕ} (h : n < 65536) (r : List Char) : hex4 ((u4 n).tail.tail ++ r) = some (n, r) := by
  have h1 := hexVal_hexChar (n / 4096) (by omega)
  have h2 := hexVal_hexChar (n / 256 % 16) (by omega)
  have h3 := hexVal_hexChar (n / 16 % 16) (by omega)
  have h4 := hexVal_hexChar (n % 16) (by omega)
  simp only [u4, List.tail_cons, List.cons_append, List.nil_append, hex4, h1, h2, h3, h4]
  congr 2
  omega

theorem u4_eq (n : ℕ) : u4 n = '\\' :: 'u' :: (u4 n).tail.tail := rfl

theorem char_valid (c : Char) : c.toNat < 55296 ∨ (57343 < c.toNat ∧ c.toNat < 1114112) := by
  exact c.valid

theorem strStep_u (r : List Char) : strStep ('\\' :: 'u' :: r) =
    match hex4 r with
    | none => .fail
    | some (n, r) => if 55296 ≤ n ∧ n ≤ 56319 then lowChar n r else plainChar n r := by
  simp [strStep, escStep]
  rfl

theorem strStep_plain {n : ℕ} (h : n < 55296 ∨ (57343 < n ∧ n < 65536)) (r : List Char) :
    strStep (u4 n ++ r) = .char (Char.ofNat n) r := by
  rw [u4_eq, List.cons_append, List.cons_append, strStep_u, hex4_u4 (by omega)]
  simp only
  rw [if_neg (by omega), plainChar, if_neg (by omega)]

theorem lowChar_u4 (n : ℕ) {m : ℕ} (h : m < 1024) (r : List Char) :
    lowChar n (u4 (56320 + m) ++ r) = .char (Char.ofNat (65536 + ((n - 55296) * 1024 + m))) r := by
  rw [u4_eq, List.cons_append, List.cons_append, lowChar]
  simp only [strip, if_true, hex4_u4 (show 56320 + m < 65536 by omega)]
  rw [if_pos (by omega), Nat.add_sub_cancel_left]

theorem strStep_pair {v : ℕ} (h : v < 1048576) (r : List Char) :
    strStep (u4 (55296 + v / 1024) ++ (u4 (56320 + v % 1024) ++ r)) = .char (Char.ofNat (65536 + v)) r := by
  rw [u4_eq, List.cons_append, List.cons_append, strStep_u, hex4_u4 (by omega)]
  simp only
  rw [if_pos (by omega), lowChar_u4 _ (by omega), Nat.add_sub_cancel_left]
  have : v / 1024 * 1024 + v % 1024 = v := by omega
  rw [this]

theorem strStep_esc (c : Char) (r : List Char) : strStep (escChar c ++ r) = .char c r := by
  have hv := char_valid c
  unfold escChar
  split
  · subst c; simp [strStep, escStep]
  split
  · subst c; simp [strStep, escStep]
  split
  · subst c; simp [strStep, escStep]
  split
  · subst c; simp [strStep, escStep]
  split
  · subst c; simp [strStep, escStep]
  split
  · rename_i h
    have : c = Char.ofNat 12 := by rw [← h, Char.ofNat_toNat]
    rw [this]; rfl
  split
  · rename_i h
    have : c = Char.ofNat 8 := by rw [← h, Char.ofNat_toNat]
    rw [this]; rfl
  split
  · rename_i h1 h2 _ _ _ _ _ h
    simp [strStep, h1, h2, show ¬c.toNat < 32 by omega]
  split
  · rename_i h
    rw [strStep_plain (by omega), Char.ofNat_toNat]
  · rename_i h
    have e : 65536 + (c.toNat - 65536) = c.toNat := by omega
    rw [List.append_assoc, strStep_pair (by omega), e, Char.ofNat_toNat]

theorem escChar_length (c : Char) : 1 ≤ (escChar c).length := by
  unfold escChar
  repeat' split
  all_goals simp [u4]

theorem readStrF_enc (s : List Char) (r : List Char) : ∀ n, s.length < n →
    readStrF n (s.flatMap escChar ++ ('"' :: r)) = .ok (s, r) := by
  induction s with
  | nil =>
    intro n hn
    cases n with
    | zero => omega
    | succ n => simp [readStrF, strStep]
  | cons c s ih =>
    intro n hn
    cases n with
    | zero => simp at hn
    | succ n =>
      rw [List.flatMap_cons, List.append_assoc, readStrF, strStep_esc]
      simp only [ih n (by simpa using hn)]

theorem flatMap_esc_length (s : List Char) : s.length ≤ (s.flatMap escChar).length := by
  induction s with
  | nil => simp
  | cons c s ih =>
    have := escChar_length c
    simp only [List.flatMap_cons, List.length_append, List.length_cons]
    omega

theorem readStr_enc (s : String) (r : List Char) : readStr (s.toList.flatMap escChar ++ ('"' :: r)) = .ok (s, r) := by
  have h := flatMap_esc_length s.toList
  rw [readStr, readStrF_enc s.toList r _ (by simp only [List.length_append, List.length_cons]; omega)]
  simp

/-- A cut in the middle of a character is noticed. -/
theorem strStep_cut (c : Char) {p : List Char} (h : p <+: escChar c) (hne : p ≠ escChar c) : strStep p = .fail := by
  have h4 : ∀ (n : ℕ) (q : List Char), q <+: u4 n → q ≠ u4 n → strStep q = .fail ∧
      (∀ m, lowChar m q = .fail) := by
    intro n q hq hqn
    obtain ⟨t, ht⟩ := hq
    rcases q with _ | ⟨a, _ | ⟨b, _ | ⟨c, _ | ⟨d, _ | ⟨e, _ | ⟨f, q⟩⟩⟩⟩⟩⟩ <;>
      simp only [u4, List.cons_append, List.nil_append, List.cons.injEq] at ht
    · exact ⟨rfl, fun m => rfl⟩
    · obtain ⟨rfl, _⟩ := ht; simp [strStep, escStep, lowChar, strip]
    · obtain ⟨rfl, rfl, _⟩ := ht; simp [strStep, escStep, lowChar, strip, hex4]
    · obtain ⟨rfl, rfl, _⟩ := ht; simp [strStep, escStep, lowChar, strip, hex4]
    · obtain ⟨rfl, rfl, _⟩ := ht; simp [strStep, escStep, lowChar, strip, hex4]
    · obtain ⟨rfl, rfl, _⟩ := ht; simp [strStep, escStep, lowChar, strip, hex4]
    · obtain ⟨rfl, rfl, rfl, rfl, rfl, rfl, hq⟩ := ht
      have : q = [] := by
        cases q with
        | nil => rfl
        | cons => simp at hq
      subst this
      exact absurd rfl hqn
  have h2 : ∀ x : Char, ∀ q : List Char, q <+: ['\\', x] → q ≠ ['\\', x] → strStep q = .fail := by
    intro x q hq hqn
    obtain ⟨t, ht⟩ := hq
    rcases q with _ | ⟨a, _ | ⟨b, q⟩⟩ <;> simp only [List.cons_append, List.nil_append, List.cons.injEq] at ht
    · rfl
    · obtain ⟨rfl, _⟩ := ht; simp [strStep, escStep]
    · obtain ⟨rfl, rfl, hq⟩ := ht
      have : q = [] := by
        cases q with
        | nil => rfl
        | cons => simp at hq
      subst this
      exact absurd rfl hqn
  have hv := char_valid c
  unfold escChar at h hne
  split at h
  · rename_i hc; rw [if_pos hc] at hne; exact h2 _ _ h hne
  rename_i n1; rw [if_neg n1] at hne
  split at h
  · rename_i hc; rw [if_pos hc] at hne; exact h2 _ _ h hne
  rename_i n2; rw [if_neg n2] at hne
  split at h
  · rename_i hc; rw [if_pos hc] at hne; exact h2 _ _ h hne
  rename_i n3; rw [if_neg n3] at hne
  split at h
  · rename_i hc; rw [if_pos hc] at hne; exact h2 _ _ h hne
  rename_i n4; rw [if_neg n4] at hne
  split at h
  · rename_i hc; rw [if_pos hc] at hne; exact h2 _ _ h hne
  rename_i n5; rw [if_neg n5] at hne
  split at h
  · rename_i hc; rw [if_pos hc] at hne; exact h2 _ _ h hne
  rename_i n6; rw [if_neg n6] at hne
  split at h
  · rename_i hc; rw [if_pos hc] at hne; exact h2 _ _ h hne
  rename_i n7; rw [if_neg n7] at hne
  split at h
  · rename_i hc
    rw [if_pos hc] at hne
    obtain ⟨t, ht⟩ := h
    rcases p with _ | ⟨a, p⟩
    · rfl
    · simp only [List.cons_append, List.cons.injEq, List.append_eq_nil_iff] at ht
      obtain ⟨rfl, rfl, _⟩ := ht
      exact absurd rfl hne
  rename_i n8; rw [if_neg n8] at hne
  split at h
  · rename_i hc; rw [if_pos hc] at hne; exact (h4 _ _ h hne).1
  rename_i n9; rw [if_neg n9] at hne
  rcases prefix_append_cases h with ⟨h1, h1'⟩ | ⟨q, rfl, h1⟩
  · exact (h4 _ _ h1 h1').1
  · have hq : q ≠ u4 (56320 + (c.toNat - 65536) % 1024) := fun e => hne (by rw [e])
    rw [u4_eq, List.cons_append, List.cons_append, strStep_u, hex4_u4 (by omega)]
    simp only
    rw [if_pos (by omega), (h4 _ _ h1 hq).2]

theorem readStrF_cut (s : List Char) : ∀ (p : List Char), p <+: s.flatMap escChar ++ ['"'] →
    p ≠ s.flatMap escChar ++ ['"'] → ∀ n r, readStrF n p ≠ .ok r := by
  induction s with
  | nil =>
    intro p hp hne n r
    have : p = [] := by
      obtain ⟨t, ht⟩ := hp
      rcases p with _ | ⟨a, p⟩
      · rfl
      · simp at ht
        obtain ⟨rfl, rfl, _⟩ := ht
        exact absurd rfl hne
    subst this
    cases n <;> simp [readStrF, strStep]
  | cons c s ih =>
    intro p hp hne n r
    cases n with
    | zero => simp [readStrF]
    | succ n =>
      rw [List.flatMap_cons, List.append_assoc] at hp hne
      rcases prefix_append_cases hp with ⟨h1, h2⟩ | ⟨q, rfl, h1⟩
      · simp [readStrF, strStep_cut c h1 h2]
      · rw [readStrF, strStep_esc]
        simp only
        cases h : readStrF n q with
        | error e => simp
        | ok x => exact absurd h (ih q h1 (fun e => hne (by rw [e])) n x)

theorem readStr_cut (s : String) {p : List Char} (h : p <+: s.toList.flatMap escChar ++ ['"'])
    (hne : p ≠ s.toList.flatMap escChar ++ ['"']) (r : String × List Char) : readStr p ≠ .ok r := by
  unfold readStr
  cases hr : readStrF (p.length + 1) p with
  | error e => simp
  | ok x => exact absurd hr (readStrF_cut s.toList p h hne _ x)

/-! ## Nothing but the fuel runs out -/

theorem hex4_length {cs r : List Char} {n : ℕ} (h : hex4 cs = some (n, r)) : r.length < cs.length := by
  unfold hex4 at h
  split at h
  · split at h
    · cases h; simp; omega
    · cases h
  · cases h

theorem strip_length : ∀ {p cs r : List Char}, strip p cs = some r → r.length + p.length = cs.length
  | [], cs, r, h => by simp only [strip, Option.some.injEq] at h; simp [h]
  | _ :: _, [], _, h => by simp [strip] at h
  | a :: p, c :: cs, r, h => by
    rw [strip] at h
    split at h
    · have := strip_length h; simp; omega
    · cases h

theorem strip_suffix : ∀ {p cs r : List Char}, strip p cs = some r → r <:+ cs
  | [], cs, r, h => by simp only [strip, Option.some.injEq] at h; simp [h]
  | _ :: _, [], _, h => by simp [strip] at h
  | a :: p, c :: cs, r, h => by
    rw [strip] at h
    split at h
    · exact (strip_suffix h).trans (List.suffix_cons c cs)
    · cases h

theorem strStep_length {cs r : List Char} {c : Char} (h : strStep cs = .char c r) : r.length < cs.length := by
  unfold strStep at h
  split at h
  · cases h
  · rename_i a cs
    split at h
    · cases h
    split at h
    · unfold escStep at h
      split at h
      · cases h
      · rename_i b cs
        split at h
        · split at h
          · cases h
          · rename_i n r' h4
            have := hex4_length h4
            split at h
            · unfold lowChar at h
              split at h
              · cases h
              · rename_i r2 h2
                have := strip_length h2
                split at h
                · cases h
                · rename_i m r3 h3
                  have := hex4_length h3
                  split at h
                  · simp only [Step.char.injEq] at h
                    obtain ⟨_, rfl⟩ := h
                    simp only [List.length_cons, List.length_nil] at *
                    omega
                  · cases h
            · unfold plainChar at h
              split at h
              · cases h
              · cases h; simp; omega
        · repeat' split at h
          all_goals first | (cases h; simp) | cases h
    · split at h
      · cases h
      · cases h; simp

theorem strStep_stop {cs r : List Char} (h : strStep cs = .stop r) : r.length < cs.length := by
  unfold strStep at h
  split at h
  · cases h
  · split at h
    · cases h; simp
    split at h
    · exfalso
      unfold escStep at h
      split at h
      · cases h
      · split at h
        · split at h
          · cases h
          · split at h
            · unfold lowChar at h
              split at h
              · cases h
              · split at h
                · cases h
                · split at h <;> cases h
            · unfold plainChar at h
              split at h <;> cases h
        · repeat' split at h
          all_goals cases h
    · split at h <;> cases h

/-- The scanner of strings returns a shorter rest and fails with ValueError only. -/
theorem readStrF_ends : ∀ (n : ℕ) (cs : List Char), cs.length < n →
    (∃ s r, readStrF n cs = .ok (s, r) ∧ r.length < cs.length) ∨ readStrF n cs = .error .valueError
  | 0, _, h => by omega
  | n + 1, cs, h => by
    rw [readStrF]
    cases hs : strStep cs with
    | fail => exact .inr rfl
    | stop r => exact .inl ⟨_, _, rfl, strStep_stop hs⟩
    | char c r =>
      have hl := strStep_length hs
      rcases readStrF_ends n r (by omega) with ⟨s, r', h1, h2⟩ | h1
      · exact .inl ⟨c :: s, r', by simp [h1], by omega⟩
      · exact .inr (by simp [h1])

theorem readStr_ends (cs : List Char) :
    (∃ s r, readStr cs = .ok (s, r) ∧ r.length < cs.length) ∨ readStr cs = .error .valueError := by
  unfold readStr
  rcases readStrF_ends (cs.length + 1) cs (by omega) with ⟨s, r, h1, h2⟩ | h1
  · exact .inl ⟨_, r, by rw [h1], h2⟩
  · exact .inr (by rw [h1])

theorem readDigits_suffix : ∀ cs : List Char, (readDigits cs).2 <:+ cs
  | [] => by simp [readDigits]
  | c :: cs => by
    rw [readDigits]
    split
    · exact List.suffix_rfl
    · exact (readDigits_suffix cs).trans (List.suffix_cons c cs)

theorem readWhole_suffix {cs r : List Char} {n : ℕ} (h : readWhole cs = some (n, r)) : r <:+ cs ∧ r.length < cs.length := by
  unfold readWhole at h
  cases cs with
  | nil => simp [readDigits] at h
  | cons c cs =>
    have hs := readDigits_suffix cs
    rw [readDigits] at h
    cases hd : charDigit c with
    | none => simp [hd] at h
    | some d =>
      simp only [hd] at h
      split at h
      · cases h; simp
      · cases h
        exact ⟨hs.trans (List.suffix_cons ..), by have := hs.length_le; simp; omega⟩

theorem readFrac_suffix (cs : List Char) : (readFrac cs).2 <:+ cs := by
  unfold readFrac
  split
  · simp
  · rename_i c r
    have hs := readDigits_suffix r
    split
    · split
      · exact List.suffix_rfl
      · rename_i h; rw [h] at hs; exact hs.trans (List.suffix_cons ..)
    · exact List.suffix_rfl

theorem readSign_suffix (cs : List Char) : (readSign cs).2 <:+ cs := by
  unfold readSign
  split
  · simp
  · split
    · exact List.suffix_cons ..
    split
    · exact List.suffix_cons ..
    · exact List.suffix_rfl

theorem readExp_suffix (cs : List Char) : (readExp cs).2 <:+ cs := by
  unfold readExp
  split
  · simp
  · rename_i c r
    have hs := (readDigits_suffix (readSign r).2).trans (readSign_suffix r)
    split
    · split
      · exact List.suffix_rfl
      · rename_i h; rw [h] at hs; exact hs.trans (List.suffix_cons ..)
    · exact List.suffix_rfl

theorem readNumber_suffix {cs r : List Char} {t : Numeral} (h : readNumber cs = some (t, r)) :
    r <:+ cs ∧ r.length < cs.length := by
  unfold readNumber at h
  simp only at h
  split at h
  · cases h
  · rename_i n r' hw
    cases h
    obtain ⟨h1, h2⟩ := readWhole_suffix hw
    have h3 := (readExp_suffix (readFrac r').2).trans (readFrac_suffix r')
    have h4 := h3.length_le
    split at h1
    · rename_i hn
      rw [if_pos hn] at h2
      have h5 := List.tail_suffix cs
      have := h5.length_le
      exact ⟨(h3.trans h1).trans h5, by omega⟩
    · rename_i hn
      rw [if_neg hn] at h2
      exact ⟨h3.trans h1, by omega⟩

theorem readAtom_ends (L : NumLib) (cs : List Char) :
    (∃ v r, readAtom L cs = .ok (v, r) ∧ r <:+ cs ∧ r.length < cs.length) ∨ readAtom L cs = .error .valueError := by
  unfold readAtom
  split
  · rename_i h; exact .inl ⟨_, _, rfl, strip_suffix h, by have := strip_length h; simp at this; omega⟩
  split
  · rename_i h; exact .inl ⟨_, _, rfl, strip_suffix h, by have := strip_length h; simp at this; omega⟩
  split
  · rename_i h; exact .inl ⟨_, _, rfl, strip_suffix h, by have := strip_length h; simp at this; omega⟩
  split
  · rename_i h; exact .inl ⟨_, _, rfl, readNumber_suffix h⟩
  split
  · rename_i h; exact .inl ⟨_, _, rfl, strip_suffix h, by have := strip_length h; simp [specialChars] at this; omega⟩
  split
  · rename_i h; exact .inl ⟨_, _, rfl, strip_suffix h, by have := strip_length h; simp [specialChars] at this; omega⟩
  split
  · rename_i h; exact .inl ⟨_, _, rfl, strip_suffix h, by have := strip_length h; simp [specialChars] at this; omega⟩
  · exact .inr rfl

theorem skip_length (cs : List Char) : (skip cs).length ≤ cs.length := (List.dropWhile_suffix _).length_le

/-- With enough fuel, the reader returns a value with a shorter rest or fails with ValueError. -/
theorem read_ends (L : NumLib) : ∀ n : ℕ,
    (∀ cs : List Char, 2 * cs.length + 1 ≤ n →
      (∃ v r, readVal L n cs = .ok (v, r) ∧ r.length < cs.length) ∨ readVal L n cs = .error .valueError) ∧
    (∀ cs : List Char, 2 * cs.length + 2 ≤ n →
      (∃ v r, readItems L n cs = .ok (v, r) ∧ r.length < cs.length) ∨ readItems L n cs = .error .valueError) ∧
    (∀ cs : List Char, 2 * cs.length + 2 ≤ n →
      (∃ v r, readPairs L n cs = .ok (v, r) ∧ r.length < cs.length) ∨ readPairs L n cs = .error .valueError)
  | 0 => ⟨fun _ h => by omega, fun _ h => by omega, fun _ h => by omega⟩
  | n + 1 => by
    obtain ⟨ih1, ih2, ih3⟩ := read_ends L n
    refine ⟨fun cs h => ?_, fun cs h => ?_, fun cs h => ?_⟩
    · cases cs with
      | nil => exact .inr rfl
      | cons c cs =>
        have hk := skip_length cs
        simp only [List.length_cons] at h
        rw [readVal]
        split
        · rcases readStr_ends cs with ⟨s, r, h1, h2⟩ | h1
          · exact .inl ⟨_, r, by rw [h1], by simp; omega⟩
          · exact .inr (by rw [h1])
        split
        · cases hs : strip ['}'] (skip cs) with
          | some r => exact .inl ⟨_, r, rfl, by have := strip_length hs; simp at this ⊢; omega⟩
          | none =>
            rcases ih3 (skip cs) (by omega) with ⟨v, r, h1, h2⟩ | h1
            · exact .inl ⟨.obj (dictOf v), r, by simp [h1], by simp; omega⟩
            · exact .inr (by simp [h1])
        split
        · cases hs : strip [']'] (skip cs) with
          | some r => exact .inl ⟨_, r, rfl, by have := strip_length hs; simp at this ⊢; omega⟩
          | none =>
            rcases ih2 (skip cs) (by omega) with ⟨v, r, h1, h2⟩ | h1
            · exact .inl ⟨.arr v, r, by simp [h1], by simp; omega⟩
            · exact .inr (by simp [h1])
        · rcases readAtom_ends L (c :: cs) with ⟨v, r, h1, h2, h3⟩ | h1
          · exact .inl ⟨v, r, h1, h3⟩
          · exact .inr h1
    · rw [readItems]
      rcases ih1 cs (by omega) with ⟨v, r, h1, h2⟩ | h1
      · rw [h1]
        simp only
        have hk := skip_length r
        cases hs : skip r with
        | nil => exact .inr rfl
        | cons c r' =>
          rw [hs] at hk
          simp only [List.length_cons] at hk
          simp only
          split
          · exact .inl ⟨_, _, rfl, by omega⟩
          split
          · have hk' := skip_length r'
            rcases ih2 (skip r') (by omega) with ⟨vs, r2, h3, h4⟩ | h3
            · exact .inl ⟨_, r2, by rw [h3], by omega⟩
            · exact .inr (by rw [h3])
          · exact .inr rfl
      · exact .inr (by rw [h1])
    · rw [readPairs]
      cases hq : strip ['"'] cs with
      | none => exact .inr rfl
      | some r0 =>
        have hl := strip_length hq
        simp only [List.length_cons, List.length_nil] at hl
        simp only
        rcases readStr_ends r0 with ⟨k, r1, k1, k2⟩ | k1
        · rw [k1]
          simp only
          have hk1 := skip_length r1
          cases hc : strip [':'] (skip r1) with
          | none => exact .inr rfl
          | some r2 =>
            have hl2 := strip_length hc
            simp only [List.length_cons, List.length_nil] at hl2
            have hk2 := skip_length r2
            simp only
            rcases ih1 (skip r2) (by omega) with ⟨v, r, h1, h2⟩ | h1
            · rw [h1]
              simp only
              have hk := skip_length r
              cases hs : skip r with
              | nil => exact .inr rfl
              | cons c r' =>
                rw [hs] at hk
                simp only [List.length_cons] at hk
                simp only
                split
                · exact .inl ⟨_, _, rfl, by omega⟩
                split
                · have hk' := skip_length r'
                  rcases ih3 (skip r') (by omega) with ⟨vs, r3, h3, h4⟩ | h3
                  · exact .inl ⟨_, r3, by rw [h3], by omega⟩
                  · exact .inr (by rw [h3])
                · exact .inr rfl
            · exact .inr (by rw [h1])
        · exact .inr (by rw [k1])

/-! ## Texts of values -/

theorem specialChars_head (s : JSpecial) : ∃ c t, specialChars s = c :: t ∧ (c = 'N' ∨ c = 'I' ∨ c = '-') := by
  cases s <;> exact ⟨_, _, rfl, by simp⟩

/-- The characters of numerals. -/
def IsNumChar (c : Char) : Prop := (∃ d, c = digitChar d) ∨ c = '-' ∨ c = '+' ∨ c = '.' ∨ c = 'e'

theorem numChars_mem {t : Numeral} {c : Char} (h : c ∈ numChars t) : IsNumChar c := by
  obtain ⟨neg, n, fr, e⟩ := t
  unfold numChars at h
  simp only [List.mem_append] at h
  rcases h with h | h | h | h
  · split at h <;> simp at h; subst h; simp [IsNumChar]
  · obtain ⟨d, _, rfl⟩ := List.mem_map.mp h; exact .inl ⟨d, rfl⟩
  · split at h
    · simp at h
    · rcases List.mem_cons.mp h with rfl | h
      · simp [IsNumChar]
      · obtain ⟨d, _, rfl⟩ := List.mem_map.mp h; exact .inl ⟨d, rfl⟩
  · cases e with
    | none => simp at h
    | some p =>
      obtain ⟨s, d, ds⟩ := p
      simp only [List.mem_cons, List.mem_append] at h
      rcases h with rfl | h | h
      · simp [IsNumChar]
      · cases s with
        | none => simp at h
        | some b => cases b <;> (simp at h; subst h; simp [IsNumChar])
      · obtain ⟨d, _, rfl⟩ := List.mem_map.mp h; exact .inl ⟨d, rfl⟩

theorem numChars_head (t : Numeral) : ∃ c r, numChars t = c :: r ∧ (c = '-' ∨ ∃ d, c = digitChar d) := by
  obtain ⟨neg, n, fr, e⟩ := t
  obtain ⟨d, ds, hd, -, -⟩ := natDigits_head n
  cases neg with
  | true => exact ⟨'-', _, rfl, .inl rfl⟩
  | false =>
    refine ⟨digitChar d, ?_, ?_, .inr ⟨d, rfl⟩⟩
    rotate_left
    · simp only [numChars, hd]; rfl

/-- A character that can begin a value: no white space and no delimiter. -/
def Starts (c : Char) : Prop := isSpace c = false ∧ c ≠ ']' ∧ c ≠ '}' ∧ c ≠ ',' ∧ c ≠ ':'

theorem digit_starts : ∀ d : Fin 10, Starts (digitChar d) ∧ digitChar d ≠ '"' ∧ digitChar d ≠ '{' ∧ digitChar d ≠ '[' ∧
    digitChar d ≠ 'n' ∧ digitChar d ≠ 't' ∧ digitChar d ≠ 'f' := by
  unfold Starts; decide

theorem IsNumChar.starts {c : Char} (h : IsNumChar c) : Starts c := by
  rcases h with ⟨d, rfl⟩ | rfl | rfl | rfl | rfl
  · exact (digit_starts d).1
  all_goals (unfold Starts; decide)

theorem enc_head (L : NumLib) (v : Json) : ∃ c t, enc L v = c :: t ∧ Starts c := by
  cases v with
  | null => exact ⟨_, _, by rw [enc], by unfold Starts; decide⟩
  | bool b => cases b <;> exact ⟨_, _, by rw [enc], by unfold Starts; decide⟩
  | num q =>
    obtain ⟨c, r, h, h'⟩ := numChars_head (L.text q)
    refine ⟨c, r, by rw [enc, h], IsNumChar.starts ?_⟩
    rcases h' with rfl | h'
    · simp [IsNumChar]
    · exact .inl h'
  | special s => cases s <;> exact ⟨_, _, by rw [enc]; rfl, by unfold Starts; decide⟩
  | str s => exact ⟨_, _, by rw [enc]; rfl, by unfold Starts; decide⟩
  | arr vs => cases vs <;> exact ⟨_, _, by rw [enc], by unfold Starts; decide⟩
  | obj ps =>
    cases ps with
    | nil => exact ⟨_, _, by rw [enc], by unfold Starts; decide⟩
    | cons p ps => exact ⟨_, _, by rw [enc], by unfold Starts; decide⟩

theorem skip_starts {c : Char} (h : isSpace c = false) (t : List Char) : skip (c :: t) = c :: t := by
  simp [skip, h]

theorem skip_enc (L : NumLib) (v : Json) (r : List Char) : skip (enc L v ++ r) = enc L v ++ r := by
  obtain ⟨c, t, h, hs⟩ := enc_head L v
  rw [h, List.cons_append, skip_starts hs.1]

theorem skip_encStr (k : String) (r : List Char) : skip (encStr k ++ r) = encStr k ++ r := by
  rw [encStr, List.cons_append, skip_starts (by decide)]

theorem skip_space (t : List Char) : skip (' ' :: t) = skip t := by simp [skip, isSpace]

theorem Stops.skip {r : List Char} (h : Stops r) : Json.skip r = r := by
  rcases h with rfl | ⟨c, t, rfl, h⟩
  · rfl
  · exact skip_starts (by rcases h with rfl | rfl | rfl <;> decide) t

/-- SPEC: all dictionaries inside a value have distinct keys and all numbers are read back from their text. -/
inductive Fine (Rep : ℚ → Prop) : Json → Prop
  | null : Fine Rep .null
  | bool (b : Bool) : Fine Rep (.bool b)
  | num {q : ℚ} (h : Rep q) : Fine Rep (.num q)
  | special (s : JSpecial) : Fine Rep (.special s)
  | str (s : String) : Fine Rep (.str s)
  | arr {vs : List Json} (h : ∀ v ∈ vs, Fine Rep v) : Fine Rep (.arr vs)
  | obj {ps : List (String × Json)} (hn : (ps.map (·.1)).Nodup) (h : ∀ p ∈ ps, Fine Rep p.2) : Fine Rep (.obj ps)

section
variable {L : NumLib} {Rep : ℚ → Prop}

/-- The text of the value is read as the value, whatever may follow it. -/
def Reads (L : NumLib) (v : Json) : Prop :=
  ∀ (r : List Char), Stops r → ∀ n, 2 * (enc L v ++ r).length + 1 ≤ n → readVal L n (enc L v ++ r) = .ok (v, r)

theorem stops_more (vs : List Json) (r : List Char) : Stops (encMore L vs ++ (']' :: r)) := by
  cases vs with
  | nil => exact .inr ⟨']', r, by simp [encMore], by simp⟩
  | cons v vs => exact .inr ⟨',', _, by rw [encMore]; rfl, by simp⟩

theorem stops_pairs (ps : List (String × Json)) (r : List Char) : Stops (encPairs L ps ++ ('}' :: r)) := by
  cases ps with
  | nil => exact .inr ⟨'}', r, by simp [encPairs], by simp⟩
  | cons p ps => exact .inr ⟨',', _, by rw [encPairs]; rfl, by simp⟩

theorem readItems_enc : ∀ (vs : List Json) (v : Json), (∀ w ∈ v :: vs, Reads L w) → ∀ (r : List Char) (n : ℕ),
    2 * (enc L v ++ (encMore L vs ++ (']' :: r))).length + 2 ≤ n →
    readItems L n (enc L v ++ (encMore L vs ++ (']' :: r))) = .ok (v :: vs, r)
  | vs, v, hw, r, 0, hn => by omega
  | [], v, hw, r, n + 1, hn => by
    have hs := stops_more (L := L) [] r
    rw [readItems, hw v (by simp) _ hs n (by omega)]
    simp only [encMore, List.nil_append, skip_starts (show isSpace ']' = false by decide), if_true]
  | w :: vs, v, hw, r, n + 1, hn => by
    have hs := stops_more (L := L) (w :: vs) r
    rw [readItems, hw v (by simp) _ hs n (by omega)]
    simp only [hs.skip]
    rw [encMore] at hn ⊢
    simp only [List.cons_append, List.append_assoc] at hn ⊢
    simp only [show (',' : Char) ≠ ']' by decide, if_false, if_true, skip_space, skip_enc]
    rw [readItems_enc vs w (fun x hx => hw x (by simp [List.mem_cons.mp hx])) r n (by
      simp only [List.length_append, List.length_cons] at hn ⊢; omega)]

theorem readPairs_enc : ∀ (ps : List (String × Json)) (k : String) (v : Json), (∀ w ∈ (k, v) :: ps, Reads L w.2) →
    ∀ (r : List Char) (n : ℕ),
    2 * (encStr k ++ (':' :: ' ' :: (enc L v ++ (encPairs L ps ++ ('}' :: r))))).length + 2 ≤ n →
    readPairs L n (encStr k ++ (':' :: ' ' :: (enc L v ++ (encPairs L ps ++ ('}' :: r))))) = .ok ((k, v) :: ps, r)
  | ps, k, v, hw, r, 0, hn => by omega
  | ps, k, v, hw, r, n + 1, hn => by
    have hs := stops_pairs (L := L) ps r
    have hk : ∀ t, encStr k ++ t = '"' :: (k.toList.flatMap escChar ++ ('"' :: t)) := fun t => by simp [encStr]
    rw [hk] at hn ⊢
    rw [readPairs]
    simp only [strip, if_true, readStr_enc, skip_starts (show isSpace ':' = false by decide), skip_space, skip_enc]
    rw [hw (k, v) (by simp) _ hs n (by simp only [List.length_append, List.length_cons] at hn ⊢; omega)]
    simp only [hs.skip]
    cases ps with
    | nil => simp [encPairs]
    | cons p ps =>
      obtain ⟨k', v'⟩ := p
      rw [encPairs] at hn ⊢
      simp only [List.cons_append, List.append_assoc] at hn ⊢
      simp only [show (',' : Char) ≠ '}' by decide, if_false, if_true, skip_space, skip_encStr]
      rw [readPairs_enc ps k' v' (fun x hx => hw x (by simp [List.mem_cons.mp hx])) r n (by
        simp only [List.length_append, List.length_cons] at hn ⊢; omega)]

theorem readAtom_num (hL : ∀ q, Rep q → L.read (L.text q) = q) {q : ℚ} (hq : Rep q) {r : List Char} (hr : Stops r) :
    ∃ c t, numChars (L.text q) ++ r = c :: t ∧ c ≠ '"' ∧ c ≠ '{' ∧ c ≠ '[' ∧ readAtom L (c :: t) = .ok (.num q, r) := by
  obtain ⟨c, t, h, h'⟩ := numChars_head (L.text q)
  have hn := readNumber_text (L.text q) hr
  rw [h, List.cons_append] at hn
  have hc : c ≠ '"' ∧ c ≠ '{' ∧ c ≠ '[' ∧ c ≠ 'n' ∧ c ≠ 't' ∧ c ≠ 'f' := by
    rcases h' with rfl | ⟨d, rfl⟩
    · decide
    · exact (digit_starts d).2
  obtain ⟨c1, c2, c3, c4, c5, c6⟩ := hc
  refine ⟨c, t ++ r, by rw [h]; rfl, c1, c2, c3, ?_⟩
  simp only [readAtom, strip, c4.symm, c5.symm, c6.symm, if_false, hn, hL q hq]

/-- Reading is the inverse of writing. -/
theorem readVal_enc (hL : ∀ q, Rep q → L.read (L.text q) = q) {v : Json} (hv : Fine Rep v) : Reads L v := by
  induction hv with
  | null => intro r hr n hn; obtain ⟨n, rfl⟩ : ∃ m, n = m + 1 := ⟨n - 1, by omega⟩; simp [enc, readVal, readAtom, strip]
  | bool b =>
    intro r hr n hn
    obtain ⟨n, rfl⟩ : ∃ m, n = m + 1 := ⟨n - 1, by omega⟩
    cases b <;> simp [enc, readVal, readAtom, strip]
  | special s =>
    intro r hr n hn
    obtain ⟨n, rfl⟩ : ∃ m, n = m + 1 := ⟨n - 1, by omega⟩
    have h1 : readNumber ('N' :: 'a' :: 'N' :: r) = none := by simp [readNumber, readWhole, readDigits, charDigit]
    have h2 : ∀ t, readNumber ('I' :: t) = none := fun t => by simp [readNumber, readWhole, readDigits, charDigit]
    have h3 : ∀ t, readNumber ('-' :: 'I' :: t) = none := fun t => by simp [readNumber, readWhole, readDigits, charDigit]
    cases s <;> simp [enc, specialChars, readVal, readAtom, strip, h1, h2, h3]
  | num hq =>
    intro r hr n hn
    obtain ⟨n, rfl⟩ : ∃ m, n = m + 1 := ⟨n - 1, by omega⟩
    obtain ⟨c, t, h, h1, h2, h3, h4⟩ := readAtom_num hL hq hr
    rw [enc, h, readVal, if_neg h1, if_neg h2, if_neg h3, h4]
  | str s =>
    intro r hr n hn
    obtain ⟨n, rfl⟩ : ∃ m, n = m + 1 := ⟨n - 1, by omega⟩
    have hk : encStr s ++ r = '"' :: (s.toList.flatMap escChar ++ ('"' :: r)) := by simp [encStr]
    rw [enc, hk, readVal, if_pos rfl, readStr_enc]
  | @arr vs h ih =>
    intro r hr n hn
    obtain ⟨n, rfl⟩ : ∃ m, n = m + 1 := ⟨n - 1, by omega⟩
    cases vs with
    | nil => simp [enc, readVal, skip, isSpace, strip]
    | cons v vs =>
      rw [enc] at hn ⊢
      simp only [List.cons_append, List.append_assoc, List.nil_append] at hn ⊢
      have hi := readItems_enc vs v ih r n (by simp only [List.length_append, List.length_cons] at hn ⊢; omega)
      obtain ⟨c, t, he, hc⟩ := enc_head L v
      rw [he, List.cons_append] at hi ⊢
      rw [readVal, if_neg (by decide), if_neg (by decide), if_pos rfl, skip_starts hc.1]
      simp only [strip, if_neg (Ne.symm hc.2.1), hi]
  | @obj ps hd h ih =>
    intro r hr n hn
    obtain ⟨n, rfl⟩ : ∃ m, n = m + 1 := ⟨n - 1, by omega⟩
    cases ps with
    | nil => simp [enc, readVal, skip, isSpace, strip]
    | cons p ps =>
      obtain ⟨k, v⟩ := p
      rw [enc] at hn ⊢
      simp only [List.cons_append, List.append_assoc, List.nil_append] at hn ⊢
      have hi := readPairs_enc ps k v ih r n (by simp only [List.length_append, List.length_cons] at hn ⊢; omega)
      rw [readVal, if_neg (by decide), if_pos rfl, skip_encStr]
      have hk : ∀ t, strip ['}'] (encStr k ++ t) = none := fun t => by simp [encStr, strip]
      simp only [hk, hi, dictOf_nodup hd]

/-! ## Texts that were cut off -/

/-- What may be left after reading a cut value: nothing that could be taken for the end of the value. -/
def Stuck (r : List Char) : Prop := r = [] ∨ ∃ c t, r = c :: t ∧ Starts c

theorem Stuck.skip {r : List Char} (h : Stuck r) : Json.skip r = r := by
  rcases h with rfl | ⟨c, t, rfl, h⟩
  · rfl
  · exact skip_starts h.1 t

/-- Values with a closing mark. -/
def Closed : Json → Prop
  | .str _ | .arr _ | .obj _ => True
  | _ => False

/-- A strict prefix of the text is no text of a value, or of a number or constant with nothing to end it. -/
def Cuts (L : NumLib) (v : Json) : Prop :=
  ∀ p : List Char, p <+: enc L v → p ≠ enc L v → ∀ n, 2 * p.length + 1 ≤ n → ∀ w r, readVal L n p = .ok (w, r) →
    ¬Closed v ∧ Stuck r

theorem nil_of_prefix_one {p : List Char} {c : Char} (h : p <+: [c]) (hne : p ≠ [c]) : p = [] := by
  obtain ⟨t, ht⟩ := h
  rcases p with _ | ⟨a, p⟩
  · rfl
  · simp at ht
    obtain ⟨rfl, rfl, _⟩ := ht
    exact absurd rfl hne

theorem cons_prefix {p t : List Char} {c : Char} (h : p <+: c :: t) (hne : p ≠ c :: t) :
    p = [] ∨ ∃ q, p = c :: q ∧ q <+: t ∧ q ≠ t := by
  rcases p with _ | ⟨a, p⟩
  · exact .inl rfl
  · obtain ⟨rfl, h'⟩ := List.cons_prefix_cons.mp h
    exact .inr ⟨p, rfl, h', fun e => hne (by rw [e])⟩

theorem skip_prefix {v : Json} {t q : List Char} (h : q <+: enc L v ++ t) : Json.skip q = q := by
  obtain ⟨c, s, he, hc⟩ := enc_head L v
  rcases q with _ | ⟨a, q⟩
  · rfl
  · rw [he, List.cons_append] at h
    obtain ⟨rfl, _⟩ := List.cons_prefix_cons.mp h
    exact skip_starts hc.1 q

theorem skip_prefixStr {k : String} {t q : List Char} (h : q <+: encStr k ++ t) : Json.skip q = q := by
  rcases q with _ | ⟨a, q⟩
  · rfl
  · rw [encStr, List.cons_append] at h
    obtain ⟨rfl, _⟩ := List.cons_prefix_cons.mp h
    exact skip_starts (by decide) q

theorem readVal_nil (n : ℕ) (x : Json × List Char) : readVal L n [] ≠ .ok x := by cases n <;> simp [readVal]

theorem readItems_nil (n : ℕ) (x : List Json × List Char) : readItems L n [] ≠ .ok x := by
  cases n with
  | zero => simp [readItems]
  | succ n =>
    rw [readItems]
    cases h : readVal L n [] with
    | error e => simp
    | ok y => exact absurd h (readVal_nil n y)

theorem readItems_cut : ∀ (vs : List Json) (v : Json), (∀ w ∈ v :: vs, Reads L w ∧ Cuts L w) → ∀ p : List Char,
    p <+: enc L v ++ (encMore L vs ++ [']']) → p ≠ enc L v ++ (encMore L vs ++ [']']) → ∀ n, 2 * p.length + 2 ≤ n →
    ∀ x, readItems L n p ≠ .ok x
  | vs, v, hw, p, hp, hne, 0, hn, x => by omega
  | vs, v, hw, p, hp, hne, n + 1, hn, x => by
    rw [readItems]
    rcases prefix_append_cases hp with ⟨h1, h2⟩ | ⟨q, rfl, hq⟩
    · cases hr : readVal L n p with
      | error e => simp
      | ok y =>
        obtain ⟨w, r⟩ := y
        obtain ⟨-, hst⟩ := (hw v (by simp)).2 p h1 h2 n (by omega) w r hr
        simp only [hst.skip]
        rcases hst with rfl | ⟨c, t, rfl, hc⟩
        · simp
        · simp [hc.2.1, hc.2.2.2.1]
    · have hqne : q ≠ encMore L vs ++ [']'] := fun e => hne (by rw [e])
      have hst : Stops q := by
        rcases q with _ | ⟨c, q⟩
        · exact .inl rfl
        · refine .inr ⟨c, q, rfl, ?_⟩
          cases vs with
          | nil =>
            rw [encMore, List.nil_append] at hq
            obtain ⟨rfl, _⟩ := List.cons_prefix_cons.mp hq
            simp
          | cons w vs =>
            rw [encMore, List.cons_append] at hq
            obtain ⟨rfl, _⟩ := List.cons_prefix_cons.mp hq
            simp
      rw [(hw v (by simp)).1 q hst n (by omega)]
      simp only [hst.skip]
      cases vs with
      | nil =>
        rw [encMore, List.nil_append] at hq hqne
        rw [nil_of_prefix_one hq hqne]
        simp
      | cons w vs =>
        rw [encMore] at hq hqne
        simp only [List.cons_append, List.append_assoc] at hq hqne
        rcases cons_prefix hq hqne with rfl | ⟨q, rfl, hq, hqne⟩
        · simp
        · simp only [show (',' : Char) ≠ ']' by decide, if_false, if_true]
          have key : ∀ y, readItems L n (Json.skip q) ≠ .ok y := by
            intro y
            rcases cons_prefix hq hqne with rfl | ⟨q, rfl, hq, hqne⟩
            · exact readItems_nil n y
            · rw [skip_space, skip_prefix hq]
              exact readItems_cut vs w (fun x hx => hw x (by simp [List.mem_cons.mp hx])) q hq hqne n (by
                simp only [List.length_append, List.length_cons] at hn; omega) y
          cases hr : readItems L n (Json.skip q) with
          | error e => simp
          | ok y => exact absurd hr (key y)

theorem readPairs_nil (n : ℕ) (x : List (String × Json) × List Char) : readPairs L n [] ≠ .ok x := by
  cases n <;> simp [readPairs, strip]

theorem readPairs_cut : ∀ (ps : List (String × Json)) (k : String) (v : Json),
    (∀ w ∈ (k, v) :: ps, Reads L w.2 ∧ Cuts L w.2) → ∀ p : List Char,
    p <+: encStr k ++ (':' :: ' ' :: (enc L v ++ (encPairs L ps ++ ['}']))) →
    p ≠ encStr k ++ (':' :: ' ' :: (enc L v ++ (encPairs L ps ++ ['}']))) → ∀ n, 2 * p.length + 2 ≤ n →
    ∀ x, readPairs L n p ≠ .ok x
  | ps, k, v, hw, p, hp, hne, 0, hn, x => by omega
  | ps, k, v, hw, p, hp, hne, n + 1, hn, x => by
    rw [readPairs]
    rcases prefix_append_cases hp with ⟨h1, h2⟩ | ⟨q, rfl, hq⟩
    · rw [encStr] at h1 h2
      rcases cons_prefix h1 h2 with rfl | ⟨q, rfl, h1, h2⟩
      · simp [strip]
      · simp only [strip, if_true]
        cases hr : readStr q with
        | error e => simp
        | ok y => exact absurd hr (readStr_cut k h1 h2 y)
    · have hqne : q ≠ ':' :: ' ' :: (enc L v ++ (encPairs L ps ++ ['}'])) := fun e => hne (by rw [e])
      have hk : encStr k ++ q = '"' :: (k.toList.flatMap escChar ++ ('"' :: q)) := by simp [encStr]
      rw [hk] at hn ⊢
      simp only [strip, if_true, readStr_enc]
      simp only [List.length_append, List.length_cons] at hn
      rcases cons_prefix hq hqne with rfl | ⟨q, rfl, hq, hqne⟩
      · simp [Json.skip, strip]
      · simp only [skip_starts (show isSpace ':' = false by decide), strip, if_true]
        simp only [List.length_append, List.length_cons] at hn
        have hskip : ∃ q', Json.skip q = q' ∧ q'.length ≤ q.length ∧ q' <+: enc L v ++ (encPairs L ps ++ ['}']) ∧
            q' ≠ enc L v ++ (encPairs L ps ++ ['}']) := by
          rcases cons_prefix hq hqne with rfl | ⟨q, rfl, hq, hqne⟩
          · refine ⟨[], rfl, le_refl _, List.nil_prefix, fun e => ?_⟩
            have := congrArg List.length e
            simp at this
          · exact ⟨q, by rw [skip_space, skip_prefix hq], by simp, hq, hqne⟩
        obtain ⟨q', e, hl, hq, hqne⟩ := hskip
        rw [e]
        rcases prefix_append_cases hq with ⟨h1, h2⟩ | ⟨q, rfl, hq2⟩
        · cases hr : readVal L n q' with
          | error e => simp
          | ok y =>
            obtain ⟨w, r⟩ := y
            obtain ⟨-, hst⟩ := (hw (k, v) (by simp)).2 q' h1 h2 n (by omega) w r hr
            simp only [hst.skip]
            rcases hst with rfl | ⟨c, t, rfl, hc⟩
            · simp
            · simp [hc.2.2.1, hc.2.2.2.1]
        · have hqne2 : q ≠ encPairs L ps ++ ['}'] := fun e => hqne (by rw [e])
          have hst : Stops q := by
            rcases q with _ | ⟨c, q⟩
            · exact .inl rfl
            · refine .inr ⟨c, q, rfl, ?_⟩
              cases ps with
              | nil =>
                rw [encPairs, List.nil_append] at hq2
                obtain ⟨rfl, _⟩ := List.cons_prefix_cons.mp hq2
                simp
              | cons p ps =>
                rw [encPairs, List.cons_append] at hq2
                obtain ⟨rfl, _⟩ := List.cons_prefix_cons.mp hq2
                simp
          rw [(hw (k, v) (by simp)).1 q hst n (by show 2 * (enc L v ++ q).length + 1 ≤ n; omega)]
          simp only [hst.skip]
          simp only [List.length_append] at hl
          cases ps with
          | nil =>
            rw [encPairs, List.nil_append] at hq2 hqne2
            rw [nil_of_prefix_one hq2 hqne2]
            simp
          | cons p ps =>
            obtain ⟨k', v'⟩ := p
            rw [encPairs] at hq2 hqne2
            simp only [List.cons_append, List.append_assoc] at hq2 hqne2
            rcases cons_prefix hq2 hqne2 with rfl | ⟨q, rfl, hq, hqne⟩
            · simp
            · simp only [show (',' : Char) ≠ '}' by decide, if_false, if_true]
              simp only [List.length_cons] at hl
              have key : ∀ y, readPairs L n (Json.skip q) ≠ .ok y := by
                intro y
                rcases cons_prefix hq hqne with rfl | ⟨q, rfl, hq, hqne⟩
                · exact readPairs_nil n y
                · rw [skip_space, skip_prefixStr hq]
                  simp only [List.length_cons] at hl
                  exact readPairs_cut ps k' v' (fun x hx => hw x (by simp [List.mem_cons.mp hx])) q hq hqne n (by omega) y
              cases hr : readPairs L n (Json.skip q) with
              | error e => simp
              | ok y => exact absurd hr (key y)

theorem atom_cut {v : Json} (hc : ¬Closed v) (h : ∀ c ∈ enc L v, Starts c ∧ c ≠ '"' ∧ c ≠ '{' ∧ c ≠ '[') : Cuts L v := by
  intro p hp hne n hn w r hr
  refine ⟨hc, ?_⟩
  obtain ⟨n, rfl⟩ : ∃ m, n = m + 1 := ⟨n - 1, by omega⟩
  rcases p with _ | ⟨c, p⟩
  · simp [readVal] at hr
  · have hm : ∀ x ∈ c :: p, Starts x ∧ x ≠ '"' ∧ x ≠ '{' ∧ x ≠ '[' := fun x hx => h x (hp.subset hx)
    obtain ⟨-, c1, c2, c3⟩ := hm c (by simp)
    rw [readVal, if_neg c1, if_neg c2, if_neg c3] at hr
    rcases readAtom_ends L (c :: p) with ⟨v', r', h1, h2, h3⟩ | h1
    · rw [h1] at hr
      cases hr
      rcases r with _ | ⟨a, r⟩
      · exact .inl rfl
      · exact .inr ⟨a, r, rfl, (hm a (h2.subset (by simp))).1⟩
    · rw [h1] at hr; cases hr

theorem enc_cut (hL : ∀ q, Rep q → L.read (L.text q) = q) {v : Json} (hv : Fine Rep v) : Cuts L v := by
  induction hv with
  | null => exact atom_cut (by simp [Closed]) (by simp only [enc]; unfold Starts; decide)
  | bool b => exact atom_cut (by simp [Closed]) (by cases b <;> (simp only [enc]; unfold Starts; decide))
  | special s => exact atom_cut (by simp [Closed]) (by cases s <;> (simp only [enc, specialChars]; unfold Starts; decide))
  | num hq =>
    refine atom_cut (by simp [Closed]) fun c hc => ?_
    rw [enc] at hc
    have h := numChars_mem hc
    refine ⟨h.starts, ?_⟩
    rcases h with ⟨d, rfl⟩ | rfl | rfl | rfl | rfl
    · exact ⟨(digit_starts d).2.1, (digit_starts d).2.2.1, (digit_starts d).2.2.2.1⟩
    all_goals decide
  | str s =>
    intro p hp hne n hn w r hr
    exfalso
    obtain ⟨n, rfl⟩ : ∃ m, n = m + 1 := ⟨n - 1, by omega⟩
    rw [enc, encStr] at hp hne
    rcases cons_prefix hp hne with rfl | ⟨q, rfl, h1, h2⟩
    · simp [readVal] at hr
    · rw [readVal, if_pos rfl] at hr
      cases hs : readStr q with
      | error e => simp [hs] at hr
      | ok y => exact absurd hs (readStr_cut s h1 h2 y)
  | @arr vs h ih =>
    intro p hp hne n hn w r hr
    exfalso
    obtain ⟨n, rfl⟩ : ∃ m, n = m + 1 := ⟨n - 1, by omega⟩
    cases vs with
    | nil =>
      rw [enc] at hp hne
      rcases cons_prefix hp hne with rfl | ⟨q, rfl, h1, h2⟩
      · simp [readVal] at hr
      · rw [nil_of_prefix_one h1 h2] at hr
        rw [readVal, if_neg (by decide), if_neg (by decide), if_pos rfl] at hr
        simp only [Json.skip, List.dropWhile_nil, strip] at hr
        cases hs : readItems L n [] with
        | error e => simp [hs] at hr
        | ok y => exact readItems_nil n y hs
    | cons v vs =>
      rw [enc] at hp hne
      rcases cons_prefix hp hne with rfl | ⟨q, rfl, h1, h2⟩
      · simp [readVal] at hr
      · have hi : ∀ y, readItems L n q ≠ .ok y :=
          readItems_cut vs v (fun w hw => ⟨readVal_enc hL (h w hw), ih w hw⟩) q h1 h2 n (by
            simp only [List.length_cons] at hn; omega)
        rw [readVal, if_neg (by decide), if_neg (by decide), if_pos rfl, skip_prefix h1] at hr
        have hs : strip [']'] q = none := by
          rcases q with _ | ⟨a, q⟩
          · rfl
          · obtain ⟨c, t, he, hc⟩ := enc_head L v
            rw [he, List.cons_append] at h1
            obtain ⟨rfl, _⟩ := List.cons_prefix_cons.mp h1
            simp [strip, Ne.symm hc.2.1]
        simp only [hs] at hr
        cases hx : readItems L n q with
        | error e => simp [hx] at hr
        | ok y => exact hi y hx
  | @obj ps hd h ih =>
    intro p hp hne n hn w r hr
    exfalso
    obtain ⟨n, rfl⟩ : ∃ m, n = m + 1 := ⟨n - 1, by omega⟩
    cases ps with
    | nil =>
      rw [enc] at hp hne
      rcases cons_prefix hp hne with rfl | ⟨q, rfl, h1, h2⟩
      · simp [readVal] at hr
      · rw [nil_of_prefix_one h1 h2] at hr
        rw [readVal, if_neg (by decide), if_pos rfl] at hr
        simp only [Json.skip, List.dropWhile_nil, strip] at hr
        cases hs : readPairs L n [] with
        | error e => simp [hs] at hr
        | ok y => exact readPairs_nil n y hs
    | cons kv ps =>
      obtain ⟨k, v⟩ := kv
      rw [enc] at hp hne
      rcases cons_prefix hp hne with rfl | ⟨q, rfl, h1, h2⟩
      · simp [readVal] at hr
      · have hi : ∀ y, readPairs L n q ≠ .ok y :=
          readPairs_cut ps k v (fun w hw => ⟨readVal_enc hL (h w hw), ih w hw⟩) q h1 h2 n (by
            simp only [List.length_cons] at hn; omega)
        rw [readVal, if_neg (by decide), if_pos rfl, skip_prefixStr h1] at hr
        have hs : strip ['}'] q = none := by
          rcases q with _ | ⟨a, q⟩
          · rfl
          · rw [encStr, List.cons_append] at h1
            obtain ⟨rfl, _⟩ := List.cons_prefix_cons.mp h1
            simp [strip]
        simp only [hs] at hr
        cases hx : readPairs L n q with
        | error e => simp [hx] at hr
        | ok y => exact hi y hx

end

end Pywmi.Json
