import Verif.Algebra.PsiFloat
import Verif.Props.LatteText

set_option linter.unusedSectionVars false
set_option linter.unusedSimpArgs false

/-!
# C81: numbers of the PSI back-end
-/

namespace Pywmi.Psi
open Prog Latte LatteReader

/-! ## Digits -/

theorem decNat_append (s t : List Char) : decNat (s ++ t) = decNat s * 10 ^ t.length + decNat t := by
  have key : ∀ (t : List Char) (n : ℕ), t.foldl (fun n c => 10 * n + (c.toNat - '0'.toNat)) n = n * 10 ^ t.length + decNat t := by
    intro t
    induction t with
    | nil => simp [decNat]
    | cons c t ih =>
      intro n
      rw [decNat, List.foldl_cons, List.foldl_cons, ih, ih, List.length_cons, pow_succ]
      ring
  rw [decNat, List.foldl_append, key]
  rfl

theorem decNat_lt {t : List Char} (h : ∀ c ∈ t, Dig c) : decNat t < 10 ^ t.length := by
  rw [decNat_eq h]
  have := Nat.ofDigits_lt_base_pow_length (b := 10) (l := (t.map digVal).reverse) (by norm_num) (by
    intro d hd
    simp only [List.mem_reverse, List.mem_map] at hd
    obtain ⟨c, hc, rfl⟩ := hd
    have : c ∈ ['0', '1', '2', '3', '4', '5', '6', '7', '8', '9'] := h c hc
    simp only [List.mem_cons, List.not_mem_nil, or_false] at this
    rcases this with rfl | rfl | rfl | rfl | rfl | rfl | rfl | rfl | rfl | rfl <;> decide)
  simpa using this

/-- Cutting digits is dividing by a power of ten. -/
theorem decNat_take {t : List Char} (h : ∀ c ∈ t, Dig c) (k : ℕ) : decNat (t.take k) = decNat t / 10 ^ (t.length - k) := by
  conv_rhs => rw [← List.take_append_drop k t, decNat_append, List.take_append_drop]
  have := decNat_lt (t := t.drop k) fun c hc => h c (List.mem_of_mem_drop hc)
  rw [List.length_drop] at this ⊢
  rw [Nat.add_comm, Nat.add_mul_div_right _ _ (by positivity), Nat.div_eq_of_lt this, zero_add]

theorem decNat_natText (n : ℕ) : decNat (natText n) = n := by
  have := decNat_nat (natText_digits n).1 (natText_digits n).2
  rw [nat_natText] at this
  exact (Option.some.inj this).symm

theorem natText_length {n : ℕ} (h : n ≠ 0) : 10 ^ ((natText n).length - 1) ≤ n ∧ n < 10 ^ (natText n).length := by
  have e : (natText n).length = (Nat.digits 10 n).length := by simp [natText, h]
  rw [e]
  refine ⟨?_, Nat.lt_base_pow_length_digits (by norm_num)⟩
  rw [Nat.length_digits 10 n (by norm_num) h, Nat.add_sub_cancel]
  exact Nat.pow_log_le_self 10 h

theorem floatText_digits {ds : List Char} (h0 : ds ≠ []) (hd : ∀ c ∈ ds, Dig c) :
    floatText ds = .ok (decNat ds) ∧ floatText ('-' :: ds) = .ok (-(decNat ds : ℚ)) := by
  have ha : ¬ (ds = [] ∨ ds.all Rx.isDigit = false) := by
    rw [not_or]
    refine ⟨h0, ?_⟩
    rw [Bool.not_eq_false, List.all_eq_true]
    exact fun c hc => (isDigit_iff c).mpr (hd c hc)
  obtain ⟨c, ds, rfl⟩ := List.exists_cons_of_ne_nil h0
  have hc := (dig_not (hd c (by simp))).1
  have h1 : stripMinus (c :: ds) = (false, c :: ds) := by
    unfold stripMinus
    split
    · rename_i heq; simp at heq; exact absurd heq.1 hc
    · rfl
  constructor
  · simp only [floatText, h1]
    rw [if_neg ha]
    rfl
  · have h2 : stripMinus ('-' :: c :: ds) = (true, c :: ds) := rfl
    simp only [floatText, h2]
    rw [if_neg ha]
    rfl

theorem float_natText_take (n : ℕ) {k : ℕ} (hk : 0 < k) :
    floatText ((natText n).take k) = .ok ((n / 10 ^ ((natText n).length - k) : ℕ) : ℚ) := by
  have h0 : (natText n).take k ≠ [] := by
    have := (natText_digits n).1
    rw [ne_eq, List.take_eq_nil_iff, not_or]
    exact ⟨by omega, this⟩
  rw [(floatText_digits h0 fun c hc => (natText_digits n).2 c (List.mem_of_mem_take hc)).1, decNat_take (natText_digits n).2, decNat_natText]

theorem float_intText_take (z : ℤ) {k : ℕ} (hk : 1 < k) : floatText ((intText z).take k) =
    .ok ((if z < 0 then -1 else 1) * ((z.natAbs / 10 ^ ((intText z).length - k) : ℕ) : ℚ)) := by
  obtain ⟨k, rfl⟩ : ∃ j, k = j + 1 := ⟨k - 1, by omega⟩
  unfold intText
  split_ifs with h
  · have h0 : (natText z.natAbs).take k ≠ [] := by
      have := (natText_digits z.natAbs).1
      rw [ne_eq, List.take_eq_nil_iff, not_or]
      exact ⟨by omega, this⟩
    rw [List.take_succ_cons, (floatText_digits h0 fun c hc => (natText_digits _).2 c (List.mem_of_mem_take hc)).2,
      decNat_take (natText_digits _).2, decNat_natText, List.length_cons, Nat.add_sub_add_right]
    simp
  · rw [float_natText_take _ (by omega), one_mul]

/-- The error of dividing numbers that are cut. -/
theorem cut_error {A M D e : ℕ} (hD : 0 < D) (hM : e ≤ M / D) (hA : e ≤ A / D) (he : 0 < e) :
    |(A : ℚ) / M - ((A / D : ℕ) : ℚ) / ((M / D : ℕ) : ℚ)| ≤ ((A / D : ℕ) : ℚ) / ((M / D : ℕ) : ℚ) * (1 / e) := by
  set N' := A / D with hN'
  set M' := M / D with hM'
  have q1 : (N' * D : ℚ) ≤ A := by exact_mod_cast Nat.div_mul_le_self A D
  have q2 : (A : ℚ) ≤ (N' + 1) * D := by exact_mod_cast (Nat.lt_mul_of_div_lt (Nat.lt_succ_self _) hD).le
  have q3 : (M' * D : ℚ) ≤ M := by exact_mod_cast Nat.div_mul_le_self M D
  have q4 : (M : ℚ) ≤ (M' + 1) * D := by exact_mod_cast (Nat.lt_mul_of_div_lt (Nat.lt_succ_self _) hD).le
  have d0 : (0 : ℚ) < D := by exact_mod_cast hD
  have e0 : (0 : ℚ) < e := by exact_mod_cast he
  have m0 : (e : ℚ) ≤ M' := by exact_mod_cast hM
  have n0 : (e : ℚ) ≤ N' := by exact_mod_cast hA
  have mp : (0 : ℚ) < M' := e0.trans_le m0
  have np : (0 : ℚ) < N' := e0.trans_le n0
  have Mp : (0 : ℚ) < M := (mul_pos mp d0).trans_le q3
  rw [abs_le]
  constructor
  · have h1 : (N' : ℚ) / (M' + 1) ≤ A / M := by
      rw [div_le_div_iff₀ (by linarith) Mp]
      calc (N' : ℚ) * M ≤ N' * ((M' + 1) * D) := by gcongr
        _ = (N' * D) * (M' + 1) := by ring
        _ ≤ A * (M' + 1) := by gcongr
    have h2 : (N' : ℚ) / M' - N' / M' * (1 / e) ≤ N' / (M' + 1) := by
      have : (N' : ℚ) / (M' + 1) = N' / M' * (1 - 1 / (M' + 1)) := by field_simp; ring
      rw [this]
      have h3 : (1 : ℚ) / (M' + 1) ≤ 1 / e := one_div_le_one_div_of_le e0 (by linarith)
      have h4 : (0 : ℚ) ≤ N' / M' := by positivity
      nlinarith
    linarith
  · have h1 : (A : ℚ) / M ≤ (N' + 1) / M' := by
      rw [div_le_div_iff₀ Mp mp]
      calc (A : ℚ) * M' ≤ (N' + 1) * D * M' := by gcongr
        _ = (N' + 1) * (M' * D) := by ring
        _ ≤ (N' + 1) * M := by gcongr
    have h2 : ((N' : ℚ) + 1) / M' = N' / M' + N' / M' * (1 / N') := by field_simp
    have h3 : (N' : ℚ) / M' * (1 / N') ≤ N' / M' * (1 / e) := by gcongr
    linarith

/-! ## C81 -/

/-- SPEC: the number of characters of a text by which numerator and denominator differ. -/
def lengthGap (q : ℚ) : ℕ :=
  max (intText q.num).length (natText q.den).length - min (intText q.num).length (natText q.den).length

theorem cutQuotient_value {q : ℚ} (hg : lengthGap q ≤ 248) :
    ∃ d : ℕ, d = max (intText q.num).length (natText q.den).length - 250 ∧
      cutQuotient (intText q.num) (natText q.den) =
        if q.den / 10 ^ d = 0 then .error .zeroDivision
        else .ok ((if q.num < 0 then -1 else 1) * ((q.num.natAbs / 10 ^ d : ℕ) : ℚ) / ((q.den / 10 ^ d : ℕ) : ℚ)) := by
  set a := (intText q.num).length with ha
  set b := (natText q.den).length with hb
  refine ⟨_, rfl, ?_⟩
  have hg : a ≤ b + 248 ∧ b ≤ a + 248 := by
    have : max a b - min a b ≤ 248 := hg
    omega
  have t1 : ∀ {α : Type} (t : List α) (k : ℕ), pyTake t (k : ℤ) = t.take k := fun t k => by simp [pyTake]
  have fin : ∀ k l : ℕ, 1 < k → 0 < l → a - k = max a b - 250 → b - l = max a b - 250 →
      (match floatText ((intText q.num).take k) with
        | .error e => .error e
        | .ok x =>
          match floatText ((natText q.den).take l) with
          | .error e => .error e
          | .ok y => if y = 0 then .error .zeroDivision else .ok (x / y) : Except PyErr ℚ) =
        if q.den / 10 ^ (max a b - 250) = 0 then .error .zeroDivision
        else .ok ((if q.num < 0 then -1 else 1) * ((q.num.natAbs / 10 ^ (max a b - 250) : ℕ) : ℚ) / ((q.den / 10 ^ (max a b - 250) : ℕ) : ℚ)) := by
    intro k l hk hl e1 e2
    rw [float_intText_take _ hk, float_natText_take _ hl, ← ha, ← hb, e1, e2]
    simp only [Nat.cast_eq_zero]
  unfold cutQuotient
  simp only [← ha, ← hb]
  by_cases h : (a : ℤ) > b
  · rw [if_pos h]
    have e : (250 - ((a : ℤ) - b)) = ((250 - (a - b) : ℕ) : ℤ) := by omega
    have e' : (250 : ℤ) = ((250 : ℕ) : ℤ) := rfl
    simp only [e, t1]
    rw [e', t1]
    exact fin 250 (250 - (a - b)) (by omega) (by omega) (by omega) (by omega)
  · rw [if_neg h]
    have e : (250 - ((b : ℤ) - a)) = ((250 - (b - a) : ℕ) : ℤ) := by omega
    have e' : (250 : ℤ) = ((250 : ℕ) : ℤ) := rfl
    simp only [e, t1]
    rw [e', t1]
    exact fin (250 - (b - a)) 250 (by omega) (by omega) (by omega) (by omega)

theorem toFloat_text {q : ℚ} (hq : q.den ≠ 1) (e : PyErr) :
    toFloat (.error e) (fracText q) = cutQuotient (intText q.num) (natText q.den) := by
  rw [fracText, if_neg hq, toFloat]
  simp only [splitOn_two (intText_not q.num (d := '/') (by simp)) (natText_not q.den (d := '/') (by simp))]

theorem sign_abs (q : ℚ) : q = (if q.num < 0 then -1 else 1) * ((q.num.natAbs : ℚ) / q.den) := by
  conv_lhs => rw [← Rat.num_div_den q]
  have : ((q.num.natAbs : ℕ) : ℚ) = ((|q.num| : ℤ) : ℚ) := by rw [Int.abs_eq_natAbs]; rfl
  rw [this]
  split_ifs with h
  · rw [abs_of_neg h]; push_cast; ring
  · rw [abs_of_nonneg (by omega)]; ring

/-- **C81**: when PSI's own conversion fails, the texts of numerator and denominator are cut.  The value is exact if both have
at most 250 characters; else its relative error is at most one unit of the shortest text that is left. -/
theorem psi_float_close {q : ℚ} (hq : q.den ≠ 1) (e : PyErr) (hg : lengthGap q ≤ 248) :
    ∃ r, toFloat (.error e) (fracText q) = .ok r ∧ |q - r| ≤ |r| * (1 / 10 ^ (248 - lengthGap q)) ∧
      ((intText q.num).length ≤ 250 → (natText q.den).length ≤ 250 → r = q) := by
  obtain ⟨d, hd, hval⟩ := cutQuotient_value hg
  have hnum : q.num.natAbs ≠ 0 := by
    intro h
    have : q = 0 := Rat.num_eq_zero.mp (by omega)
    rw [this] at hq
    exact hq rfl
  obtain ⟨n1, n2⟩ := natText_length hnum
  obtain ⟨m1, m2⟩ := natText_length q.den_ne_zero
  have hlen : (intText q.num).length = (natText q.num.natAbs).length + if q.num < 0 then 1 else 0 := by
    unfold intText
    split_ifs <;> simp
  have hlen' : (natText q.num.natAbs).length ≤ (intText q.num).length ∧ (intText q.num).length ≤ (natText q.num.natAbs).length + 1 := by
    rw [hlen]; split_ifs <;> omega
  have hn0 : 0 < (natText q.num.natAbs).length := List.length_pos_iff.mpr (natText_digits _).1
  have hm0 : 0 < (natText q.den).length := List.length_pos_iff.mpr (natText_digits _).1
  have hgap : lengthGap q = max (intText q.num).length (natText q.den).length - min (intText q.num).length (natText q.den).length := rfl
  by_cases h0 : d = 0
  · subst h0
    have hres : toFloat (.error e) (fracText q) = .ok q := by
      rw [toFloat_text hq, hval, pow_zero, Nat.div_one, Nat.div_one, if_neg q.den_ne_zero, mul_div_assoc, ← sign_abs]
    refine ⟨q, hres, ?_, fun _ _ => rfl⟩
    rw [sub_self, abs_zero]
    positivity
  · have hA : 10 ^ (248 - lengthGap q) ≤ q.num.natAbs / 10 ^ d := by
      rw [Nat.le_div_iff_mul_le (by positivity), ← pow_add]
      exact (Nat.pow_le_pow_right (by norm_num) (by omega)).trans n1
    have hM : 10 ^ (248 - lengthGap q) ≤ q.den / 10 ^ d := by
      rw [Nat.le_div_iff_mul_le (by positivity), ← pow_add]
      exact (Nat.pow_le_pow_right (by norm_num) (by omega)).trans m1
    have hpos : 0 < 10 ^ (248 - lengthGap q) := by positivity
    refine ⟨_, by rw [toFloat_text hq, hval, if_neg (by omega)], ?_, fun h1 h2 => by omega⟩
    have key := cut_error (A := q.num.natAbs) (M := q.den) (D := 10 ^ d) (e := 10 ^ (248 - lengthGap q)) (by positivity) hM hA hpos
    have habs : ∀ x : ℚ, |(if q.num < 0 then (-1 : ℚ) else 1) * x| = |x| := fun x => by
      rw [abs_mul]; split_ifs <;> simp
    have hq' : ∀ x : ℚ, q - (if q.num < 0 then (-1 : ℚ) else 1) * x = (if q.num < 0 then (-1 : ℚ) else 1) * ((q.num.natAbs : ℚ) / q.den - x) := fun x => by
      rw [mul_sub, ← sign_abs]
    rw [mul_div_assoc, hq', habs, habs, abs_of_nonneg (a := ((q.num.natAbs / 10 ^ d : ℕ) : ℚ) / _) (div_nonneg (Nat.cast_nonneg _) (Nat.cast_nonneg _))]
    have e10 : (((10 ^ (248 - lengthGap q) : ℕ)) : ℚ) = 10 ^ (248 - lengthGap q) := Nat.cast_pow 10 _
    rw [e10] at key
    exact key

theorem pow_lt_of_quot {x y : ℕ} {k : ℕ} (h : (10 : ℚ) ^ x < 10 ^ k * 10 ^ y) : x < k + y := by
  rw [← pow_add] at h
  exact (pow_lt_pow_iff_right₀ (by norm_num)).mp h

/-- **C81**: between 10^-230 and 10^230 the relative error is at most 10^-17, below the precision of a float. -/
theorem psi_float_range {q : ℚ} (hq : q.den ≠ 1) (e : PyErr) (h1 : 1 / 10 ^ 230 ≤ |q|) (h2 : |q| ≤ 10 ^ 230) :
    ∃ r, toFloat (.error e) (fracText q) = .ok r ∧ |q - r| ≤ |r| / 10 ^ 17 := by
  have hnum : q.num.natAbs ≠ 0 := by
    intro h
    have : q = 0 := Rat.num_eq_zero.mp (by omega)
    rw [this] at hq
    exact hq rfl
  obtain ⟨n1, n2⟩ := natText_length hnum
  obtain ⟨m1, m2⟩ := natText_length q.den_ne_zero
  have n1 : (10 : ℚ) ^ ((natText q.num.natAbs).length - 1) ≤ q.num.natAbs := by exact_mod_cast n1
  have n2 : (q.num.natAbs : ℚ) < 10 ^ (natText q.num.natAbs).length := by exact_mod_cast n2
  have m1 : (10 : ℚ) ^ ((natText q.den).length - 1) ≤ q.den := by exact_mod_cast m1
  have m2 : (q.den : ℚ) < 10 ^ (natText q.den).length := by exact_mod_cast m2
  have hd : (0 : ℚ) < q.den := by exact_mod_cast q.den_pos
  have hlen : (natText q.num.natAbs).length ≤ (intText q.num).length ∧ (intText q.num).length ≤ (natText q.num.natAbs).length + 1 := by
    unfold intText
    split_ifs <;> simp
  have hn0 : 0 < (natText q.num.natAbs).length := List.length_pos_iff.mpr (natText_digits _).1
  have hm0 : 0 < (natText q.den).length := List.length_pos_iff.mpr (natText_digits _).1
  have hab : |q| = (q.num.natAbs : ℚ) / q.den := by
    conv_lhs => rw [sign_abs q]
    rw [abs_mul, abs_of_nonneg (a := (q.num.natAbs : ℚ) / q.den) (by positivity)]
    split_ifs <;> simp
  rw [hab] at h1 h2
  rw [div_le_iff₀ hd] at h2
  rw [div_le_div_iff₀ (by positivity) hd, one_mul] at h1
  have u1 : (natText q.num.natAbs).length - 1 < 230 + (natText q.den).length :=
    pow_lt_of_quot (lt_of_le_of_lt (n1.trans h2) (by gcongr))
  have u2 : (natText q.den).length - 1 < 230 + (natText q.num.natAbs).length :=
    pow_lt_of_quot (by rw [mul_comm]; exact lt_of_le_of_lt (m1.trans h1) (by gcongr))
  have hgap : lengthGap q ≤ 231 := by
    unfold lengthGap
    omega
  obtain ⟨r, hr, hle, -⟩ := psi_float_close hq e (hgap.trans (by norm_num))
  refine ⟨r, hr, hle.trans ?_⟩
  rw [div_eq_mul_one_div |r|]
  have hp : (10 : ℚ) ^ 17 ≤ 10 ^ (248 - lengthGap q) := pow_le_pow_right₀ (by norm_num) (by omega)
  exact mul_le_mul_of_nonneg_left (one_div_le_one_div_of_le (by norm_num) hp) (abs_nonneg r)

/-- **C81**: PSI's own conversion is used when there is one. -/
theorem psi_float_direct (q : ℚ) (t : List Char) : toFloat (.ok q) t = .ok q := rfl

/-- **C81, negation**: a whole number, as text, is a ValueError. -/
theorem psi_float_whole {q : ℚ} (hq : q.den = 1) (e : PyErr) : toFloat (.error e) (fracText q) = .error .valueError := by
  rw [fracText, if_pos hq, toFloat]
  simp only [splitOn_none' (intText_not q.num (d := '/') (by simp))]

/-- **C81**: the text of a constant denotes the constant. -/
theorem psi_real_text (q : ℚ) : rat (realText false q) = some q ∧ (q.den = 1 → rat (realText true q) = some q) := by
  constructor
  · simp only [realText, rat, Bool.false_eq_true, if_false]
    rw [splitOn_two (intText_not _ (by simp)) (natText_not _ (by simp))]
    simp only [int_intText, nat_natText, Option.bind_some, Option.map_some, Option.some.injEq]
    exact Rat.num_div_den q
  · intro h
    simp only [realText, rat, if_true]
    rw [splitOn_none' (intText_not _ (by simp))]
    simp only [int_intText, Option.map_some, Option.some.injEq]
    exact (Rat.den_eq_one_iff q).mp h

/-! ## Examples -/

set_option exponentiation.threshold 300 in
theorem big_num : ((10 ^ 264 : ℚ) / 3333333333).num = 10 ^ 264 ∧ ((10 ^ 264 : ℚ) / 3333333333).den = 3333333333 := by
  constructor <;> norm_num

set_option exponentiation.threshold 300 in
/-- **C81, negation**: for 10^264 / 3333333333 the last five digits of the denominator are cut, but fifteen of the numerator:
the value is too small by a factor of ten thousand millions, about. -/
theorem psi_float_wrong (e : PyErr) : ∃ r, toFloat (.error e) (fracText (10 ^ 264 / 3333333333)) = .ok r ∧
    r * 10 ^ 9 < 10 ^ 264 / 3333333333 := by
  obtain ⟨h1, h2⟩ := big_num
  refine ⟨10 ^ 249 / 33333, ?_, by norm_num⟩
  rw [toFloat_text (by rw [h2]; norm_num), h1, h2]
  decide +kernel

set_option exponentiation.threshold 300 in
theorem third_num : ((10 ^ 250 : ℚ) / 3).num = 10 ^ 250 ∧ ((10 ^ 250 : ℚ) / 3).den = 3 := by
  constructor <;> norm_num

set_option exponentiation.threshold 300 in
/-- **C81, negation**: for 10^250 / 3 nothing is left of the denominator, a ValueError. -/
theorem psi_float_fails (e : PyErr) : toFloat (.error e) (fracText (10 ^ 250 / 3)) = .error .valueError := by
  obtain ⟨h1, h2⟩ := third_num
  rw [toFloat_text (by rw [h2]; norm_num), h1, h2]
  decide +kernel

/-- The hypotheses are met. -/
example : ∃ r, toFloat (.error .other) (fracText (22 / 7)) = .ok r ∧ |(22 / 7 : ℚ) - r| ≤ |r| / 10 ^ 17 :=
  psi_float_range (by norm_num) _ (by norm_num [abs_of_pos]) (by norm_num [abs_of_pos])

end Pywmi.Psi
