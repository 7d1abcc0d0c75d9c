import Verif.Props.BatchFloat

set_option linter.unusedSectionVars false
set_option linter.unusedSimpArgs false

/-!
# C113: how far evaluation with floats is from the exact value
-/

namespace Pywmi
open Formula
variable {rd : ℚ → ℚ} {powF : ℚ → ℚ → ℚ} {u : ℚ}

/-! ## Specification -/

mutual
/-- SPEC: the value of a term with every number replaced by its absolute value and every difference by a sum; case distinctions are kept. -/
def absSize (σ : Env ℚ) : Formula → ℚ
  | .realC q => |q|
  | .sym n _ => |σ.r n|
  | .plus as => absSizeSum σ as
  | .times as => absSizeProd σ as
  | .minus l r => absSize σ l + absSize σ r
  | .pow b (.realC q) => absSize σ b ^ q.num.toNat
  | .ite c t e => if truth σ c then absSize σ t else absSize σ e
  | _ => 0
/-- SPEC: the sum over a list. -/
def absSizeSum (σ : Env ℚ) : List Formula → ℚ
  | [] => 0
  | a :: as => absSize σ a + absSizeSum σ as
/-- SPEC: the product over a list. -/
def absSizeProd (σ : Env ℚ) : List Formula → ℚ
  | [] => 1
  | a :: as => absSize σ a * absSizeProd σ as
end

mutual
/-- SPEC: how many roundings a part of the result can go through. -/
def roundings : Formula → ℕ
  | .realC _ => 1
  | .plus as => roundingsMax as + as.length
  | .times as => roundingsSum as
  | .minus l r => max (roundings l) (roundings r) + 1
  | .pow b (.realC q) => roundings b * q.num.toNat + 1
  | .ite _ t e => max (roundings t) (roundings e)
  | _ => 0
/-- SPEC: the largest number in a list. -/
def roundingsMax : List Formula → ℕ
  | [] => 0
  | a :: as => max (roundings a) (roundingsMax as)
/-- SPEC: all of a list, and one product each. -/
def roundingsSum : List Formula → ℕ
  | [] => 0
  | a :: as => roundings a + 1 + roundingsSum as
end

mutual
/-- SPEC: terms of sums, differences, products, powers with natural exponents up to 2^53, case distinctions, variables and constants. -/
def isTerm : Formula → Bool
  | .realC _ => true
  | .sym _ _ => true
  | .plus as => isTermAll as
  | .times as => isTermAll as
  | .minus l r => isTerm l && isTerm r
  | .pow b (.realC q) => isTerm b && (decide (q.den = 1) && (decide (0 ≤ q.num) && decide (q.num ≤ 9007199254740992)))
  | .ite _ t e => isTerm t && isTerm e
  | _ => false
/-- SPEC: the same for a list. -/
def isTermAll : List Formula → Bool
  | [] => true
  | a :: as => isTerm a && isTermAll as
end

/-- Assumption on rounding: the relative error is at most `u` (2^-53 for floats, when nothing underflows or overflows). -/
def RelErr (rd : ℚ → ℚ) (u : ℚ) : Prop := ∀ q, |rd q - q| ≤ u * |q|

/-- Assumption on `**`: the relative error for natural exponents is at most `u`. -/
def PowErr (powF : ℚ → ℚ → ℚ) (u : ℚ) : Prop := ∀ (x : ℚ) (n : ℕ), |powF x n - x ^ n| ≤ u * |x ^ n|

/-! ## Errors of single operations -/

/-- `x` is `y` after at most `k` roundings of numbers that add up to `s` at most. -/
def NearBy (u : ℚ) (k : ℕ) (s x y : ℚ) : Prop := |x - y| ≤ ((1 + u) ^ k - 1) * s ∧ |y| ≤ s

theorem one_le_grow (hu : 0 ≤ u) (k : ℕ) : 1 ≤ (1 + u) ^ k := one_le_pow₀ (by linarith)

theorem NearBy.nonneg {k : ℕ} {s x y : ℚ} (h : NearBy u k s x y) : 0 ≤ s := (abs_nonneg y).trans h.2

theorem NearBy.size {k : ℕ} {s x y : ℚ} (h : NearBy u k s x y) : |x| ≤ (1 + u) ^ k * s := by
  have := abs_add_le (x - y) y
  rw [sub_add_cancel] at this
  linarith [h.1, h.2]

theorem NearBy.mono (hu : 0 ≤ u) {k l : ℕ} {s x y : ℚ} (h : NearBy u k s x y) (hkl : k ≤ l) : NearBy u l s x y := by
  have h1 : (1 + u) ^ k ≤ (1 + u) ^ l := pow_le_pow_right₀ (by linarith) hkl
  exact ⟨h.1.trans (mul_le_mul_of_nonneg_right (by linarith) h.nonneg), h.2⟩

theorem NearBy.refl (y : ℚ) : NearBy u 0 |y| y y := ⟨by simp, le_rfl⟩

theorem NearBy.approx (hu : 0 ≤ u) {k : ℕ} {s x y z : ℚ} (h : NearBy u k s x y) (hz : |z - x| ≤ u * |x|) : NearBy u (k + 1) s z y := by
  refine ⟨?_, h.2⟩
  have h1 := abs_sub_le z x y
  have h2 := mul_le_mul_of_nonneg_left h.size hu
  have h3 := h.1
  rw [pow_succ]
  nlinarith

theorem NearBy.rounded (hr : RelErr rd u) (hu : 0 ≤ u) {k : ℕ} {s x y : ℚ} (h : NearBy u k s x y) : NearBy u (k + 1) s (rd x) y :=
  h.approx hu (hr x)

theorem NearBy.add {k : ℕ} {s t x y x' y' : ℚ} (h : NearBy u k s x y) (h' : NearBy u k t x' y') : NearBy u k (s + t) (x + x') (y + y') := by
  refine ⟨?_, (abs_add_le _ _).trans (add_le_add h.2 h'.2)⟩
  have := abs_add_le (x - y) (x' - y')
  rw [show x + x' - (y + y') = (x - y) + (x' - y') by ring, mul_add]
  linarith [h.1, h'.1]

theorem NearBy.sub {k : ℕ} {s t x y x' y' : ℚ} (h : NearBy u k s x y) (h' : NearBy u k t x' y') : NearBy u k (s + t) (x - x') (y - y') := by
  refine ⟨?_, (abs_sub _ _).trans (add_le_add h.2 h'.2)⟩
  have := abs_sub (x - y) (x' - y')
  rw [show x - x' - (y - y') = (x - y) - (x' - y') by ring, mul_add]
  linarith [h.1, h'.1]

theorem NearBy.mul (hu : 0 ≤ u) {k l : ℕ} {s t x y x' y' : ℚ} (h : NearBy u k s x y) (h' : NearBy u l t x' y') :
    NearBy u (k + l) (s * t) (x * x') (y * y') := by
  refine ⟨?_, by rw [abs_mul]; exact mul_le_mul h.2 h'.2 (abs_nonneg _) h.nonneg⟩
  have h1 := abs_add_le ((x - y) * x') (y * (x' - y'))
  rw [show (x - y) * x' + y * (x' - y') = x * x' - y * y' by ring, abs_mul, abs_mul] at h1
  have h2 : |x - y| * |x'| ≤ ((1 + u) ^ k - 1) * s * ((1 + u) ^ l * t) :=
    mul_le_mul h.1 h'.size (abs_nonneg _) (mul_nonneg (by linarith [one_le_grow hu k]) h.nonneg)
  have h3 : |y| * |x' - y'| ≤ s * (((1 + u) ^ l - 1) * t) := mul_le_mul h.2 h'.1 (abs_nonneg _) h.nonneg
  rw [pow_add]
  nlinarith

theorem NearBy.pow (hu : 0 ≤ u) {k : ℕ} {s x y : ℚ} (h : NearBy u k s x y) (n : ℕ) : NearBy u (k * n) (s ^ n) (x ^ n) (y ^ n) := by
  induction n with
  | zero => exact ⟨by simp, by simp⟩
  | succ n ih => rw [pow_succ, pow_succ, pow_succ, Nat.mul_succ]; exact ih.mul hu h

/-! ## Errors of terms -/

theorem isTermAll_iff (as : List Formula) : isTermAll as = true ↔ ∀ a ∈ as, isTerm a = true := by
  induction as with
  | nil => simp [isTermAll]
  | cons a as ih => simp [isTermAll, ih]

theorem le_roundingsMax {as : List Formula} {a : Formula} (h : a ∈ as) : roundings a ≤ roundingsMax as := by
  induction as with
  | nil => simp at h
  | cons b as ih =>
    simp only [roundingsMax]
    rcases List.mem_cons.1 h with rfl | h
    · exact le_max_left _ _
    · exact (ih h).trans (le_max_right _ _)

theorem sum_near (hr : RelErr rd u) (hu : 0 ≤ u) {σ : Env ℚ} {m : ℕ} {as : List Formula}
    (ha : ∀ a ∈ as, NearBy u m (absSize σ a) (valueF rd powF σ a) (value σ a)) : ∀ (k : ℕ) (s x y : ℚ), m ≤ k → NearBy u k s x y →
      NearBy u (k + as.length) (s + absSizeSum σ as) (sumF rd powF σ x as) (y + valueSum σ as) := by
  induction as with
  | nil => intro k s x y _ h; simpa [sumF, valueSum, absSizeSum] using h
  | cons a as ih =>
    intro k s x y hk h
    have h1 := (h.add ((ha a (by simp)).mono hu hk)).rounded hr hu
    have h2 := ih (fun b hb => ha b (by simp [hb])) (k + 1) _ _ _ (by omega) h1
    simp only [sumF, valueSum, absSizeSum, List.length_cons]
    rw [show k + (as.length + 1) = k + 1 + as.length by omega, ← add_assoc, ← add_assoc]
    exact h2

theorem prod_near (hr : RelErr rd u) (hu : 0 ≤ u) {σ : Env ℚ} {as : List Formula}
    (ha : ∀ a ∈ as, NearBy u (roundings a) (absSize σ a) (valueF rd powF σ a) (value σ a)) : ∀ (k : ℕ) (s x y : ℚ), NearBy u k s x y →
      NearBy u (k + roundingsSum as) (s * absSizeProd σ as) (prodF rd powF σ x as) (y * valueProd σ as) := by
  induction as with
  | nil => intro k s x y h; simpa [prodF, valueProd, absSizeProd, roundingsSum] using h
  | cons a as ih =>
    intro k s x y h
    have h1 := (h.mul hu (ha a (by simp))).rounded hr hu
    have h2 := ih (fun b hb => ha b (by simp [hb])) _ _ _ _ h1
    simp only [prodF, valueProd, absSizeProd, roundingsSum]
    rw [show k + (roundings a + 1 + roundingsSum as) = k + roundings a + 1 + roundingsSum as by omega, ← mul_assoc, ← mul_assoc]
    exact h2

/-! ## Formulas -/

/-- SPEC: how far the two sides of a comparison can move. -/
def cmpGap (u : ℚ) (σ : Env ℚ) (l r : Formula) : ℚ := ((1 + u) ^ roundings l - 1) * absSize σ l + ((1 + u) ^ roundings r - 1) * absSize σ r

mutual
/-- SPEC: the sides of every comparison in a formula are terms and differ by more than `cmpGap` at the point. -/
def Clear (u : ℚ) (σ : Env ℚ) : Formula → Prop
  | .le l r => (isTerm l = true ∧ isTerm r = true ∧ cmpGap u σ l r < |value σ l - value σ r|) ∧ Clear u σ l ∧ Clear u σ r
  | .lt l r => (isTerm l = true ∧ isTerm r = true ∧ cmpGap u σ l r < |value σ l - value σ r|) ∧ Clear u σ l ∧ Clear u σ r
  | .equals l r => (isTerm l = true ∧ isTerm r = true ∧ cmpGap u σ l r < |value σ l - value σ r|) ∧ Clear u σ l ∧ Clear u σ r
  | .and as => ClearAll u σ as
  | .or as => ClearAll u σ as
  | .plus as => ClearAll u σ as
  | .times as => ClearAll u σ as
  | .minus l r => Clear u σ l ∧ Clear u σ r
  | .pow b _ => Clear u σ b
  | .not a => Clear u σ a
  | .implies l r => Clear u σ l ∧ Clear u σ r
  | .iff l r => Clear u σ l ∧ Clear u σ r
  | .ite c t e => Clear u σ c ∧ Clear u σ t ∧ Clear u σ e
  | _ => True
/-- SPEC: the same for a list. -/
def ClearAll (u : ℚ) (σ : Env ℚ) : List Formula → Prop
  | [] => True
  | a :: as => Clear u σ a ∧ ClearAll u σ as
end

theorem clearAll_iff {σ : Env ℚ} (as : List Formula) : ClearAll u σ as ↔ ∀ a ∈ as, Clear u σ a := by
  induction as with
  | nil => simp [ClearAll]
  | cons a as ih => simp [ClearAll, ih]

theorem sides_near (hu : 0 ≤ u) {σ : Env ℚ} {l r : Formula} {x y : ℚ} (n1 : NearBy u (roundings l) (absSize σ l) x (value σ l))
    (n2 : NearBy u (roundings r) (absSize σ r) y (value σ r)) (hg : cmpGap u σ l r < |value σ l - value σ r|) :
    (x < y ∧ value σ l < value σ r) ∨ (y < x ∧ value σ r < value σ l) := by
  have h1 := abs_le.1 n1.1
  have h2 := abs_le.1 n2.1
  have g1 := mul_nonneg (sub_nonneg.2 (one_le_grow hu (roundings l))) n1.nonneg
  have g2 := mul_nonneg (sub_nonneg.2 (one_le_grow hu (roundings r))) n2.nonneg
  simp only [cmpGap] at hg
  rcases lt_abs.1 hg with h | h
  · exact .inr ⟨by linarith, by linarith⟩
  · exact .inl ⟨by linarith, by linarith⟩

theorem clear_near (hr : RelErr rd u) (hu : 0 ≤ u) (he : ExactWhole rd) (hp : PowErr powF u) (σ : Env ℚ) (f : Formula) :
    Clear u σ f → truthF rd powF σ f = truth σ f ∧
      (isTerm f = true → NearBy u (roundings f) (absSize σ f) (valueF rd powF σ f) (value σ f)) := by
  induction f using Formula.induct with
  | and as ih =>
    intro hc
    simp only [Clear, clearAll_iff] at hc
    refine ⟨?_, fun ht => by simp [isTerm] at ht⟩
    simp only [truthF, truth, truthFAll_eq, truthAll_eq]
    rw [Bool.eq_iff_iff, List.all_eq_true, List.all_eq_true]
    exact forall₂_congr fun a ha => by rw [(ih a ha (hc a ha)).1]
  | or as ih =>
    intro hc
    simp only [Clear, clearAll_iff] at hc
    refine ⟨?_, fun ht => by simp [isTerm] at ht⟩
    simp only [truthF, truth, truthFAny_eq, truthAny_eq]
    rw [Bool.eq_iff_iff, List.any_eq_true, List.any_eq_true]
    exact exists_congr fun a => and_congr_right fun ha => by rw [(ih a ha (hc a ha)).1]
  | le l r ihl ihr =>
    intro hc
    refine ⟨?_, fun ht => by simp [isTerm] at ht⟩
    simp only [truthF, truth]
    rcases sides_near hu ((ihl hc.2.1).2 hc.1.1) ((ihr hc.2.2).2 hc.1.2.1) hc.1.2.2 with ⟨a, b⟩ | ⟨a, b⟩
    · rw [decide_eq_true a.le, decide_eq_true b.le]
    · rw [decide_eq_false (not_le.2 a), decide_eq_false (not_le.2 b)]
  | lt l r ihl ihr =>
    intro hc
    refine ⟨?_, fun ht => by simp [isTerm] at ht⟩
    simp only [truthF, truth]
    rcases sides_near hu ((ihl hc.2.1).2 hc.1.1) ((ihr hc.2.2).2 hc.1.2.1) hc.1.2.2 with ⟨a, b⟩ | ⟨a, b⟩
    · rw [decide_eq_true a, decide_eq_true b]
    · rw [decide_eq_false (not_lt.2 a.le), decide_eq_false (not_lt.2 b.le)]
  | equals l r ihl ihr =>
    intro hc
    refine ⟨?_, fun ht => by simp [isTerm] at ht⟩
    simp only [truthF, truth]
    rcases sides_near hu ((ihl hc.2.1).2 hc.1.1) ((ihr hc.2.2).2 hc.1.2.1) hc.1.2.2 with ⟨a, b⟩ | ⟨a, b⟩
    · rw [decide_eq_false a.ne, decide_eq_false b.ne]
    · rw [decide_eq_false a.ne', decide_eq_false b.ne']
  | not a ih => intro hc; exact ⟨by simp only [truthF, truth, (ih hc).1], fun ht => by simp [isTerm] at ht⟩
  | implies l r ihl ihr => intro hc; exact ⟨by simp only [truthF, truth, (ihl hc.1).1, (ihr hc.2).1], fun ht => by simp [isTerm] at ht⟩
  | iff l r ihl ihr => intro hc; exact ⟨by simp only [truthF, truth, (ihl hc.1).1, (ihr hc.2).1], fun ht => by simp [isTerm] at ht⟩
  | ite c t e ihc iht ihe =>
    intro hc
    have h1 := (ihc hc.1).1
    refine ⟨by simp only [truthF, truth, h1, (iht hc.2.1).1, (ihe hc.2.2).1], fun ht => ?_⟩
    simp only [isTerm, Bool.and_eq_true] at ht
    simp only [roundings, absSize, valueF, value, h1]
    split
    · exact ((iht hc.2.1).2 ht.1).mono hu (le_max_left _ _)
    · exact ((ihe hc.2.2).2 ht.2).mono hu (le_max_right _ _)
  | plus as ih =>
    intro hc
    refine ⟨rfl, fun ht => ?_⟩
    simp only [Clear, clearAll_iff] at hc
    simp only [isTerm, isTermAll_iff] at ht
    have := sum_near (powF := powF) hr hu (σ := σ) (m := roundingsMax as) (as := as)
      (fun a ha => ((ih a ha (hc a ha)).2 (ht a ha)).mono hu (le_roundingsMax ha)) (roundingsMax as) 0 0 0 le_rfl ⟨by simp, by simp⟩
    simpa only [zero_add, roundings, absSize, valueF, value] using this
  | times as ih =>
    intro hc
    refine ⟨rfl, fun ht => ?_⟩
    simp only [Clear, clearAll_iff] at hc
    simp only [isTerm, isTermAll_iff] at ht
    have := prod_near (powF := powF) hr hu (σ := σ) (as := as) (fun a ha => (ih a ha (hc a ha)).2 (ht a ha)) 0 1 1 1 ⟨by simp, by simp⟩
    simpa only [zero_add, one_mul, roundings, absSize, valueF, value] using this
  | minus l r ihl ihr =>
    intro hc
    refine ⟨rfl, fun ht => ?_⟩
    simp only [isTerm, Bool.and_eq_true] at ht
    simp only [roundings, absSize, valueF, value]
    exact ((((ihl hc.1).2 ht.1).mono hu (le_max_left _ _)).sub (((ihr hc.2).2 ht.2).mono hu (le_max_right _ _))).rounded hr hu
  | pow b e ihb _ =>
    intro hc
    refine ⟨rfl, fun ht => ?_⟩
    cases e with
    | realC q =>
      simp only [isTerm, Bool.and_eq_true, decide_eq_true_eq] at ht
      obtain ⟨hb, h1, h2, h3⟩ := ht
      have hq : q = ((q.num.toNat : ℕ) : ℚ) := by
        have e1 : ((q.num.toNat : ℕ) : ℤ) = q.num := Int.toNat_of_nonneg h2
        have e2 : ((q.num.toNat : ℕ) : ℚ) = (q.num : ℚ) := by exact_mod_cast congrArg (fun t : ℤ => (t : ℚ)) e1
        rw [e2]; exact ((Rat.den_eq_one_iff q).1 h1).symm
      have hrq : rd q = ((q.num.toNat : ℕ) : ℚ) := by
        have := he q.num (by rw [abs_of_nonneg h2]; exact h3)
        rw [(Rat.den_eq_one_iff q).1 h1] at this
        rw [this]; exact hq
      simp only [roundings, absSize, valueF, value, h1, h2, and_self, if_true, hrq]
      exact (((ihb hc).2 hb).pow hu _).approx hu (hp _ _)
    | _ => simp [isTerm] at ht
  | sym n t => intro _; exact ⟨rfl, fun _ => NearBy.refl _⟩
  | boolC b => intro _; exact ⟨rfl, fun ht => by simp [isTerm] at ht⟩
  | realC q =>
    intro _
    refine ⟨rfl, fun _ => ?_⟩
    have := (NearBy.refl (u := u) q).rounded hr hu
    simpa only [roundings, absSize, valueF, value, Rat.cast_id, zero_add] using this

/-- **C113 (numbers)**: the number `evaluate_assignment` computes for a term differs from its value by at most `(1+u)^k - 1` times the value of the
term with absolute values, where `u` is the relative error of a rounding and `k` counts the roundings a part of the result goes through, at every
point where the sides of each comparison in it differ by more than `cmpGap`. -/
theorem term_error (hr : RelErr rd u) (hu : 0 ≤ u) (he : ExactWhole rd) (hp : PowErr powF u) {pypow : ℚ → ℚ → Except PyErr ℚ}
    (hpow : ∀ x y, pypow x y = .ok (powF x y)) {asg : String → Option (AVal ℚ)} {σ : Env ℚ} {f : Formula} (hwt : wt .real f = true)
    (hs : ∀ p ∈ syms f, AsgFloat rd asg σ p) (ht : isTerm f = true) (hc : Clear u σ f) :
    ∃ v, evaluateAssignmentFloat rd pypow asg f = .ok (.r v) ∧ |v - value σ f| ≤ ((1 + u) ^ roundings f - 1) * absSize σ f :=
  ⟨_, assignment_float hpow hwt hs, ((clear_near hr hu he hp σ f hc).2 ht).1⟩

/-- **C113 (formulas)**: floats give the right truth value at every point where the sides of each comparison differ by more than `cmpGap`. -/
theorem formula_clear (hr : RelErr rd u) (hu : 0 ≤ u) (he : ExactWhole rd) (hp : PowErr powF u) {pypow : ℚ → ℚ → Except PyErr ℚ}
    (hpow : ∀ x y, pypow x y = .ok (powF x y)) {asg : String → Option (AVal ℚ)} {σ : Env ℚ} {f : Formula} (hwt : wt .bool f = true)
    (hs : ∀ p ∈ syms f, AsgFloat rd asg σ p) (hc : Clear u σ f) : evaluateAssignmentFloat rd pypow asg f = .ok (.b (truth σ f)) := by
  rw [assignment_float hpow hwt hs, denF, (clear_near hr hu he hp σ f hc).1]

/-- **C113 (tables)**: the same for the rows of a table, as in the filter of rejection sampling: a table whose rows are all clear of the
boundaries is labelled exactly. -/
theorem table_clear (hr : RelErr rd u) (hu : 0 ≤ u) (he : ExactWhole rd) (hp : PowErr powF u) {pypow : ℚ → ℚ → Except PyErr ℚ}
    (hpow : ∀ x y, pypow x y = .ok (powF x y)) {vars : List String} (hnd : vars.Nodup) {rows : List (List ℚ)} {f : Formula} (hwt : wt .bool f = true)
    (hs : ∀ p ∈ syms f, p.1 ∈ vars) (hc : ∀ row ∈ rows, Clear u (rowEnv vars row) f) :
    evaluateFloat rd pypow vars f (.table rows vars.length) = .ok (.batch (.b (rows.map fun row => truth (rowEnv vars row) f))) := by
  rw [table_float hpow hnd hwt hs, denRowsF]
  congr 3
  exact List.map_congr_left fun row h => (clear_near hr hu he hp _ f (hc row h)).1

/-- **C113 (weights of tables)**: the numbers computed for a term at the rows of a table are within the error bound, row by row. -/
theorem table_error (hr : RelErr rd u) (hu : 0 ≤ u) (he : ExactWhole rd) (hp : PowErr powF u) {pypow : ℚ → ℚ → Except PyErr ℚ}
    (hpow : ∀ x y, pypow x y = .ok (powF x y)) {vars : List String} (hnd : vars.Nodup) {rows : List (List ℚ)} {f : Formula} (hwt : wt .real f = true)
    (hs : ∀ p ∈ syms f, p.1 ∈ vars) (ht : isTerm f = true) (hc : ∀ row ∈ rows, Clear u (rowEnv vars row) f) :
    ∃ vs, evaluateFloat rd pypow vars f (.table rows vars.length) = .ok (.batch (.r vs)) ∧
      List.Forall₂ (fun v row => |v - value (rowEnv vars row) f| ≤ ((1 + u) ^ roundings f - 1) * absSize (rowEnv vars row) f) vs rows := by
  refine ⟨_, table_float hpow hnd hwt hs, ?_⟩
  rw [List.forall₂_map_left_iff, List.forall₂_same]
  exact fun row h => ((clear_near hr hu he hp _ f (hc row h)).2 ht).1

/-! ## The assumptions hold for floats -/

theorem floatNat_error (n : ℕ) : floatNat n * 9007199254740992 ≤ n * 9007199254740992 + n ∧ n * 9007199254740992 ≤ floatNat n * 9007199254740992 + n := by
  by_cases h : n < 9007199254740992
  · simp only [floatNat, h, if_true]; omega
  · have hn : n ≠ 0 := by omega
    have hlog : 53 ≤ Nat.log2 n := (Nat.le_log2 hn).2 (by norm_num; omega)
    have hk : 2 ^ (Nat.log2 n - 52) * 4503599627370496 ≤ n := by
      have := Nat.log2_self_le hn
      rw [show Nat.log2 n = (Nat.log2 n - 52) + 52 by omega, pow_add] at this
      simpa using this
    have hd := Nat.div_add_mod n (2 ^ (Nat.log2 n - 52))
    have hlt := Nat.mod_lt n (Nat.two_pow_pos (Nat.log2 n - 52))
    simp only [floatNat, h, if_false]
    generalize 2 ^ (Nat.log2 n - 52) = p at *
    generalize n % p = r at *
    rw [mul_comm p] at hd
    split
    · rename_i hc
      generalize n / p * p = m at *
      omega
    · rename_i hc
      rw [add_mul, one_mul]
      have : p ≤ 2 * r := by
        by_contra h'
        exact hc (.inl (by omega))
      generalize n / p * p = m at *
      omega

theorem floatRd_error : RelErr floatRd (1 / 9007199254740992) := by
  have key : ∀ n : ℕ, |(floatNat n : ℚ) - n| ≤ 1 / 9007199254740992 * n := by
    intro n
    obtain ⟨h1, h2⟩ := floatNat_error n
    have h1' : (floatNat n : ℚ) * 9007199254740992 ≤ n * 9007199254740992 + n := by exact_mod_cast h1
    have h2' : (n : ℚ) * 9007199254740992 ≤ floatNat n * 9007199254740992 + n := by exact_mod_cast h2
    rw [abs_le]; constructor <;> linarith
  intro q
  unfold floatRd
  split
  · rename_i hd
    have hq := (Rat.den_eq_one_iff q).1 hd
    split
    · rename_i h0
      have e : ((q.num.toNat : ℕ) : ℚ) = q := by
        rw [← hq]; exact_mod_cast congrArg (fun t : ℤ => (t : ℚ)) (Int.toNat_of_nonneg h0)
      have := key q.num.toNat
      rw [e] at this
      exact this.trans (mul_le_mul_of_nonneg_left (le_abs_self q) (by norm_num))
    · rename_i h0
      have e : (((-q.num).toNat : ℕ) : ℚ) = -q := by
        have h3 := congrArg (fun t : ℤ => (t : ℚ)) (Int.toNat_of_nonneg (show 0 ≤ -q.num by omega))
        push_cast at h3
        rw [h3, hq]
      have := key (-q.num).toNat
      rw [e] at this
      rw [show -(floatNat (-q.num).toNat : ℚ) - q = -((floatNat (-q.num).toNat : ℚ) - -q) by ring, abs_neg]
      exact this.trans (mul_le_mul_of_nonneg_left (neg_le_abs q) (by norm_num))
  · simp

theorem floatPow_error : PowErr floatPow (1 / 9007199254740992) := fun x n => by
  have : floatPow x n = floatRd (x ^ n) := by simp [floatPow]
  rw [this]
  exact floatRd_error _

/-! ## Concrete cases -/

/-- `(x - 3)^2 * 7 + 2x`, at `x = 10^9`. -/
def errorTerm : Formula := .plus [.times [.pow (.minus (.sym "x" .real) (.realC 3)) (.realC 2), .realC 7], .times [.realC 2, .sym "x" .real]]
/-- The point. -/
def errorPoint : Env ℚ := ⟨fun _ => false, fun _ => 1000000000⟩

theorem errorTerm_clear : Clear u errorPoint errorTerm := by simp [errorTerm, Clear, ClearAll]

example : wt .real errorTerm = true ∧ isTerm errorTerm = true ∧ roundings errorTerm = 10 := by decide +kernel
example : absSize errorPoint errorTerm = 7000000044000000063 ∧ value errorPoint errorTerm = 6999999960000000063 := by decide +kernel
example : evaluateAssignmentFloat floatRd (fun x y => .ok (floatPow x y)) (fun _ => some (.num 1000000000)) errorTerm = .ok (.r 6999999960000000000) := by
  decide +kernel
example : ∀ p ∈ syms errorTerm, AsgFloat floatRd (fun _ => some (.num 1000000000)) errorPoint p := by
  intro p hp
  simp only [errorTerm, syms, symsList, List.append_nil, List.nil_append, List.mem_append, List.mem_cons, List.not_mem_nil, or_false, or_self] at hp
  subst hp
  exact ⟨_, .inl rfl, by decide +kernel⟩
example : cmpGap (1 / 9007199254740992) errorPoint errorTerm (.realC 0) < |value errorPoint errorTerm - value errorPoint (.realC 0)| := by decide +kernel
example : Clear (1 / 9007199254740992) errorPoint (.implies (.sym "a" .bool) (.not (.le errorTerm (.realC 0)))) :=
  ⟨trivial, ⟨by decide +kernel, by decide +kernel, by decide +kernel⟩, errorTerm_clear, trivial⟩
/-- A weight with a case distinction: `errorTerm` where it is positive, else 1. -/
example : isTerm (.ite (.lt (.realC 0) errorTerm) errorTerm (.realC 1)) = true ∧
    Clear (1 / 9007199254740992) errorPoint (.ite (.lt (.realC 0) errorTerm) errorTerm (.realC 1)) :=
  ⟨by decide +kernel, ⟨⟨by decide +kernel, by decide +kernel, by decide +kernel⟩, trivial, errorTerm_clear⟩,
    ⟨errorTerm_clear, trivial⟩⟩

end Pywmi
