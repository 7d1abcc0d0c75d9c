import Verif.Math.ScaleFloat
import Verif.Props.Math
import Mathlib.Algebra.Order.Round
import Mathlib.Data.Rat.Floor
import Mathlib.Data.List.MinMax

set_option linter.unusedSectionVars false
set_option linter.unusedSimpArgs false

/-!
# C107: scaling to integers with Python's numbers
-/

namespace Pywmi

/-! ## Specification -/

/-- SPEC: `limit_denominator()` as documented: the closest fraction with a denominator of at most a million. -/
structure LimLaw (lim : ℚ → ℚ) : Prop where
  den : ∀ q, (lim q).den ≤ 1000000
  closest : ∀ q r : ℚ, r.den ≤ 1000000 → |lim q - q| ≤ |r - q|

/-- SPEC: the least common multiple of the denominators. -/
def denLcm (d : Dict) : ℕ := (d.map fun q => q.2.den).foldr Nat.lcm 1

/-! ## Exact cases -/

theorem LimLaw.same {lim : ℚ → ℚ} (h : LimLaw lim) {q : ℚ} (hq : q.den ≤ 1000000) : lim q = q := by
  have := h.closest q q hq
  rw [sub_self, abs_zero] at this
  exact sub_eq_zero.mp (abs_eq_zero.mp (le_antisymm this (abs_nonneg _)))

theorem floatNat_small {n : ℕ} (h : n < 9007199254740992) : floatNat n = n := by rw [floatNat, if_pos h]

theorem floatLcm_small {a b : ℕ} (h : Nat.lcm a b < 9007199254740992) : floatLcm a b = .ok (linLcm a b) := by
  have h' : a * b / Nat.gcd a b < 9007199254740992 := h
  unfold floatLcm
  rw [floatNat_small h']
  simp only
  rw [if_pos]
  · rfl
  · by_cases h0 : a * b / Nat.gcd a b = 0
    · rw [h0]; decide
    · exact (Nat.log2_lt h0).mpr (h'.trans_le (le_trans (by norm_num) (Nat.pow_le_pow_right (by norm_num) (show 53 ≤ 1024 by norm_num))))

theorem floatLcmLoop_small (l : List ℕ) : ∀ a : ℕ, a ≠ 0 → (∀ x ∈ l, x ≠ 0) → l.foldl linLcm a < 9007199254740992 →
    floatLcmLoop l a = .ok (l.foldl linLcm a) := by
  induction l with
  | nil => intro a _ _ _; rfl
  | cons b bs ih =>
    intro a ha hl h
    have hb : b ≠ 0 := hl b (by simp)
    have hc : linLcm a b ≠ 0 := Nat.lcm_ne_zero ha hb
    obtain ⟨h1, -, h3⟩ := foldl_lcm_spec bs (linLcm a b)
    have hle : linLcm a b ≤ bs.foldl linLcm (linLcm a b) := Nat.le_of_dvd (Nat.pos_of_ne_zero (h3 hc fun x hx => hl x (by simp [hx]))) h1
    rw [List.foldl_cons] at h
    rw [floatLcmLoop, floatLcm_small (lt_of_le_of_lt hle h)]
    exact ih _ hc (fun x hx => hl x (by simp [hx])) h

theorem foldl_eq_foldr (l : List ℕ) (a : ℕ) : l.foldl linLcm a = Nat.lcm a (l.foldr Nat.lcm 1) := by
  induction l generalizing a with
  | nil => simp
  | cons b l ih =>
    rw [List.foldl_cons, ih, List.foldr_cons, ← Nat.lcm_assoc]
    rfl

/-- **C107** (partial: denominators of at most a million, with a common multiple below 2^53): the result is the exact one, so the half-space is
kept (C10). -/
theorem scale_float_partial {lim : ℚ → ℚ} (hlim : LimLaw lim) {d : Dict} (hd : ∀ p ∈ d, p.2.den ≤ 1000000) (hl : denLcm d < 9007199254740992) :
    scaleFloat lim d = linScaleToInteger d := by
  have hm : (d.map fun q => (q.1, lim q.2)) = d := by
    conv_rhs => rw [← List.map_id d]
    exact List.map_congr_left fun p hp => Prod.ext rfl (hlim.same (hd p hp))
  unfold scaleFloat linScaleToInteger
  rw [hm]
  cases d with
  | nil => rfl
  | cons p ps =>
    have hfl : (ps.map fun q => q.2.den).foldl linLcm p.2.den < 9007199254740992 := by
      rw [foldl_eq_foldr]
      exact hl
    simp only
    rw [floatLcmLoop_small _ _ p.2.den_nz (by
      intro x hx; obtain ⟨q, _, rfl⟩ := List.mem_map.mp hx; exact q.2.den_nz) hfl]
    rfl

/-- **C107**: with at most two coefficients, counting the constant, nothing goes wrong. -/
theorem scale_float_two {lim : ℚ → ℚ} (hlim : LimLaw lim) {d : Dict} (hd : ∀ p ∈ d, p.2.den ≤ 1000000) (h2 : d.length ≤ 2) :
    scaleFloat lim d = linScaleToInteger d := by
  refine scale_float_partial hlim hd ?_
  match d, h2 with
  | [], _ => simp [denLcm]
  | [p], _ => have := hd p (by simp); simp [denLcm]; omega
  | [p, q], _ =>
    have h1 := hd p (by simp)
    have h2 := hd q (by simp)
    simp only [denLcm, List.map_cons, List.map_nil, List.foldr_cons, List.foldr_nil, Nat.lcm_one_right]
    have : Nat.lcm p.2.den q.2.den ≤ p.2.den * q.2.den := Nat.le_of_dvd (Nat.mul_pos p.2.den_pos q.2.den_pos) (Nat.lcm_dvd_mul _ _)
    have : p.2.den * q.2.den ≤ 1000000 * 1000000 := Nat.mul_le_mul h1 h2
    omega

/-- The half-space is kept. -/
theorem scale_float_halfSpace_partial {K : Type} [Field K] [LinearOrder K] [IsStrictOrderedRing K] {lim : ℚ → ℚ} (hlim : LimLaw lim) {d : Dict}
    (hw : WFLin d) (hne : d ≠ []) (hd : ∀ p ∈ d, p.2.den ≤ 1000000) (hl : denLcm d < 9007199254740992) :
    ∃ e, scaleFloat lim d = .ok e ∧ WFLin e ∧ halfSpace e K = halfSpace d K ∧ (∀ p ∈ e, ∃ z : ℤ, p.2 = z) := by
  obtain ⟨e, h1, h2, h3, h4, -⟩ := linScaleToInteger_correct (K := K) hw hne
  exact ⟨e, by rw [scale_float_partial hlim hd hl, h1], h2, h3, h4⟩

/-! ## Wrong cases -/

/-- x/999983 + y/999979 < 1/999961. -/
def primeIneq : Dict := [(["x"], 1/999983), (["y"], 1/999979), ([], -1/999961)]

theorem scaleFloat_congr {lim lim' : ℚ → ℚ} {d : Dict} (h : ∀ p ∈ d, lim p.2 = lim' p.2) : scaleFloat lim d = scaleFloat lim' d := by
  have : (d.map fun q => (q.1, lim q.2)) = d.map fun q => (q.1, lim' q.2) := List.map_congr_left fun p hp => by rw [h p hp]
  unfold scaleFloat
  rw [this]

/-- **C107, negation**: the common multiple of three denominators is rounded, no coefficient is whole then, and all of them are truncated to 0: an
inequality that not all points satisfy becomes 0 ≤ 0. -/
theorem scale_float_rounds {lim : ℚ → ℚ} (hlim : LimLaw lim) : scaleFloat lim primeIneq = .ok [] ∧ WFLin primeIneq ∧
    (fun _ => 1) ∉ halfSpace primeIneq ℚ ∧ linToSmt [] = .ok (.le (.realC 0) (.realC 0)) := by
  refine ⟨?_, ?_, ?_, rfl⟩
  · rw [scaleFloat_congr (lim' := id) (fun p hp => hlim.same ?_)]
    · decide +kernel
    · simp only [primeIneq, List.mem_cons, List.not_mem_nil, or_false] at hp
      rcases hp with rfl | rfl | rfl <;> decide +kernel
  · exact ⟨by unfold KeysNodup; decide +kernel, by simp [primeIneq]⟩
  · simp only [halfSpace, primeIneq, polyEval, monoEval]
    norm_num

/-- Sixty variables with three coefficients. -/
def manyIneq : Dict := (List.range 60).map fun i => ([String.ofList (List.replicate (i + 1) 'x')], 1 / ((999983 - 4 * (i % 2) - 22 * (i % 3 / 2) : ℕ) : ℚ))

/-- **C107, negation**: a rounded common multiple is no multiple any more, so the same denominators are multiplied again and again, and the
division overflows. -/
theorem scale_float_overflows {lim : ℚ → ℚ} (hlim : LimLaw lim) : scaleFloat lim manyIneq = .error .other ∧ ∀ p ∈ manyIneq, p.2.den ≤ 1000000 := by
  have hd : ∀ p ∈ manyIneq, p.2.den ≤ 1000000 := by decide +kernel
  refine ⟨?_, hd⟩
  rw [scaleFloat_congr (lim' := id) (fun p hp => hlim.same (hd p hp))]
  decide +kernel

theorem LimLaw.tiny {lim : ℚ → ℚ} (h : LimLaw lim) {q : ℚ} (hq : |q| < 1 / 2000000) : lim q = 0 := by
  by_contra hne
  have h1 := h.closest q 0 (by norm_num)
  rw [zero_sub, abs_neg] at h1
  have h2 : (1 : ℚ) / 1000000 ≤ |lim q| := by
    have hd : ((lim q).den : ℚ) ≤ 1000000 := by exact_mod_cast h.den q
    have hpos : (0 : ℚ) < (lim q).den := by exact_mod_cast (lim q).den_pos
    have hn : (1 : ℚ) ≤ |((lim q).num : ℚ)| := by
      have : (lim q).num ≠ 0 := fun h0 => hne (Rat.num_eq_zero.mp h0)
      exact_mod_cast Int.one_le_abs this
    rw [← Rat.num_div_den (lim q), abs_div, abs_of_pos hpos, div_le_div_iff₀ (by norm_num) hpos]
    nlinarith
  have h3 : |lim q| ≤ |lim q - q| + |q| := by
    have := abs_add_le (lim q - q) q
    simpa using this
  linarith

/-- **C107, negation**: coefficients below 1/2000000 are lost, and if there is no other one, scaling raises ZeroDivisionError. -/
theorem scale_float_tiny {lim : ℚ → ℚ} (hlim : LimLaw lim) {q : ℚ} (hq : |q| < 1 / 2000000) (x : String) :
    scaleFloat lim [([x], q), ([], -1)] = .ok [([], -1)] ∧ scaleFloat lim [([x], q)] = .error .zeroDivision := by
  have h0 := hlim.tiny hq
  have h1 : lim (-1) = -1 := hlim.same (by decide)
  constructor
  · unfold scaleFloat
    simp only [List.map_cons, List.map_nil, h0, h1]
    have : floatLcmLoop [(-1 : ℚ).den] (0 : ℚ).den = .ok 1 := by decide +kernel
    rw [this]
    simp [linMk]
  · unfold scaleFloat
    simp only [List.map_cons, List.map_nil, h0]
    have : floatLcmLoop [] (0 : ℚ).den = .ok 1 := by decide +kernel
    rw [this]
    simp

/-! ## The law can be met -/

/-- The fractions closest to `q` for each denominator. -/
def limCandidates (N : ℕ) (q : ℚ) : List ℚ := (List.range N).map fun k => (round (q * ((k + 1 : ℕ) : ℚ)) : ℚ) / ((k + 1 : ℕ) : ℚ)

/-- The closest of them. -/
def limSearch (N : ℕ) (q : ℚ) : ℚ := ((limCandidates N q).argmin fun r => |r - q|).getD 0

theorem limSearch_spec {N : ℕ} (hN : 0 < N) :
    (∀ q, (limSearch N q).den ≤ N) ∧ ∀ q r : ℚ, r.den ≤ N → |limSearch N q - q| ≤ |r - q| := by
  have hmem : ∀ q, limSearch N q ∈ limCandidates N q ∧ ∀ r ∈ limCandidates N q, |limSearch N q - q| ≤ |r - q| := by
    intro q
    unfold limSearch
    cases h : (limCandidates N q).argmin fun r => |r - q| with
    | none =>
      have := List.argmin_eq_none.mp h
      simp [limCandidates, hN.ne'] at this
    | some m =>
      exact ⟨List.argmin_mem h, fun r hr => List.le_of_mem_argmin (f := fun r => |r - q|) hr h⟩
  refine ⟨fun q => ?_, fun q r hr => ?_⟩
  · obtain ⟨k, hk, h⟩ := List.mem_map.mp (hmem q).1
    rw [← h]
    have hk := List.mem_range.mp hk
    have h2 : ((round (q * ((k + 1 : ℕ) : ℚ)) : ℚ) / ((k + 1 : ℕ) : ℚ)).den ∣ (k + 1) := by
      have := Rat.den_dvd (round (q * ((k + 1 : ℕ) : ℚ))) ((k + 1 : ℕ) : ℤ)
      rw [Rat.divInt_eq_div] at this
      exact_mod_cast this
    exact (Nat.le_of_dvd (Nat.succ_pos k) h2).trans hk
  · have hpos : (0 : ℚ) < r.den := by exact_mod_cast r.den_pos
    have hc : (round (q * (r.den : ℚ)) : ℚ) / (r.den : ℚ) ∈ limCandidates N q := by
      refine List.mem_map.mpr ⟨r.den - 1, List.mem_range.mpr (by have := r.den_pos; omega), ?_⟩
      rw [Nat.sub_add_cancel r.den_pos]
    refine ((hmem q).2 _ hc).trans ?_
    have h1 : |(round (q * (r.den : ℚ)) : ℚ) / (r.den : ℚ) - q| = |(round (q * r.den) : ℚ) - q * r.den| / r.den := by
      rw [← abs_of_pos hpos, ← abs_div, abs_of_pos hpos]
      congr 1
      field_simp
    have h2 : |r - q| = |(r.num : ℚ) - q * r.den| / r.den := by
      conv_lhs => rw [← Rat.num_div_den r]
      rw [← abs_of_pos hpos, ← abs_div, abs_of_pos hpos]
      congr 1
      field_simp
    rw [h1, h2]
    refine div_le_div_of_nonneg_right ?_ hpos.le
    rw [abs_sub_comm, abs_sub_comm (r.num : ℚ)]
    exact round_le _ _

theorem limSearch_law : LimLaw (limSearch 1000000) := ⟨(limSearch_spec (by norm_num)).1, (limSearch_spec (by norm_num)).2⟩

/-- The hypotheses are met: x/3 - 11y/12 < 1. -/
example : scaleFloat (limSearch 1000000) [(["x"], 1/3), (["y"], -11/12), ([], -1)] = .ok [(["x"], 4), (["y"], -11), ([], -12)] := by
  rw [scale_float_partial limSearch_law]
  · decide +kernel
  · intro p hp
    simp only [List.mem_cons, List.not_mem_nil, or_false] at hp
    rcases hp with rfl | rfl | rfl <;> decide +kernel
  · decide +kernel

end Pywmi
