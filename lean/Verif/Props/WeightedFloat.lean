import Verif.Sample.WeightedFloat
import Verif.Math.ScaleFloat
import Verif.Props.Sample

set_option linter.unusedSectionVars false
set_option linter.unusedSimpArgs false

/-!
# C110: weighted samples on a machine
-/

namespace Pywmi
variable {V : Type} {rd : ℚ → ℚ} {R : Rng ℚ} {root : ℕ → ℚ → ℚ}

/-! ## Without rounding -/

theorem wsAdvanceFloat_id (x w : ℚ) (v : V) (rest : List (ℚ × V)) : wsAdvanceFloat id x w v rest = wsAdvance x w v rest := by
  induction rest generalizing x w v with
  | nil => rfl
  | cons p rest ih => simp only [wsAdvanceFloat, wsAdvance, id, ih]

theorem wsLoopFloat_id (n : ℕ) (total w : ℚ) (v : V) (rest : List (ℚ × V)) (s : R.State) :
    wsLoopFloat id R root n total w v rest s = wsLoop R root n total w v rest s := by
  induction n generalizing total w v rest s with
  | zero => rfl
  | succ n ih =>
    simp only [wsLoopFloat, wsLoop, id, ← wsAdvanceFloat_id, ← ih]
    rcases wsAdvanceFloat id (total * (1 - root (n + 1) (R.next s).1)) w v rest with e | ⟨x', w', v', rest'⟩
    · rfl
    · simp only
      cases wsLoopFloat id R root n (total - total * (1 - root (n + 1) (R.next s).1)) (w' - x') v' rest' (R.next s).2 <;> rfl

/-- Without rounding, floats give the samples of C32. -/
theorem weighted_exact (weights : List ℚ) (values : List V) (n : ℕ) (s : R.State) :
    weightedSampleFloat id R root weights values n s = weightedSample R root weights values n s := by
  unfold weightedSampleFloat weightedSample
  split
  · rename_i h; rw [h]
  · rename_i h; rw [h]; exact wsLoopFloat_id _ _ _ _ _ _

/-! ## With any rounding -/

theorem wsAdvanceFloat_spec (rest : List (ℚ × V)) : ∀ (x w : ℚ) (v : V), wsAdvanceFloat rd x w v rest = .error .indexError ∨
    ∃ k x' w' v' rest', wsAdvanceFloat rd x w v rest = .ok (x', w', v', rest') ∧ x' ≤ w' ∧ ((w, v) :: rest).drop k = (w', v') :: rest' := by
  induction rest with
  | nil =>
    intro x w v
    by_cases h : x > w
    · exact .inl (by simp [wsAdvanceFloat, h])
    · exact .inr ⟨0, x, w, v, [], by simp [wsAdvanceFloat, h], not_lt.mp h, rfl⟩
  | cons p rest ih =>
    intro x w v
    by_cases h : x > w
    · rcases ih (rd (x - w)) p.1 p.2 with e | ⟨k, x', w', v', rest', e, hle, hk⟩
      · exact .inl (by rw [wsAdvanceFloat, if_pos h, e])
      · exact .inr ⟨k + 1, x', w', v', rest', by rw [wsAdvanceFloat, if_pos h, e], hle, hk⟩
    · exact .inr ⟨0, x, w, v, p :: rest, by simp [wsAdvanceFloat, h], not_lt.mp h, rfl⟩

theorem wsLoopFloat_spec {values : List V} (n : ℕ) : ∀ (total w : ℚ) (v : V) (rest : List (ℚ × V)) (s : R.State) (i : ℕ),
    values.drop i = v :: rest.map (·.2) → wsLoopFloat rd R root n total w v rest s = .error .indexError ∨
    ∃ vs s', ∃ is : List ℕ, wsLoopFloat rd R root n total w v rest s = .ok (vs, s') ∧ is.length = n ∧ List.Pairwise (· ≤ ·) (i :: is) ∧
      List.Forall₂ (fun j v => values[j]? = some v) is vs := by
  induction n with
  | zero => intro total w v rest s i _; exact .inr ⟨[], s, [], rfl, rfl, by simp, .nil⟩
  | succ n ih =>
    intro total w v rest s i hi
    rcases wsAdvanceFloat_spec (rd := rd) rest (rd (total * rd (1 - root (n + 1) (R.next s).1))) w v with e | ⟨k, x', w', v', rest', e, -, hk⟩
    · exact .inl (by simp only [wsLoopFloat, e])
    · have hdrop : values.drop (i + k) = v' :: rest'.map (·.2) := by
        rw [← List.drop_drop, hi]
        have := congrArg (List.map (·.2)) hk
        rw [List.map_drop] at this
        simpa using this
      rcases ih (rd (total - rd (total * rd (1 - root (n + 1) (R.next s).1)))) (rd (w' - x')) v' rest' (R.next s).2 (i + k) hdrop with
        e2 | ⟨vs, s', is, e2, h1, h2, h3⟩
      · exact .inl (by simp only [wsLoopFloat, e, e2])
      · refine .inr ⟨v' :: vs, s', (i + k) :: is, by simp only [wsLoopFloat, e, e2], by simp [h1], ?_, .cons ?_ h3⟩
        · refine List.pairwise_cons.mpr ⟨fun j hj => ?_, h2⟩
          rcases List.mem_cons.mp hj with rfl | hj
          · omega
          · exact le_trans (by omega) ((List.pairwise_cons.mp h2).1 j hj)
        · have := List.getElem?_drop (xs := values) (i := i + k) (j := 0)
          rw [hdrop] at this
          simpa using this.symm

/-- **C110** (partial: an IndexError is possible, and values of weight 0, see below): however numbers are rounded and drawn, `weighted_sample` raises
an IndexError or yields exactly `n` values of the list, at non-decreasing positions. -/
theorem weighted_float_partial {weights : List ℚ} {values : List V} (hlen : weights.length = values.length) (n : ℕ) (s : R.State) :
    weightedSampleFloat rd R root weights values n s = .error .indexError ∨
    ∃ vs s', ∃ is : List ℕ, weightedSampleFloat rd R root weights values n s = .ok (vs, s') ∧ vs.length = n ∧ is.length = n ∧
      List.Pairwise (· ≤ ·) is ∧ List.Forall₂ (fun j v => values[j]? = some v) is vs := by
  match weights, values, hlen with
  | [], [], _ => exact .inl rfl
  | w :: ws, v :: vals, hlen =>
    have hsnd : (ws.zip vals).map (·.2) = vals := by
      rw [← List.unzip_snd, List.unzip_zip (by simpa using hlen)]
    rcases wsLoopFloat_spec (rd := rd) (R := R) (root := root) (values := v :: vals) n ((w :: ws).foldl (fun a b => rd (a + b)) 0) w v (ws.zip vals) s 0
      (by simp [hsnd]) with e | ⟨vs, s', is, e, h1, h2, h3⟩
    · exact .inl e
    · exact .inr ⟨vs, s', is, e, by rw [← h3.length_eq, h1], h1, (List.pairwise_cons.mp h2).2, h3⟩

/-! ## What goes wrong -/

/-- SPEC: floats, as far as whole numbers are concerned. -/
def RoundsWhole (rd : ℚ → ℚ) : Prop := ∀ n : ℕ, rd n = floatNat n

/-- **C110, negation**: with the weights 10^16 and 3, whose sum is rounded up, and 0 as the number drawn, `weighted_sample` indexes past the end. -/
theorem weighted_float_index (h : RoundsWhole rd) {s : R.State} (hs : (R.next s).1 = 0) (hroot : root 1 0 = 0) (a b : V) :
    weightedSampleFloat rd R root [10000000000000000, 3] [a, b] 1 s = .error .indexError := by
  have f1 : rd 10000000000000000 = 10000000000000000 := by
    have := h 10000000000000000
    rw [show floatNat 10000000000000000 = 10000000000000000 by decide +kernel] at this
    exact_mod_cast this
  have f2 : rd 10000000000000003 = 10000000000000004 := by
    have := h 10000000000000003
    rw [show floatNat 10000000000000003 = 10000000000000004 by decide +kernel] at this
    exact_mod_cast this
  have f3 : rd 1 = 1 := by
    have := h 1
    rw [show floatNat 1 = 1 by decide +kernel] at this
    exact_mod_cast this
  have f4 : rd 10000000000000004 = 10000000000000004 := by
    have := h 10000000000000004
    rw [show floatNat 10000000000000004 = 10000000000000004 by decide +kernel] at this
    exact_mod_cast this
  have f5 : rd 4 = 4 := by
    have := h 4
    rw [show floatNat 4 = 4 by decide +kernel] at this
    exact_mod_cast this
  have e1 : rd (1 - root (0 + 1) (R.next s).1) = 1 := by rw [hs, zero_add, hroot, sub_zero, f3]
  have e2 : ([10000000000000000, 3] : List ℚ).foldl (fun a b => rd (a + b)) 0 = 10000000000000004 := by
    simp only [List.foldl_cons, List.foldl_nil, zero_add, f1]
    norm_num [f2]
  simp only [weightedSampleFloat, List.zip_cons_cons, List.zip_nil_right, e2, wsLoopFloat, e1, mul_one, f4, wsAdvanceFloat]
  norm_num [f5]

/-- **C110, negation**: if the root of the number drawn is rounded to 1, the first value is yielded, also when its weight is 0. -/
theorem weighted_float_zero (h : RoundsWhole rd) {s : R.State} {n : ℕ} (hroot : root (n + 1) (R.next s).1 = 1) {ws : List ℚ} {a : V} {vals : List V}
    {vs : List V} {s' : R.State} (hok : weightedSampleFloat rd R root (0 :: ws) (a :: vals) (n + 1) s = .ok (vs, s')) : vs.head? = some a := by
  have f0 : rd 0 = 0 := by
    have := h 0
    rw [show floatNat 0 = 0 by decide +kernel] at this
    exact_mod_cast this
  simp only [weightedSampleFloat, List.zip_cons_cons, wsLoopFloat, hroot, sub_self, f0, mul_zero, sub_zero] at hok
  have hadv : ∀ rest : List (ℚ × V), wsAdvanceFloat rd 0 0 a rest = .ok (0, 0, a, rest) := fun rest => by
    cases rest <;> simp [wsAdvanceFloat]
  rw [hadv] at hok
  simp only at hok
  split at hok
  · cases hok
  · cases hok; rfl

/-! ## The hypotheses are met -/

/-- A generator that always draws the same number. -/
def sameRng (q : ℚ) : Rng ℚ := ⟨Unit, fun _ => (q, ()), fun _ _ => (0, ())⟩

/-- Whole numbers are rounded, others kept. -/
def wholeRd (q : ℚ) : ℚ := if q.den = 1 ∧ 0 ≤ q.num then (floatNat q.num.toNat : ℚ) else q

theorem wholeRd_rounds : RoundsWhole wholeRd := fun n => by simp [wholeRd]

example : weightedSampleFloat wholeRd (sameRng 0) (fun _ q => q) [10000000000000000, 3] ["a", "b"] 1 () = .error .indexError :=
  weighted_float_index wholeRd_rounds rfl rfl _ _
/-- The exact samples are fine. -/
example : (weightedSample (sameRng 0) (fun _ q => q) [10000000000000000, 3] ["a", "b"] 1 ()).map (·.1) = .ok ["b"] := by decide +kernel
/-- A value of weight 0 is yielded. -/
example : (weightedSampleFloat wholeRd (sameRng (1/2)) (fun n q => if n = 1 then q else 1) [0, 1] ["a", "b"] 2 ()).map (·.1) = .ok ["a", "b"] := by decide +kernel

end Pywmi
