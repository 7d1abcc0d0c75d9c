import Verif.Sample.Box
import Verif.Props.Sample

set_option linter.unusedSectionVars false
set_option linter.unusedSimpArgs false

/-!
# C106: samples of a box
-/

namespace Pywmi
variable {K : Type} [Field K] [LinearOrder K] [IsStrictOrderedRing K]

/-! ## Specification -/

/-- SPEC: the domain with the Boolean variables `bs`, then the real variables `rs` with the bounds. -/
structure BoxDomain (bs rs : List String) (bounds : ABounds) (D : Domain) : Prop where
  vars : D.vars = bs ++ rs
  bools : ∀ v ∈ bs, D.varTypes.lookup v = some .bool
  reals : ∀ v ∈ rs, D.varTypes.lookup v = some .real
  size : rs.length = bounds.length
  bound : ∀ (i : ℕ) (v : String) (b : (ℚ × Bool) × (ℚ × Bool)), rs[i]? = some v → bounds[i]? = some b → D.varDomains.lookup v = some (some b.1.1, some b.2.1)

/-- SPEC: a number of [0, 1) moved to an interval. -/
def intoInterval (b : (ℚ × Bool) × (ℚ × Bool)) (r : K) : K := (b.1.1 : K) + r * ((b.2.1 : K) - (b.1.1 : K))

/-! ## Proofs -/

theorem boxReals_append (as : List K) : ∀ (bounds : ABounds) (row : List K), row.length = bounds.length →
    boxReals as.length bounds (as ++ row) = as ++ List.zipWith intoInterval bounds row := by
  intro bounds
  induction bounds generalizing as with
  | nil => intro row h; simp [boxReals, List.length_eq_zero_iff.mp h]
  | cons b bounds ih =>
    intro row h
    cases row with
    | nil => simp at h
    | cons r row =>
      simp only [boxReals]
      have : (as ++ r :: row).modify as.length (fun r => (b.1.1 : K) + r * ((b.2.1 : K) - (b.1.1 : K))) = (as ++ [intoInterval b r]) ++ row := by
        rw [List.modify_eq_set_getElem?]
        simp [intoInterval]
      rw [this]
      have h2 := ih (as ++ [intoInterval b r]) row (by simpa using h)
      simp only [List.length_append, List.length_singleton] at h2
      rw [h2]
      simp

theorem boxRow_eq {nb : ℕ} {bounds : ABounds} {row : List K} (h : row.length = nb + bounds.length) :
    boxReals nb bounds (boxBools nb row) = (row.take nb).map (fun r => if r < 1 / 2 then (1 : K) else 0) ++ List.zipWith intoInterval bounds (row.drop nb) := by
  have := boxReals_append ((row.take nb).map (fun r => if r < 1 / 2 then (1 : K) else 0)) bounds (row.drop nb) (by simp [h])
  rw [List.length_map, List.length_take, h, Nat.min_eq_left (Nat.le_add_right _ _)] at this
  exact this

/-- **C106**: the samples have as many rows as asked for; each has the Boolean columns, with 0 and 1, and one column for each interval, with
numbers in it; the upper end is only met by intervals of length 0. -/
theorem box_sample {R : Rng K} (hR : RngOk R) (nb : ℕ) (bounds : ABounds) (hb : ∀ b ∈ bounds, b.1.1 ≤ b.2.1) (n : ℕ) (s : R.State) :
    (boxSample R nb bounds n s).1.length = n ∧ ∀ row ∈ (boxSample R nb bounds n s).1, row.length = nb + bounds.length ∧
      (∀ i < nb, row[i]? = some 0 ∨ row[i]? = some 1) ∧
      ∀ i b, bounds[i]? = some b → ∃ x, row[nb + i]? = some x ∧ (b.1.1 : K) ≤ x ∧ x ≤ (b.2.1 : K) ∧ (b.1.1 < b.2.1 → x < (b.2.1 : K)) := by
  obtain ⟨h1, h2⟩ := drawRows_spec hR (nb + bounds.length) n s
  refine ⟨by simp [boxSample, h1], ?_⟩
  intro row hrow
  obtain ⟨r, hr, rfl⟩ := List.mem_map.mp hrow
  obtain ⟨h3, h4⟩ := h2 r hr
  rw [boxRow_eq h3]
  have hl : ((r.take nb).map (fun r => if r < 1 / 2 then (1 : K) else 0)).length = nb := by simp [h3]
  refine ⟨by simp [h3], fun i hi => ?_, fun i b hib => ?_⟩
  · rw [List.getElem?_append_left (by rw [hl]; exact hi), List.getElem?_map, List.getElem?_take_of_lt hi, List.getElem?_eq_getElem (by omega)]
    simp only [Option.map_some]
    split
    · exact .inr rfl
    · exact .inl rfl
  · have hi : i < bounds.length := (List.getElem?_eq_some_iff.mp hib).1
    have hx : r[nb + i]? = some (r[nb + i]'(by omega)) := List.getElem?_eq_getElem _
    refine ⟨intoInterval b (r[nb + i]'(by omega)), ?_, ?_⟩
    · rw [List.getElem?_append_right (by rw [hl]; omega), hl, Nat.add_sub_cancel_left, List.getElem?_zipWith, hib, List.getElem?_drop, hx]
    · obtain ⟨x0, x1⟩ := h4 _ (List.getElem_mem (show nb + i < r.length by omega))
      have hle : (b.1.1 : K) ≤ (b.2.1 : K) := by exact_mod_cast hb b (List.mem_of_getElem? hib)
      have hd : 0 ≤ (b.2.1 : K) - (b.1.1 : K) := sub_nonneg.mpr hle
      unfold intoInterval
      refine ⟨by nlinarith [mul_nonneg x0 hd], by nlinarith, fun hlt => ?_⟩
      have hlt : (b.1.1 : K) < (b.2.1 : K) := by exact_mod_cast hlt
      nlinarith

/-- **C106**: on a domain with the Boolean variables first the samples are those of `uniform`, number for number, and the generator is left in the
same state. -/
theorem box_uniform (R : Rng K) {bs rs : List String} {bounds : ABounds} {D : Domain} (hD : BoxDomain bs rs bounds D) (n : ℕ) (s : R.State) :
    uniform R D n none s = .ok (boxSample R bs.length bounds n s) := by
  have hreal : ∀ (rs : List String) (bounds : ABounds), (∀ v ∈ rs, D.varTypes.lookup v = some .real) → rs.length = bounds.length →
      (∀ (i : ℕ) (v : String) (b : (ℚ × Bool) × (ℚ × Bool)), rs[i]? = some v → bounds[i]? = some b → D.varDomains.lookup v = some (some b.1.1, some b.2.1)) →
      Prog.mapE (columnMap (K := K) D) rs = .ok (bounds.map intoInterval) := by
    intro rs
    induction rs with
    | nil =>
      intro bounds _ h _
      rw [List.length_eq_zero_iff.mp h.symm]
      rfl
    | cons v rs ih =>
      intro bounds h1 h2 h3
      cases bounds with
      | nil => simp at h2
      | cons b bounds =>
        rw [Prog.mapE, columnMap]
        simp only [dictGet, h1 v (by simp), h3 0 v b rfl rfl]
        rw [ih bounds (fun w hw => h1 w (by simp [hw])) (by simpa using h2) (fun i w c hw hc => h3 (i + 1) w c (by simpa using hw) (by simpa using hc))]
        rfl
  have hall : ∀ bs : List String, (∀ v ∈ bs, D.varTypes.lookup v = some .bool) → Prog.mapE (columnMap (K := K) D) (bs ++ rs) =
      .ok (bs.map (fun _ => fun r : K => if r < 1 / 2 then (1 : K) else 0) ++ bounds.map intoInterval) := by
    intro bs hb
    induction bs with
    | nil => simpa using hreal rs bounds hD.reals hD.size hD.bound
    | cons v bs ih =>
      rw [List.cons_append, Prog.mapE, columnMap]
      simp only [dictGet, hb v (by simp)]
      rw [ih (fun w hw => hb w (by simp [hw]))]
      rfl
  have hlen : ∀ (m n : ℕ) (s : R.State), ∀ row ∈ (drawRows R m n s).1, row.length = m := by
    have h1 : ∀ (m : ℕ) (s : R.State), (drawRow R m s).1.length = m := by
      intro m
      induction m with
      | zero => intro s; rfl
      | succ m ih => intro s; simp [drawRow, ih]
    intro m n
    induction n with
    | zero => intro s row h; simp [drawRows] at h
    | succ n ih =>
      intro s row h
      simp only [drawRows, List.mem_cons] at h
      rcases h with rfl | h
      · exact h1 m s
      · exact ih _ _ h
  have hzip : ∀ (bs : List String) (row : List K), row.length = bs.length + bounds.length →
      List.zipWith (fun f x => f x) (bs.map (fun _ => fun r : K => if r < 1 / 2 then (1 : K) else 0) ++ bounds.map intoInterval) row =
      (row.take bs.length).map (fun r => if r < 1 / 2 then (1 : K) else 0) ++ List.zipWith intoInterval bounds (row.drop bs.length) := by
    intro bs
    induction bs with
    | nil => intro row _; simp [List.zipWith_map_left]
    | cons v bs ih =>
      intro row h
      cases row with
      | nil => simp at h; omega
      | cons r row =>
        simp only [List.map_cons, List.cons_append, List.zipWith_cons_cons, List.length_cons, List.take_succ_cons, List.drop_succ_cons]
        rw [ih row (by simp at h; omega)]
  have hn : D.vars.length = bs.length + bounds.length := by rw [hD.vars, List.length_append, hD.size]
  unfold uniform boxSample
  rw [hD.vars, hall bs hD.bools, ← hD.vars, hn]
  simp only [Except.ok.injEq, Prod.mk.injEq, and_true]
  apply List.map_congr_left
  intro row hrow
  have hl := hlen _ _ _ row hrow
  rw [boxRow_eq hl, hzip bs row hl]

/-- The hypotheses are met: the domain with a, b (Boolean), x and y (real). -/
theorem sampleDomain_boxDomain : BoxDomain ["a", "b"] ["x", "y"] [((0, true), (10, true)), ((-5, true), (1/2, false))] sampleDomain where
  vars := rfl
  bools := by decide
  reals := by decide
  size := rfl
  bound i v b hv hb := by
    match i with
    | 0 => simp only [List.getElem?_cons_zero, Option.some.injEq] at hv hb; subst hv hb; decide +kernel
    | 1 => simp only [List.getElem?_cons_succ, List.getElem?_cons_zero, Option.some.injEq] at hv hb; subst hv hb; decide +kernel
    | i + 2 => simp at hv

example : (boxSample cycleRng 2 [((0, true), (10, true)), ((-5, true), (1/2, false))] 1 (0 : ℕ)).1.map List.length = [4] := by decide +kernel

/-- The flags of the bounds, which say whether the ends belong to the interval, do not change the samples. -/
theorem box_flags (R : Rng K) (nb : ℕ) {bounds bounds' : ABounds} (h : bounds.map (fun b => (b.1.1, b.2.1)) = bounds'.map fun b => (b.1.1, b.2.1))
    (n : ℕ) (s : R.State) : boxSample R nb bounds n s = boxSample R nb bounds' n s := by
  have hl : bounds.length = bounds'.length := by simpa using congrArg List.length h
  have hr : ∀ (bounds bounds' : ABounds) (j : ℕ) (row : List K), bounds.map (fun b => (b.1.1, b.2.1)) = bounds'.map (fun b => (b.1.1, b.2.1)) →
      boxReals j bounds row = boxReals j bounds' row := by
    intro bounds
    induction bounds with
    | nil => intro bounds' j row h; cases bounds' with
      | nil => rfl
      | cons b bs => simp at h
    | cons b bs ih => intro bounds' j row h; cases bounds' with
      | nil => simp at h
      | cons b' bs' =>
        simp only [List.map_cons, List.cons.injEq, Prod.mk.injEq] at h
        simp only [boxReals, h.1.1, h.1.2]
        exact ih bs' _ _ h.2
  simp only [boxSample, hl]
  congr 1
  exact List.map_congr_left fun row _ => hr _ _ _ _ h

/-- The hypotheses of the other theorems are met. -/
example (s : ℕ) : uniform cycleRng sampleDomain 3 none s = .ok (boxSample cycleRng 2 [((0, true), (10, true)), ((-5, true), (1/2, false))] 3 s) ∧
    (boxSample cycleRng 2 [((0, true), (10, true)), ((-5, true), (1/2, false))] 3 s).1.length = 3 :=
  ⟨box_uniform cycleRng sampleDomain_boxDomain 3 s, (box_sample cycleRng_ok 2 _ (by
    intro b hb
    simp only [List.mem_cons, List.not_mem_nil, or_false] at hb
    rcases hb with rfl | rfl <;> norm_num) 3 s).1⟩

end Pywmi
