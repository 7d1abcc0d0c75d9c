import Verif.Xadd.Area

set_option linter.unusedSectionVars false
set_option linter.unusedSimpArgs false

/-!
# Bounds read off from tests
-/

namespace Pywmi
open Formula MeasureTheory Set

/-- SPEC: a bound of a variable: a linear term in other variables. -/
structure BoundOk (x : String) (l : Formula) : Prop where
  lin : linTerm l = true
  free : (x, Ty.real) ∉ syms l

theorem BoundOk.value {x : String} {l : Formula} (h : BoundOk x l) (σ : Env ℝ) (t : ℝ) : value (σ.setR x t) l = value σ l := by
  refine value_congr (lin_wt h.lin) fun p hp => ?_
  obtain ⟨n, ty⟩ := p
  cases ty with
  | bool => rfl
  | real =>
    refine Env.setR_other σ t ?_
    rintro rfl
    exact h.free hp

/-- A linear form as the sum over its variables. -/
theorem polyEval_vars {q : Dict} (hn : KeysNodup q) (hl : ∀ p ∈ q, p.1.length ≤ 1) (ρ : String → ℝ) :
    polyEval ρ q = (linCoef q [] : ℝ) + ((linVars q).map fun y => (linCoef q [y] : ℝ) * ρ y).sum := by
  have key : ∀ q' : Dict, (∀ p ∈ q', p ∈ q) → ((linVars q').map fun y => (linCoef q [y] : ℝ) * ρ y).sum =
      polyEval ρ (q'.filter fun p => p.1 ≠ []) := by
    intro q'
    induction q' with
    | nil => intro _; simp [linVars]
    | cons p q' ih =>
      intro h
      have ih := ih fun p' hp' => h p' (by simp [hp'])
      have hp := h p (by simp)
      have h1 := hl p hp
      obtain ⟨k, v⟩ := p
      match k, h1 with
      | [], _ =>
        rw [List.filter_cons_of_neg (by simp), ← ih]
        simp [linVars]
      | [y], _ =>
        rw [List.filter_cons_of_pos (by simp), polyEval_cons, ← ih]
        have : linCoef q [y] = v := by rw [linCoef, lookup_of_mem hn hp]; rfl
        simp [linVars, this, monoEval]
  rw [key q fun _ h => h, polyEval_key ρ hn []]
  simp [monoEval]; ring

theorem linVars_nodup {q : Dict} (hn : KeysNodup q) (hl : ∀ p ∈ q, p.1.length ≤ 1) : (linVars q).Nodup := by
  induction q with
  | nil => simp [linVars]
  | cons p q ih =>
    simp only [KeysNodup, List.map_cons, List.nodup_cons] at hn
    have ih := ih hn.2 fun p' hp' => hl p' (by simp [hp'])
    have h1 := hl p (by simp)
    obtain ⟨k, v⟩ := p
    match k, h1 with
    | [], _ => simpa [linVars] using ih
    | [y], _ =>
      show (y :: linVars q).Nodup
      refine List.nodup_cons.mpr ⟨fun hy => ?_, ih⟩
      obtain ⟨p', hp', hy⟩ := List.mem_flatMap.mp hy
      have h2 := hl p' (by simp [hp'])
      obtain ⟨k', v'⟩ := p'
      match k', h2, hy with
      | [z], _, hy =>
        simp only [List.mem_singleton] at hy
        subst hy
        exact hn.1 (List.mem_map.mpr ⟨_, hp', rfl⟩)

theorem linVars_coef {q : Dict} (hn : KeysNodup q) (hz : ∀ p ∈ q, p.2 ≠ 0) (hl : ∀ p ∈ q, p.1.length ≤ 1) {y : String}
    (hy : y ∈ linVars q) : linCoef q [y] ≠ 0 := by
  obtain ⟨p', hp', hy⟩ := List.mem_flatMap.mp hy
  have h2 := hl p' hp'
  refine linCoef_ne_zero hn hz (List.mem_map.mpr ⟨p', hp', ?_⟩)
  obtain ⟨k', v'⟩ := p'
  match k', h2, hy with
  | [z], _, hy =>
    simp only [List.mem_singleton] at hy
    subst hy
    rfl

theorem boundSum_spec (q : Dict) (x : String) (ys : List String) :
    linTerm (boundSum q x ys) = true ∧ (∀ v ∈ syms (boundSum q x ys), v.2 = .real ∧ v.1 ∈ ys ∧ v.1 ≠ x) ∧
    ∀ σ : Env ℝ, value σ (boundSum q x ys) = -((linCoef q [] : ℝ) + (ys.map fun y => (linCoef q [y] : ℝ) * upd σ.r x 0 y).sum) := by
  have key : ∀ (ys : List String) (acc : Formula), linTerm acc = true →
      linTerm (ys.foldl (fun acc y => if y ≠ x then .plus [acc, .times [.sym y .real, .realC (-linCoef q [y])]] else acc) acc) = true ∧
      (∀ v ∈ syms (ys.foldl (fun acc y => if y ≠ x then .plus [acc, .times [.sym y .real, .realC (-linCoef q [y])]] else acc) acc),
        v ∈ syms acc ∨ (v.2 = .real ∧ v.1 ∈ ys ∧ v.1 ≠ x)) ∧
      ∀ σ : Env ℝ, value σ (ys.foldl (fun acc y => if y ≠ x then .plus [acc, .times [.sym y .real, .realC (-linCoef q [y])]] else acc) acc) =
        value σ acc - (ys.map fun y => (linCoef q [y] : ℝ) * upd σ.r x 0 y).sum := by
    intro ys
    induction ys with
    | nil => intro acc h; exact ⟨h, fun v hv => Or.inl hv, fun σ => by simp⟩
    | cons y ys ih =>
      intro acc h
      rw [List.foldl_cons]
      by_cases hy : y = x
      · simp only [hy, ne_eq, not_true_eq_false, if_false]
        obtain ⟨h1, h2, h3⟩ := ih acc h
        refine ⟨h1, fun v hv => (h2 v hv).imp id fun h => ⟨h.1, by simp [h.2.1], h.2.2⟩, fun σ => ?_⟩
        rw [h3]
        simp [upd]
      · simp only [ne_eq, hy, not_false_eq_true, if_true]
        obtain ⟨h1, h2, h3⟩ := ih (.plus [acc, .times [.sym y .real, .realC (-linCoef q [y])]])
          (by simp [linTerm, linTermAll, h, List.countP_cons, syms])
        refine ⟨h1, fun v hv => ?_, fun σ => ?_⟩
        · rcases h2 v hv with h | h
          · simp only [syms, symsList, List.mem_append, List.mem_singleton, List.not_mem_nil, or_false] at h
            rcases h with h | rfl
            · exact Or.inl h
            · exact Or.inr ⟨rfl, by simp, hy⟩
          · exact Or.inr ⟨h.1, by simp [h.2.1], h.2.2⟩
        · rw [h3]
          simp only [value, valueSum, valueProd, List.map_cons, List.sum_cons, upd, if_neg hy]
          push_cast; ring
  obtain ⟨h1, h2, h3⟩ := key ys (.realC (linB q)) rfl
  refine ⟨h1, fun v hv => ?_, fun σ => ?_⟩
  · rcases h2 v hv with h | h
    · simp [syms] at h
    · exact h
  · unfold boundSum
    rw [h3]
    simp only [value, linB]
    push_cast; ring

section
variable {E : Type} [DecidableEq E]

/-- SPEC: the order in which a set is iterated is a permutation. -/
def OrdLaw (ord : List String → List String) : Prop := ∀ ys, ys.Nodup → (ord ys).Perm ys

theorem operatorToBound_ok {C : RCtx E} (hs : SimpLaw C.X.simp) (ho : OrdLaw C.ord) {q : Dict} (hn : KeysNodup q)
    (hz : ∀ p ∈ q, p.2 ≠ 0) (hl : ∀ p ∈ q, p.1.length ≤ 1) {x : String} (hx : linCoef q [x] ≠ 0) :
    ∃ nb, operatorToBound C q x = .ok nb ∧ BoundOk x nb ∧ (∀ v ∈ syms nb, v.2 = .real ∧ linCoef q [v.1] ≠ 0) ∧
      ∀ (σ : Env ℝ) (t : ℝ), polyEval (upd σ.r x t) q = (linCoef q [x] : ℝ) * (t - value σ nb) := by
  have hp := ho (linVars q) (linVars_nodup hn hl)
  obtain ⟨h1, h2, h3⟩ := boundSum_spec q x (C.ord (linVars q))
  have hlt : linTerm (.times [boundSum q x (C.ord (linVars q)), .realC (1 / linCoef q [x])]) = true := by
    have hle : ∀ f : Formula, [f].countP (fun a => !(syms a).isEmpty) ≤ 1 := fun f => List.countP_le_length
    simp only [linTerm, linTermAll, h1, List.countP_cons, syms, List.countP_nil]
    simp
    split <;> omega
  refine ⟨_, by rw [operatorToBound, if_neg hx], ⟨hs.term _ hlt, fun h => ?_⟩, fun v hv => ?_, fun σ t => ?_⟩
  · have := hs.syms _ _ h
    simp only [syms, symsList, List.mem_append, List.not_mem_nil, or_false] at this
    exact (h2 _ this).2.2 rfl
  · have := hs.syms _ _ hv
    simp only [syms, symsList, List.mem_append, List.not_mem_nil, or_false] at this
    obtain ⟨h4, h5, -⟩ := h2 _ this
    exact ⟨h4, linVars_coef hn hz hl (hp.mem_iff.mp h5)⟩
  · have hx' : (linCoef q [x] : ℝ) ≠ 0 := by exact_mod_cast hx
    rw [hs.value _ (lin_wt hlt)]
    have e1 : polyEval (upd σ.r x t) q = polyEval (upd σ.r x 0) q + (linCoef q [x] : ℝ) * t := by
      have := polyEval_var (K := ℝ) hn hl x σ.r
      unfold upd
      rw [this t, this 0]; ring
    have e2 := polyEval_vars hn hl (upd σ.r x 0)
    have e3 : ((C.ord (linVars q)).map fun y => (linCoef q [y] : ℝ) * upd σ.r x 0 y).sum =
        ((linVars q).map fun y => (linCoef q [y] : ℝ) * upd σ.r x 0 y).sum := (hp.map _).sum_eq
    simp only [value, valueProd]
    rw [h3, e3, ← e2, e1]
    push_cast
    field_simp
    ring

/-- The bound of a test: below it one branch is taken, above it the other one. -/
theorem newBound {C : RCtx E} (hs : SimpLaw C.X.simp) (ho : OrdLaw C.ord) {q : Dict} (hq : CanonLin q) {g : Formula}
    (hg : linToSmt q = .ok g) {x : String} (hx : (x, Ty.real) ∈ syms g) :
    ∃ nb, operatorToBound C (if decide (0 < linCoef q [x]) = true then q else linInverted q) x = .ok nb ∧ BoundOk x nb ∧
      (∀ v ∈ syms nb, v ∈ syms g) ∧
      ∀ (σ : Env ℝ) (t : ℝ), (t < value σ nb → truth (σ.setR x t) g = decide (0 < linCoef q [x])) ∧
        (value σ nb < t → truth (σ.setR x t) g = !decide (0 < linCoef q [x])) := by
  have ht := (DecOk.truth_lin hq hg).2
  have hc := (DecOk.syms_lin hq hg _ hx).2
  by_cases hpos : 0 < linCoef q [x]
  · simp only [hpos, decide_true, if_true]
    obtain ⟨nb, h1, h2, h3, h4⟩ := operatorToBound_ok hs ho hq.nodup hq.nz hq.lin hc
    refine ⟨nb, h1, h2, fun v hv => ?_, fun σ t => ?_⟩
    · obtain ⟨h5, h6⟩ := h3 v hv
      have := DecOk.syms_mem hq hg v.1 h6
      rwa [← h5] at this
    · have hpos' : (0 : ℝ) < (linCoef q [x] : ℝ) := by exact_mod_cast hpos
      have e := ht (σ.setR x t)
      have h4' : polyEval (σ.setR x t).r q = (linCoef q [x] : ℝ) * (t - value σ nb) := h4 σ t
      rw [h4'] at e
      refine ⟨fun h => e.mpr (mul_neg_of_pos_of_neg hpos' (by linarith)), fun h => ?_⟩
      rw [Bool.not_true, ← Bool.not_eq_true, e]
      exact not_lt.mpr (mul_nonneg hpos'.le (by linarith))
  · simp only [hpos, decide_false, Bool.false_eq_true, if_false]
    have heq : linInverted q = q.map fun p => (p.1, -p.2) := by
      apply linMk_of_nonzero
      intro p hp
      obtain ⟨r, hr, rfl⟩ := List.mem_map.mp hp
      exact neg_ne_zero.mpr (hq.nz r hr)
    have hcm : ∀ k, linCoef (q.map fun p => (p.1, -p.2)) k = -linCoef q k := fun k =>
      linCoef_mapVal q (g := fun v => -v) (by simp) k
    have hn' : KeysNodup (q.map fun p => (p.1, -p.2)) := hq.nodup.mapVal _
    have hz' : ∀ p ∈ q.map (fun p => (p.1, -p.2)), p.2 ≠ 0 := by
      intro p hp; obtain ⟨r, hr, rfl⟩ := List.mem_map.mp hp; exact neg_ne_zero.mpr (hq.nz r hr)
    have hl' : ∀ p ∈ q.map (fun p => (p.1, -p.2)), p.1.length ≤ 1 := by
      intro p hp; obtain ⟨r, hr, rfl⟩ := List.mem_map.mp hp; exact hq.lin r hr
    obtain ⟨nb, h1, h2, h3, h4⟩ := operatorToBound_ok hs ho hn' hz' hl' (x := x) (by rw [hcm]; exact neg_ne_zero.mpr hc)
    rw [heq]
    refine ⟨nb, h1, h2, fun v hv => ?_, fun σ t => ?_⟩
    · obtain ⟨h5, h6⟩ := h3 v hv
      rw [hcm] at h6
      have := DecOk.syms_mem hq hg v.1 (by simpa using h6)
      rwa [← h5] at this
    · have hneg : (linCoef q [x] : ℝ) < 0 := by
        have : linCoef q [x] < 0 := lt_of_le_of_ne (not_lt.mp hpos) hc
        exact_mod_cast this
      have e := ht (σ.setR x t)
      have h4' : polyEval (σ.setR x t).r (q.map fun p => (p.1, -p.2)) = _ := h4 σ t
      rw [polyEval_neg, hcm] at h4'
      have h5 : polyEval (σ.setR x t).r q = (linCoef q [x] : ℝ) * (t - value σ nb) := by push_cast at h4'; linarith
      rw [h5] at e
      refine ⟨fun h => ?_, fun h => ?_⟩
      · rw [← Bool.not_eq_true, e]
        exact not_lt.mpr (by nlinarith)
      · rw [Bool.not_false, e]
        exact mul_neg_of_neg_of_pos hneg (by linarith)

/-- How the comparison of two bounds is read. -/
theorem simp_lt {simp : Formula → Formula} (hs : SimpLaw simp) {l r : Formula} (hl : linTerm l = true) (hr : linTerm r = true) :
    TestForm (simp (.lt l r)) ∧ (∀ v ∈ syms (simp (.lt l r)), v ∈ syms l ∨ v ∈ syms r) ∧
    ∀ σ : Env ℝ, (readTest σ (simp (.lt l r)) = true → value σ l ≤ value σ r) ∧
      (readTest σ (simp (.lt l r)) = false → value σ r ≤ value σ l) := by
  have hw : wt .bool (.lt l r) = true := by simp [wt, lin_wt hl, lin_wt hr]
  refine ⟨?_, fun v hv => by simpa [syms] using hs.syms _ v hv, fun σ => ?_⟩
  · rcases hs.cmp l r hl hr with ⟨b, hb⟩ | h
    · rw [hb]; exact .const b
    · rw [h]; exact .lt (hs.term l hl) (hs.term r hr)
  · rcases hs.cmp l r hl hr with ⟨b, hb⟩ | h
    · have := hs.truth _ hw σ
      rw [hb] at this ⊢
      simp only [truth, readTest] at this ⊢
      rw [this]
      simp only [decide_eq_true_eq, decide_eq_false_iff_not, not_lt]
      exact ⟨le_of_lt, id⟩
    · rw [h]
      obtain ⟨q, hq⟩ := linRead_cmp (hs.term l hl) (hs.term r hr) (Or.inr rfl)
      have := readTest_gap hq σ
      simp only [gap, hs.value _ (lin_wt hl), hs.value _ (lin_wt hr), sub_nonpos, sub_nonneg] at this
      exact this

end
end Pywmi
