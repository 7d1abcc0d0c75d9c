import Verif.Math.LinLemmas

set_option linter.unusedSectionVars false
set_option linter.unusedSimpArgs false

/-!
# Input files of the LattE backend

Model of /repo/pywmi/engines/latte_backend.py:46-60 (row and monomial construction).  Writing the files
and reading the answer are in Engine/Convex.lean.
-/

namespace Pywmi
open Prog

/-- One row `[b] + [-a(v) for v in domain.real_vars]` (/repo/pywmi/engines/latte_backend.py:55, 57). -/
def latteRow (vars : List String) (bound : Dict) : Except PyErr (List ℚ) :=
  match linScaleToInteger bound with
  | .ok i => .ok (linB i :: vars.map fun v => -linCoef i [v])
  | .error e => .error e

/-- The list `b_geq_a` (/repo/pywmi/engines/latte_backend.py:52-57). -/
def latteRows (vars : List String) (bounds : List Dict) : Except PyErr (List (List ℚ)) :=
  mapE (latteRow vars) bounds

/-- `key_to_exponents` (/repo/pywmi/engines/latte_backend.py:46-48). -/
def latteExponents (vars : List String) (key : Mono) : List ℕ := vars.map fun v => key.count v

/-- The list `monomials` (/repo/pywmi/engines/latte_backend.py:59-60); `limit_denominator` is the identity. -/
def latteMonomials (vars : List String) (poly : Dict) : List (ℚ × List ℕ) :=
  poly.map fun p => (p.2, latteExponents vars p.1)

section
variable {K : Type} [Field K] [LinearOrder K] [IsStrictOrderedRing K]

theorem linCoef_cons (k : Mono) (v : ℚ) (d : Dict) (k' : Mono) :
    linCoef ((k, v) :: d) k' = if k' = k then v else linCoef d k' := by
  unfold linCoef
  simp only [List.lookup_cons]
  by_cases h : k' = k
  · simp [h]
  · simp [beq_eq_false_iff_ne.mpr h, h]

theorem linCoef_not_mem {d : Dict} {k : Mono} (h : k ∉ d.map (·.1)) : linCoef d k = 0 := by
  induction d with
  | nil => rfl
  | cons p d ih =>
    obtain ⟨k', v⟩ := p
    simp only [List.map_cons, List.mem_cons, not_or] at h
    rw [linCoef_cons, if_neg h.1, ih h.2]

theorem sum_update {vars : List String} (hn : vars.Nodup) {n : String} (hm : n ∈ vars) (c : K)
    (f : String → K) (hf : f n = 0) :
    (vars.map fun v => if v = n then c else f v).sum = c + (vars.map f).sum := by
  induction vars with
  | nil => cases hm
  | cons a vars ih =>
    simp only [List.nodup_cons] at hn
    simp only [List.map_cons, List.sum_cons]
    by_cases h : a = n
    · subst h
      have : (vars.map fun v => if v = a then c else f v) = vars.map f :=
        List.map_congr_left fun v hv => if_neg (by rintro rfl; exact hn.1 hv)
      rw [this, if_pos rfl, hf]; ring
    · have hm' : n ∈ vars := (List.mem_cons.mp hm).resolve_left (Ne.symm h)
      rw [if_neg h, ih hn.2 hm']; ring

/-- A linear form written out over a list of variables. -/
theorem polyEval_linear {d : Dict} (hk : ∀ p ∈ d, p.1.length ≤ 1) (hn : KeysNodup d) {vars : List String}
    (hv : vars.Nodup) (hs : ∀ n ∈ linVars d, n ∈ vars) (ρ : String → K) :
    polyEval ρ d = (linCoef d [] : K) + (vars.map fun v => (linCoef d [v] : K) * ρ v).sum := by
  induction d with
  | nil => simp [linCoef]
  | cons p d ih =>
    obtain ⟨k, v⟩ := p
    simp only [KeysNodup, List.map_cons, List.nodup_cons] at hn
    have ih' := ih (fun p hp => hk p (by simp [hp])) hn.2
      (fun n hm => hs n (by simp only [linVars, List.flatMap_cons, List.mem_append] at hm ⊢; exact Or.inr hm))
    rw [polyEval_cons, ih']
    have hlen := hk (k, v) (by simp)
    match k, hn, hlen, hs with
    | [], hn, _, _ =>
      rw [linCoef_cons, if_pos rfl, linCoef_not_mem hn.1]
      simp [linCoef_cons, monoEval]
    | [n], hn, _, hs =>
      have hn0 : linCoef d [n] = 0 := linCoef_not_mem hn.1
      have hmem : n ∈ vars := hs n (by simp [linVars])
      have := sum_update (K := K) hv hmem ((v : K) * ρ n) (fun w => (linCoef d [w] : K) * ρ w) (by simp [hn0])
      have heq : (vars.map fun w => ((linCoef (([n], v) :: d) [w] : ℚ) : K) * ρ w) =
          vars.map fun w => if w = n then (v : K) * ρ n else (linCoef d [w] : K) * ρ w := by
        apply List.map_congr_left
        intro w _
        rw [linCoef_cons]
        by_cases h : w = n
        · subst h; simp
        · simp [h]
      rw [heq, this, linCoef_cons]
      simp [monoEval]; ring

theorem monoEval_count {k : Mono} {vars : List String} (hv : vars.Nodup) (hs : ∀ n ∈ k, n ∈ vars)
    (ρ : String → K) : monoEval ρ k = (vars.map fun v => ρ v ^ k.count v).prod := by
  induction k with
  | nil => simp [monoEval]
  | cons n k ih =>
    have ih' := ih fun m hm => hs m (by simp [hm])
    have hn : n ∈ vars := hs n (by simp)
    have : monoEval ρ (n :: k) = ρ n * monoEval ρ k := by simp [monoEval]
    rw [this, ih']
    clear ih ih' this hs
    induction vars with
    | nil => cases hn
    | cons a vars ih =>
      simp only [List.nodup_cons] at hv
      simp only [List.map_cons, List.prod_cons, List.count_cons]
      by_cases h : a = n
      · subst h
        have : (vars.map fun v => ρ v ^ (k.count v + if a == v then 1 else 0)) = vars.map fun v => ρ v ^ k.count v :=
          List.map_congr_left fun v hvv => by
            have : ¬a = v := by rintro rfl; exact hv.1 hvv
            simp [this]
        rw [this]; simp [pow_succ]; ring
      · have hm : n ∈ vars := (List.mem_cons.mp hn).resolve_left (Ne.symm h)
        have := ih hv.2 hm
        simp only [List.count_cons] at this
        rw [← this]
        have h' : (n == a) = false := by simpa using Ne.symm h
        simp [h']; ring

end
end Pywmi
