import Verif.Xadd.Law
import Verif.Xadd.Resolve
import Verif.Spec.Wmi

set_option linter.unusedSectionVars false
set_option linter.unusedSimpArgs false

/-!
# Diagrams as functions of one real variable
-/

namespace Pywmi
open Formula MeasureTheory Set

/-- SPEC: the interval between the bounds, without its ends; a missing bound does not restrict. -/
def region (σ : Env ℝ) (ub lb : Option Formula) : Set ℝ := {t | (∀ l ∈ lb, value σ l < t) ∧ ∀ u ∈ ub, t < value σ u}

/-- SPEC: the function is zero outside of a bounded part of the set. -/
def Vanish (φ : ℝ → ℝ) (S : Set ℝ) : Prop := ∃ K, ∀ t ∈ S, K < |t| → φ t = 0

theorem Vanish.mono {φ ψ : ℝ → ℝ} {S S' : Set ℝ} (h : Vanish φ S) (hs : S' ⊆ S) (he : ∀ t ∈ S', ψ t = φ t) : Vanish ψ S' := by
  obtain ⟨K, hK⟩ := h
  exact ⟨K, fun t ht hk => (he t ht).trans (hK t (hs ht) hk)⟩

theorem region_measurable (σ : Env ℝ) (ub lb : Option Formula) : MeasurableSet (region σ ub lb) := by
  have h1 : MeasurableSet {t : ℝ | ∀ l ∈ lb, value σ l < t} := by
    cases lb with
    | none => simp
    | some l =>
      have : {t : ℝ | ∀ l' ∈ some l, value σ l' < t} = Ioi (value σ l) := by ext t; simp
      rw [this]; exact measurableSet_Ioi
  have h2 : MeasurableSet {t : ℝ | ∀ u ∈ ub, t < value σ u} := by
    cases ub with
    | none => simp
    | some l =>
      have : {t : ℝ | ∀ l' ∈ some l, t < value σ l'} = Iio (value σ l) := by ext t; simp
      rw [this]; exact measurableSet_Iio
  exact h1.inter h2

section
variable {E : Type} [DecidableEq E] {X : XCtx E} {ev : E → (String → ℝ) → ℝ}

/-- SPEC: the diagram as a function of one variable. -/
noncomputable def XTree.slice (ev : E → (String → ℝ) → ℝ) (T : XTree E) (σ : Env ℝ) (x : String) (t : ℝ) : ℝ := T.eval ev (σ.setR x t)

theorem XTree.eval_node (d : Decision) (A B : XTree E) (σ : Env ℝ) :
    (XTree.node d A B).eval ev σ = if truth σ d.test then A.eval ev σ else B.eval ev σ := by
  unfold XTree.eval
  rw [XTree.leafAt_node]
  split <;> rfl

theorem XTree.slice_node (d : Decision) (A B : XTree E) (σ : Env ℝ) (x : String) (t : ℝ) :
    (XTree.node d A B).slice ev σ x t = if truth (σ.setR x t) d.test then A.slice ev σ x t else B.slice ev σ x t :=
  XTree.eval_node d A B _

theorem upd_continuous (ρ : String → ℝ) (x : String) : Continuous fun t : ℝ => upd ρ x t := by
  refine continuous_pi fun y => ?_
  by_cases h : y = x
  · simp only [upd, h, if_true]; exact continuous_id
  · simp only [upd, h, if_false]; exact continuous_const

theorem DecOk.slice_meas {d : Decision} (h : DecOk d) (σ : Env ℝ) (x : String) :
    MeasurableSet {t : ℝ | truth (σ.setR x t) d.test = true} := by
  rcases h.2 with ⟨b, hb⟩ | ⟨q, -, hq, hg⟩
  · rw [hb]
    simp only [truth, Env.setR]
    exact MeasurableSet.const _
  · have h1 := (DecOk.truth_lin hq hg).2
    simp only [h1]
    exact (isOpen_lt ((polyEval_cont q).comp (upd_continuous σ.r x)) continuous_const).measurableSet

theorem XTree.slice_measurable (hb : BackLaw X.back ev) : ∀ {T : XTree E}, T.AllDec DecOk → ∀ (σ : Env ℝ) (x : String),
    Measurable (T.slice ev σ x)
  | .leaf e, _, σ, x => ((hb.cont e).comp (upd_continuous σ.r x)).measurable
  | .node d A B, h, σ, x => by
    have h1 := XTree.slice_measurable hb h.2.1 σ x
    have h2 := XTree.slice_measurable hb h.2.2 σ x
    have : (XTree.node d A B).slice ev σ x = fun t => if truth (σ.setR x t) d.test then A.slice ev σ x t else B.slice ev σ x t := by
      funext t; exact XTree.slice_node d A B σ x t
    rw [this]
    exact Measurable.ite (h.1.slice_meas σ x) h1 h2

theorem XTree.slice_bounded (hb : BackLaw X.back ev) (K : ℝ) : ∀ (T : XTree E) (σ : Env ℝ) (x : String),
    ∃ M, ∀ t, |t| ≤ K → ‖T.slice ev σ x t‖ ≤ M
  | .leaf e, σ, x => by
    obtain ⟨M, hM⟩ := isCompact_Icc.exists_bound_of_continuousOn (s := Icc (-K) K)
      (((hb.cont e).comp (upd_continuous σ.r x)).continuousOn)
    exact ⟨M, fun t ht => hM t (abs_le.mp ht)⟩
  | .node d A B, σ, x => by
    obtain ⟨M1, h1⟩ := XTree.slice_bounded hb K A σ x
    obtain ⟨M2, h2⟩ := XTree.slice_bounded hb K B σ x
    refine ⟨max M1 M2, fun t ht => ?_⟩
    rw [XTree.slice_node]
    split
    · exact (h1 t ht).trans (le_max_left _ _)
    · exact (h2 t ht).trans (le_max_right _ _)

/-- A diagram that vanishes far away is integrable. -/
theorem XTree.slice_integrable (hb : BackLaw X.back ev) {T : XTree E} (hT : T.AllDec DecOk) {σ : Env ℝ} {x : String} {S : Set ℝ}
    (hS : MeasurableSet S) (hv : Vanish (T.slice ev σ x) S) : IntegrableOn (T.slice ev σ x) S := by
  obtain ⟨K, hK⟩ := hv
  obtain ⟨M, hM⟩ := XTree.slice_bounded hb K T σ x
  have hfin : volume (S ∩ Icc (-K) K) < ⊤ := lt_of_le_of_lt (measure_mono inter_subset_right) (by simp)
  have h1 : IntegrableOn (T.slice ev σ x) (S ∩ Icc (-K) K) := by
    refine IntegrableOn.of_bound hfin (XTree.slice_measurable hb hT σ x).aestronglyMeasurable M ?_
    filter_upwards [ae_restrict_mem (hS.inter measurableSet_Icc)] with t ht
    exact hM t (abs_le.mpr ht.2)
  refine IntegrableOn.of_forall_sdiff_eq_zero h1 hS fun t ht => ?_
  apply hK t ht.1
  by_contra h
  push Not at h
  exact ht.2 ⟨ht.1, abs_le.mp h⟩

/-- A polynomial that vanishes far away on an unbounded region is zero. -/
theorem leaf_vanish (hb : BackLaw X.back ev) {e : E} {σ : Env ℝ} {x : String} {ub lb : Option Formula} (hn : ub = none ∨ lb = none)
    (hv : Vanish ((XTree.leaf e).slice ev σ x) (region σ ub lb)) : ∀ t, (XTree.leaf e).slice ev σ x t = 0 := by
  obtain ⟨P, hP⟩ := hb.poly e x σ.r
  have hs : ∀ t, (XTree.leaf e).slice ev σ x t = P.eval t := hP
  obtain ⟨K, hK⟩ := hv
  have hinf : {t : ℝ | P.eval t = 0}.Infinite := by
    rcases hn with rfl | rfl
    · refine (Ioi_infinite (max |K| (match lb with | some l => value σ l | none => 0))).mono fun t ht => ?_
      simp only [mem_Ioi, max_lt_iff] at ht
      rw [mem_ofPred_eq, ← hs]
      refine hK t ⟨fun l hl => ?_, by simp⟩ ?_
      · cases hl; exact ht.2
      · exact lt_of_le_of_lt (le_abs_self K) (lt_of_lt_of_le ht.1 (le_abs_self t))
    · refine (Iio_infinite (min (-|K|) (match ub with | some l => value σ l | none => 0))).mono fun t ht => ?_
      simp only [mem_Iio, lt_min_iff] at ht
      rw [mem_ofPred_eq, ← hs]
      refine hK t ⟨by simp, fun l hl => ?_⟩ ?_
      · cases hl; exact ht.2
      · have := neg_le_abs t
        have := le_abs_self K
        linarith
  have : P = 0 := Polynomial.eq_zero_of_infinite_isRoot P hinf
  intro t
  rw [hs, this]; simp

end
end Pywmi
