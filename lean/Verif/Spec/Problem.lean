import Verif.Spec.Wmi
import Verif.Props.Sample

set_option linter.unusedSectionVars false
set_option linter.unusedSimpArgs false

/-!
# SPEC: weighted model integration problems over a domain
-/

namespace Pywmi
open Formula MeasureTheory

/-- SPEC: the Boolean variables of a domain, in order. -/
def Domain.bools (D : Domain) : List String := D.vars.filter fun v => D.varTypes.lookup v = some .bool
/-- SPEC: the real variables of a domain, in order. -/
def Domain.reals (D : Domain) : List String := D.vars.filter fun v => D.varTypes.lookup v = some .real

/-- SPEC: the assignment is inside the box of the domain. -/
def Domain.inBox (D : Domain) (σ : Env ℝ) : Prop := ∀ p ∈ D.varDomains, Domain.inBounds (σ.r p.1) p.2

/-- SPEC: the variables of a formula are variables of the domain, with the same types. -/
def Domain.covers (D : Domain) (f : Formula) : Prop := ∀ p ∈ syms f, p.1 ∈ D.vars ∧ D.varTypes.lookup p.1 = some p.2

/-- SPEC: a well-formed problem. -/
structure Problem (D : Domain) (support weight : Formula) : Prop where
  box : BoxOk D
  supportWt : wt .bool support = true
  weightWt : wt .real weight = true
  supportVars : D.covers support
  weightVars : D.covers weight

open Classical in
/-- SPEC: the function integrated, restricted to the box if `addBounds`. -/
noncomputable def Domain.restricted (D : Domain) (addBounds : Bool) (φ : Env ℝ → ℝ) (σ : Env ℝ) : ℝ :=
  if addBounds = true → D.inBox σ then φ σ else 0

/-- SPEC: the base assignment. -/
def env0 : Env ℝ := ⟨fun _ => false, fun _ => 0⟩

/-- SPEC: the volume of a problem. -/
noncomputable def Domain.volumeOf (D : Domain) (addBounds : Bool) (φ : Env ℝ → ℝ) : ℝ :=
  wmiOf D.bools D.reals (D.restricted addBounds φ) env0

/-- SPEC: the integrand vanishes outside the box, by itself or because the box is added. -/
def Domain.confined (D : Domain) (addBounds : Bool) (φ : Env ℝ → ℝ) : Prop :=
  addBounds = true ∨ ∀ σ, ¬ D.inBox σ → φ σ = 0

theorem inBox_meas (D : Domain) {Ω : Type} [MeasurableSpace Ω] (e : Ω → Env ℝ) (hr : ∀ n, Measurable fun ω => (e ω).r n) :
    MeasurableSet {ω | D.inBox (e ω)} := by
  have : {ω | D.inBox (e ω)} = ⋂ p ∈ D.varDomains, {ω | Domain.inBounds ((e ω).r p.1) p.2} := by
    ext ω; simp [Domain.inBox]
  rw [this]
  refine MeasurableSet.biInter (List.finite_toSet D.varDomains).countable fun p _ => ?_
  have : {ω | Domain.inBounds ((e ω).r p.1) p.2} =
      (match p.2.1 with | some l => {ω | (l : ℝ) ≤ (e ω).r p.1} | none => Set.univ) ∩
      (match p.2.2 with | some u => {ω | (e ω).r p.1 ≤ (u : ℝ)} | none => Set.univ) := by
    ext ω
    simp only [Domain.inBounds, Set.mem_inter_iff, Set.mem_ofPred_eq]
    cases p.2.1 <;> cases p.2.2 <;> simp
  rw [this]
  refine MeasurableSet.inter ?_ ?_
  · cases p.2.1 with
    | none => exact MeasurableSet.univ
    | some l => exact measurableSet_le measurable_const (hr _)
  · cases p.2.2 with
    | none => exact MeasurableSet.univ
    | some l => exact measurableSet_le (hr _) measurable_const

theorem restricted_meas (D : Domain) (ab : Bool) {φ : Env ℝ → ℝ} (h : EnvMeas φ) : EnvMeas (D.restricted ab φ) := by
  intro Ω _ e hr hb
  unfold Domain.restricted
  cases ab with
  | false => simpa using h e hr hb
  | true =>
    have hs : MeasurableSet {ω | true = true → D.inBox (e ω)} := by simpa using inBox_meas D e hr
    exact Measurable.ite hs (h e hr hb) measurable_const

theorem mem_reals {D : Domain} {v : String} : v ∈ D.reals ↔ v ∈ D.vars ∧ D.varTypes.lookup v = some .real := by
  simp [Domain.reals]
theorem mem_bools {D : Domain} {v : String} : v ∈ D.bools ↔ v ∈ D.vars ∧ D.varTypes.lookup v = some .bool := by
  simp [Domain.bools]

theorem setReals_mem {σ : Env ℝ} {rs : List String} {x : Fin rs.length → ℝ} {n : String} (h : n ∉ rs) :
    (σ.setReals rs x).r n = σ.r n := by
  simp [Env.setReals, List.idxOf_lt_length_iff, h]

theorem setReals_get {σ : Env ℝ} {rs : List String} (hnd : rs.Nodup) {x : Fin rs.length → ℝ} (i : Fin rs.length) :
    (σ.setReals rs x).r rs[i] = x i := by
  have : rs.idxOf rs[i.1] = i.1 := List.Nodup.idxOf_getElem hnd i i.2
  simp only [Env.setReals, Fin.getElem_fin, this, i.2, dif_pos]

/-- In a box all real variables are bounded. -/
theorem box_bounded {D : Domain} (hD : BoxOk D) : ∃ M, 0 ≤ M ∧ ∀ σ : Env ℝ, D.inBox σ → ∀ v ∈ D.reals, |σ.r v| ≤ M := by
  have key : ∀ ds : List (String × Bounds), (∀ p ∈ ds, ∃ l u, p.2 = (some l, some u)) →
      ∃ M : ℝ, 0 ≤ M ∧ ∀ σ : Env ℝ, (∀ p ∈ ds, Domain.inBounds (σ.r p.1) p.2) → ∀ p ∈ ds, |σ.r p.1| ≤ M := by
    intro ds
    induction ds with
    | nil => intro _; exact ⟨0, le_refl _, by simp⟩
    | cons p ds ih =>
      intro h
      obtain ⟨M, h0, hM⟩ := ih fun q hq => h q (by simp [hq])
      obtain ⟨l, u, hp⟩ := h p (by simp)
      refine ⟨max M (max |(l : ℝ)| |(u : ℝ)|), le_max_of_le_left h0, fun σ hσ q hq => ?_⟩
      rcases List.mem_cons.mp hq with rfl | hq
      · obtain ⟨a1, a2⟩ := hσ q (by simp)
        rw [hp] at a1 a2
        exact le_max_of_le_right (abs_le_max_abs_abs (a1 l rfl) (a2 u rfl))
      · exact le_max_of_le_left (hM σ (fun p hp => hσ p (by simp [hp])) q hq)
  obtain ⟨M, h0, hM⟩ := key D.varDomains fun p hp => by
    obtain ⟨l, u, h, _⟩ := hD.box p.1 p.2 (lookup_mem_nodup hD.wf.domNodup hp)
    exact ⟨l, u, h⟩
  refine ⟨M, h0, fun σ hσ v hv => ?_⟩
  have := (hD.wf.mem_real v).mpr hv
  obtain ⟨p, hp, rfl⟩ := List.mem_map.mp this
  exact hM σ hσ p hp

theorem reals_nodup {D : Domain} (hD : D.WF) : D.reals.Nodup := hD.nodup.filter _
theorem bools_nodup {D : Domain} (hD : D.WF) : D.bools.Nodup := hD.nodup.filter _

/-- A function bounded by a formula is tame on a box. -/
theorem tame_of_bound {D : Domain} (hD : BoxOk D) {ab : Bool} {φ : Env ℝ → ℝ} {w : Formula}
    (hc : D.confined ab φ) (hle : ∀ σ, |φ σ| ≤ |value σ w|) (β : String → Bool) :
    Tame D.reals (D.restricted ab φ) ⟨β, env0.r⟩ := by
  obtain ⟨M, h0, hM⟩ := box_bounded hD
  obtain ⟨C, hC⟩ := value_bounded w M
  have hzero : ∀ σ, ¬ D.inBox σ → D.restricted ab φ σ = 0 := by
    intro σ hσ
    unfold Domain.restricted
    split_ifs with h
    · rcases hc with hc | hc
      · exact absurd (h hc) hσ
      · exact hc σ hσ
    · rfl
  refine ⟨M, max C 0, fun x => ⟨?_, fun i hi => ?_⟩⟩
  · by_cases hb : D.inBox (Env.setReals ⟨β, env0.r⟩ D.reals x)
    · refine le_max_of_le_left ?_
      have hval : |value (Env.setReals ⟨β, env0.r⟩ D.reals x) w| ≤ C := by
        refine hC _ fun p hp => ?_
        by_cases hr : p.1 ∈ D.reals
        · exact hM _ hb _ hr
        · rw [setReals_mem hr]; simpa [env0] using h0
      unfold Domain.restricted
      split_ifs with h
      · exact (hle _).trans hval
      · simpa using (abs_nonneg _).trans hval
    · rw [hzero _ hb]; simp
  · refine hzero _ fun hb => ?_
    have := hM _ hb D.reals[i] (List.getElem_mem i.2)
    rw [setReals_get (reals_nodup hD.wf)] at this
    linarith

theorem density_le (S w : Formula) (σ : Env ℝ) : |density S w σ| ≤ |value σ w| := by
  unfold density; split_ifs <;> simp

end Pywmi
