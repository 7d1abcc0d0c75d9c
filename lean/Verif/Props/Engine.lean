import Verif.Engine.Engine
import Verif.Spec.Problem

set_option linter.unusedSectionVars false
set_option linter.unusedSimpArgs false

/-!
# C23 – C25: probabilities, evidence and constraints of an exact engine
-/

namespace Pywmi
open Formula Prog MeasureTheory

/-- SPEC: `compute_volume` of the engine class returns the weighted model integral. -/
def ExactVol (vol : EngineObj → Bool → Except PyErr ℝ) : Prop :=
  ∀ e w ab, e.weight = some w → Problem e.domain e.support w → e.domain.confined ab (density e.support w) →
    vol e ab = .ok (e.domain.volumeOf ab (density e.support w))

/-- SPEC: the density restricted to a query. -/
noncomputable def queryDensity (S w q : Formula) (σ : Env ℝ) : ℝ := if truth σ q then density S w σ else 0

theorem density_and (S w q : Formula) : density (.and [S, q]) w = queryDensity S w q := by
  funext σ
  simp only [density, queryDensity, truth, truthAll, Bool.and_true, Bool.and_eq_true]
  by_cases h1 : truth σ S = true <;> by_cases h2 : truth σ q = true <;> simp [h1, h2]

theorem restricted_congr {D : Domain} {ab : Bool} {φ ψ : Env ℝ → ℝ} (h : ∀ σ, (ab = true → D.inBox σ) → φ σ = ψ σ) :
    D.restricted ab φ = D.restricted ab ψ := by
  funext σ
  unfold Domain.restricted
  split_ifs with hb
  · exact h σ hb
  · rfl

theorem restricted_add (D : Domain) (ab : Bool) (φ ψ : Env ℝ → ℝ) :
    D.restricted ab (fun σ => φ σ + ψ σ) = fun σ => D.restricted ab φ σ + D.restricted ab ψ σ := by
  funext σ
  unfold Domain.restricted
  split_ifs <;> simp

/-- What the volume integrals need. -/
structure Integrand (D : Domain) (ab : Bool) (w : Formula) (φ : Env ℝ → ℝ) : Prop where
  meas : EnvMeas φ
  confined : D.confined ab φ
  le : ∀ σ, |φ σ| ≤ |value σ w|

theorem Integrand.tame {D : Domain} (hD : BoxOk D) {ab : Bool} {w : Formula} {φ : Env ℝ → ℝ} (h : Integrand D ab w φ)
    (β : String → Bool) : Tame D.reals (D.restricted ab φ) ⟨β, env0.r⟩ := tame_of_bound hD h.confined h.le β

theorem queryDensity_integrand {D : Domain} {ab : Bool} {S w : Formula} (hc : D.confined ab (density S w)) (q : Formula) :
    Integrand D ab w (queryDensity S w q) where
  meas := by
    rw [← density_and]; exact density_meas _ _
  confined := by
    rcases hc with h | h
    · exact .inl h
    · refine .inr fun σ hσ => ?_
      simp [queryDensity, h σ hσ]
  le σ := by
    unfold queryDensity
    split_ifs
    · exact density_le S w σ
    · simp

theorem volumeOf_add {D : Domain} (hD : BoxOk D) {ab : Bool} {w : Formula} {φ ψ : Env ℝ → ℝ}
    (h1 : Integrand D ab w φ) (h2 : Integrand D ab w ψ) :
    D.volumeOf ab (fun σ => φ σ + ψ σ) = D.volumeOf ab φ + D.volumeOf ab ψ := by
  simp only [Domain.volumeOf, restricted_add]
  exact wmiOf_add (restricted_meas D ab h1.meas) (restricted_meas D ab h2.meas) (h1.tame hD) (h2.tame hD)

theorem volumeOf_mono {D : Domain} (hD : BoxOk D) {ab : Bool} {w : Formula} {φ ψ : Env ℝ → ℝ}
    (h1 : Integrand D ab w φ) (h2 : Integrand D ab w ψ) (h : ∀ σ, (ab = true → D.inBox σ) → φ σ ≤ ψ σ) :
    D.volumeOf ab φ ≤ D.volumeOf ab ψ := by
  refine wmiOf_mono (restricted_meas D ab h1.meas) (restricted_meas D ab h2.meas) (h1.tame hD) (h2.tame hD) fun σ => ?_
  unfold Domain.restricted
  split_ifs with hb
  · exact h σ hb
  · exact le_refl _

theorem Problem.withConstraint {D : Domain} {S w q : Formula} (h : Problem D S w) (hq : wt .bool q = true) (hqs : D.covers q) :
    Problem D (.and [S, q]) w where
  box := h.box
  supportWt := by simp [wt, wtAll, h.supportWt, hq]
  weightWt := h.weightWt
  supportVars p hp := by
    simp only [syms, symsList, List.append_nil, List.mem_append] at hp
    exact hp.elim (h.supportVars p) (hqs p)
  weightVars := h.weightVars

theorem vol_query {vol : EngineObj → Bool → Except PyErr ℝ} (hv : ExactVol vol) {e : EngineObj} {w : Formula} {ab : Bool}
    (hw : e.weight = some w) (hp : Problem e.domain e.support w) (hc : e.domain.confined ab (density e.support w))
    {q : Formula} (hq : wt .bool q = true) (hqs : e.domain.covers q) :
    vol (e.withConstraint q) ab = .ok (e.domain.volumeOf ab (queryDensity e.support w q)) := by
  have := hv (e.withConstraint q) w ab hw (hp.withConstraint hq hqs)
    (by
      show e.domain.confined ab (density (.and [e.support, q]) w)
      rw [density_and]; exact (queryDensity_integrand hc q).confined)
  rw [this]
  show Except.ok (e.domain.volumeOf ab (density (.and [e.support, q]) w)) = _
  rw [density_and]

/-- **C23**: an exact engine with a non-negative weight answers None to every query when the total is not positive, and
otherwise the probabilities obey the laws of probability. -/
theorem probability_laws {vol : EngineObj → Bool → Except PyErr ℝ} (hv : ExactVol vol) {e : EngineObj} {w : Formula} {ab : Bool}
    (hw : e.weight = some w) (hp : Problem e.domain e.support w) (hc : e.domain.confined ab (density e.support w))
    (hpos : ∀ σ, (ab = true → e.domain.inBox σ) → 0 ≤ density e.support w σ) :
    (e.domain.volumeOf ab (density e.support w) ≤ 0 →
      ∀ qs, e.computeProbabilities vol qs ab = .ok (qs.map fun _ => none)) ∧
    (0 < e.domain.volumeOf ab (density e.support w) →
      ∃ P : Formula → ℝ,
        (∀ qs, (∀ q ∈ qs, wt .bool q = true ∧ e.domain.covers q) →
          e.computeProbabilities vol qs ab = .ok (qs.map fun q => some (P q))) ∧
        (∀ q, wt .bool q = true → e.domain.covers q → e.computeProbability vol q ab = .ok (some (P q))) ∧
        P (.boolC true) = 1 ∧
        (∀ q, 0 ≤ P q ∧ P q ≤ 1) ∧
        (∀ q, P q + P (.not q) = 1) ∧
        (∀ q r, P (.or [q, r]) + P (.and [q, r]) = P q + P r) ∧
        (∀ q r, (∀ σ, truth σ e.support = true → (ab = true → e.domain.inBox σ) → truth σ q = true → truth σ r = true) →
          P q ≤ P r)) := by
  have hvol := hv e w ab hw hp hc
  set D := e.domain with hD
  set S := e.support with hS
  constructor
  · intro h qs
    have hn : ¬ D.volumeOf ab (density S w) > 0 := not_lt.mpr h
    simp only [EngineObj.computeProbabilities, hvol, if_neg hn]
    induction qs with
    | nil => rfl
    | cons q qs ih => simp [mapE, ih]
  · intro h
    have hI := fun q => queryDensity_integrand (D := D) (S := S) hc q
    set V := D.volumeOf ab (density S w) with hV
    refine ⟨fun q => D.volumeOf ab (queryDensity S w q) / V, ?_, ?_, ?_, ?_, ?_, ?_, ?_⟩
    · intro qs hqs
      simp only [EngineObj.computeProbabilities, hvol]
      induction qs with
      | nil => rfl
      | cons q qs ih =>
        obtain ⟨h1, h2⟩ := hqs q (by simp)
        simp only [mapE, if_pos h, vol_query hv hw hp hc h1 h2, List.map_cons]
        have ih' := ih fun r hr => hqs r (by simp [hr])
        simp only [if_pos h] at ih'
        rw [ih']
    · intro q h1 h2
      simp only [EngineObj.computeProbability, EngineObj.computeProbabilities, hvol, mapE, if_pos h, vol_query hv hw hp hc h1 h2]
      rfl
    · have : queryDensity S w (.boolC true) = density S w := by funext σ; simp [queryDensity, truth]
      simp only [this]
      exact div_self h.ne'
    · intro q
      constructor
      · refine div_nonneg (wmiOf_nonneg fun σ => ?_) h.le
        unfold Domain.restricted
        split_ifs with hb
        · unfold queryDensity; split_ifs
          · exact hpos σ hb
          · exact le_refl _
        · exact le_refl _
      · rw [div_le_one h]
        have : queryDensity S w (.boolC true) = density S w := by funext σ; simp [queryDensity, truth]
        rw [hV, ← this]
        refine volumeOf_mono hp.box (hI q) (hI (.boolC true)) fun σ hb => ?_
        unfold queryDensity
        split_ifs with h1 h2
        · exact le_refl _
        · simp [truth] at h2
        · exact hpos σ hb
        · exact le_refl _
    · intro q
      rw [← add_div, ← volumeOf_add hp.box (hI q) (hI _)]
      have : (fun σ => queryDensity S w q σ + queryDensity S w (.not q) σ) = density S w := by
        funext σ
        simp only [queryDensity, truth]
        by_cases h : truth σ q = true <;> simp [h]
      rw [this, div_self h.ne']
    · intro q r
      simp only [← add_div]
      rw [← volumeOf_add hp.box (hI _) (hI _), ← volumeOf_add hp.box (hI q) (hI r)]
      congr 2
      funext σ
      simp only [queryDensity, truth, truthAll, truthAny]
      by_cases h : truth σ q = true <;> by_cases h' : truth σ r = true <;> simp [h, h']
    · intro q r hqr
      refine div_le_div_of_nonneg_right (volumeOf_mono hp.box (hI q) (hI r) fun σ hb => ?_) h.le
      unfold queryDensity
      split_ifs with h1 h2
      · exact le_refl _
      · unfold density
        split_ifs with h3
        · exact absurd (hqr σ h3 hb h1) h2
        · exact le_refl _
      · exact hpos σ hb
      · exact le_refl _

/-! ### C25 -/

/-- The region after a chain of constraints. -/
theorem constraints_region (cs : List Formula) : ∀ e : EngineObj, (cs.foldl EngineObj.withConstraint e).domain = e.domain ∧
    (cs.foldl EngineObj.withConstraint e).weight = e.weight ∧
    ∀ σ : Env ℝ, truth σ (cs.foldl EngineObj.withConstraint e).support = (truth σ e.support && cs.all (truth σ)) := by
  induction cs with
  | nil => intro e; simp
  | cons c cs ih =>
    intro e
    obtain ⟨h1, h2, h3⟩ := ih (e.withConstraint c)
    simp only [List.foldl_cons]
    refine ⟨by rw [h1]; rfl, by rw [h2]; rfl, fun σ => ?_⟩
    rw [h3]
    simp [EngineObj.withConstraint, EngineObj.copyWith, truth, truthAll, Bool.and_assoc]

theorem constraints_problem {D : Domain} {w : Formula} (cs : List Formula) (hcs : ∀ c ∈ cs, wt .bool c = true ∧ D.covers c) :
    ∀ e : EngineObj, e.domain = D → Problem D e.support w → Problem D (cs.foldl EngineObj.withConstraint e).support w := by
  induction cs with
  | nil => intro e _ h; exact h
  | cons c cs ih =>
    intro e he h
    obtain ⟨h1, h2⟩ := hcs c (by simp)
    exact ih (fun c hc => hcs c (by simp [hc])) (e.withConstraint c) he (h.withConstraint h1 h2)

/-- **C25**: for an exact engine, two sequences of constraints with the same members, in any order and with any
repetitions, give the same volume: that of the conjunction. -/
theorem constraints_volume {vol : EngineObj → Bool → Except PyErr ℝ} (hv : ExactVol vol) {e : EngineObj} {w : Formula} {ab : Bool}
    (hw : e.weight = some w) (hp : Problem e.domain e.support w) (hc : e.domain.confined ab (density e.support w))
    {cs cs' : List Formula} (hcs : ∀ c ∈ cs, wt .bool c = true ∧ e.domain.covers c) (hsame : ∀ c, c ∈ cs ↔ c ∈ cs') :
    vol (cs.foldl EngineObj.withConstraint e) ab =
      .ok (e.domain.volumeOf ab fun σ => if ∀ c ∈ cs, truth σ c = true then density e.support w σ else 0) ∧
    vol (cs'.foldl EngineObj.withConstraint e) ab = vol (cs.foldl EngineObj.withConstraint e) ab := by
  have key : ∀ ds : List Formula, (∀ c ∈ ds, wt .bool c = true ∧ e.domain.covers c) →
      vol (ds.foldl EngineObj.withConstraint e) ab =
        .ok (e.domain.volumeOf ab fun σ => if ∀ c ∈ ds, truth σ c = true then density e.support w σ else 0) := by
    intro ds hds
    obtain ⟨h1, h2, h3⟩ := constraints_region ds e
    have hden : density (ds.foldl EngineObj.withConstraint e).support w =
        fun σ => if ∀ c ∈ ds, truth σ c = true then density e.support w σ else 0 := by
      funext σ
      simp only [density, h3, Bool.and_eq_true, List.all_eq_true]
      by_cases ha : truth σ e.support = true <;> by_cases hb : ∀ c ∈ ds, truth σ c = true <;> simp [ha, hb]
    have := hv (ds.foldl EngineObj.withConstraint e) w ab (by rw [h2]; exact hw)
      (by rw [h1]; exact constraints_problem ds hds e rfl hp) (by
        rw [h1, hden]
        rcases hc with hc | hc
        · exact .inl hc
        · exact .inr fun σ hσ => by simp [hc σ hσ])
    rw [this, h1, hden]
  refine ⟨key cs hcs, ?_⟩
  rw [key cs hcs, key cs' fun c hc => hcs c ((hsame c).mpr hc)]
  simp only [hsame]

/-- **C25**: `add_bounds` is exactly the box constraint. -/
theorem add_bounds_volume {vol : EngineObj → Bool → Except PyErr ℝ} (hv : ExactVol vol) {e : EngineObj} {w : Formula}
    (hw : e.weight = some w) (hp : Problem e.domain e.support w) :
    ∃ b, e.domain.getBounds = .ok b ∧ vol (e.withConstraint b) false = vol e true := by
  have hty : ∀ p ∈ e.domain.varDomains, e.domain.varTypes.lookup p.1 = some .real := fun p hp' =>
    lookup_mem_nodup hp.box.wf.typesNodup ((hp.box.wf.doms p.1).mp (List.mem_map_of_mem hp'))
  obtain ⟨b, h1, h2, h3⟩ := Domain.getBounds_correct (K := ℝ) e.domain hty
  have hbs : e.domain.covers b := by
    have hlist : ∀ ds : List (String × Bounds), (∀ p ∈ ds, p.1 ∈ e.domain.vars ∧ e.domain.varTypes.lookup p.1 = some .real) →
        ∀ fs, e.domain.boundList ds = .ok fs → ∀ f ∈ fs, e.domain.covers f := by
      intro ds
      induction ds with
      | nil => intro _ fs hfs f hf; simp only [Domain.boundList, Except.ok.injEq] at hfs; subst hfs; simp at hf
      | cons p ds ih =>
        obtain ⟨v, lb, ub⟩ := p
        intro h fs hfs f hf
        obtain ⟨hv1, hv2⟩ := h (v, lb, ub) (by simp)
        simp only at hv1 hv2
        simp only [Domain.boundList, Domain.getSymbol, dictGet, hv2] at hfs
        cases hr : e.domain.boundList ds with
        | error err => rw [hr] at hfs; cases hfs
        | ok rest =>
          rw [hr] at hfs
          simp only [Except.ok.injEq] at hfs
          subst hfs
          simp only [List.mem_append] at hf
          rcases hf with hf | hf | hf
          · cases lb with
            | none => simp at hf
            | some l =>
              simp only [List.mem_singleton] at hf
              subst hf
              intro p hp; simp only [syms, List.nil_append, List.mem_singleton] at hp
              subst hp; exact ⟨hv1, hv2⟩
          · cases ub with
            | none => simp at hf
            | some l =>
              simp only [List.mem_singleton] at hf
              subst hf
              intro p hp; simp only [syms, List.append_nil, List.mem_singleton] at hp
              subst hp; exact ⟨hv1, hv2⟩
          · exact ih (fun p hp => h p (by simp [hp])) rest hr f hf
    have hvars : ∀ p ∈ e.domain.varDomains, p.1 ∈ e.domain.vars ∧ e.domain.varTypes.lookup p.1 = some .real := by
      intro p hp'
      refine ⟨?_, hty p hp'⟩
      exact (hp.box.wf.types p.1).mp (List.mem_map_of_mem (f := Prod.fst) (mem_of_dictGet (hty p hp')))
    simp only [Domain.getBounds] at h1
    cases hr : e.domain.boundList e.domain.varDomains with
    | error err => rw [hr] at h1; cases h1
    | ok fs =>
      rw [hr] at h1
      simp only [Except.ok.injEq] at h1
      subst h1
      have hf := hlist _ hvars fs hr
      intro p hp'
      match fs, hp', hf with
      | [], hp', _ => simp [mkAnd, syms] at hp'
      | [a], hp', hf => exact hf a (by simp) p (by simpa [mkAnd] using hp')
      | a :: a' :: fs, hp', hf =>
        obtain ⟨f, hf1, hf2⟩ := mem_symsList.mp (by simpa only [mkAnd, syms] using hp')
        exact hf f hf1 p hf2
  refine ⟨b, h1, ?_⟩
  have hq : density (.and [e.support, b]) w = queryDensity e.support w b := density_and _ _ _
  have hconf : e.domain.confined false (density (.and [e.support, b]) w) := by
    refine .inr fun σ hσ => ?_
    rw [hq, queryDensity, if_neg]
    intro ht; exact hσ ((h3 σ).mp ht)
  rw [hv (e.withConstraint b) w false hw (hp.withConstraint h2 hbs) hconf, hv e w true hw hp (.inl rfl)]
  show Except.ok (e.domain.volumeOf false (density (.and [e.support, b]) w)) = _
  rw [hq]
  unfold Domain.volumeOf
  congr 2
  funext σ
  unfold Domain.restricted queryDensity
  by_cases hb : e.domain.inBox σ
  · simp [hb, (h3 σ).mpr hb]
  · have : ¬ truth σ b = true := fun ht => hb ((h3 σ).mp ht)
    simp [hb, this]

/-! ### C24 -/

/-- SPEC: an assignment changed as the evidence says. -/
def Env.override {K : Type} (σ : Env K) (m : String → Option Bool) : Env K := { σ with b := fun n => (m n).getD (σ.b n) }

/-- SPEC: an assignment agrees with the evidence. -/
def Env.agrees {K : Type} (σ : Env K) (m : String → Option Bool) : Prop := ∀ n v, m n = some v → σ.b n = v

section
variable {K : Type} [Field K] [LinearOrder K] [IsStrictOrderedRing K]

theorem all_congr_mem {α : Type} {as : List α} {p q : α → Bool} (h : ∀ a ∈ as, p a = q a) : as.all p = as.all q := by
  induction as with
  | nil => rfl
  | cons a as ih => simp only [List.all_cons, h a (by simp), ih fun x hx => h x (by simp [hx])]
theorem any_congr_mem {α : Type} {as : List α} {p q : α → Bool} (h : ∀ a ∈ as, p a = q a) : as.any p = as.any q := by
  induction as with
  | nil => rfl
  | cons a as ih => simp only [List.any_cons, h a (by simp), ih fun x hx => h x (by simp [hx])]

theorem substBList_eq (m : String → Option Bool) (as : List Formula) : substBList m as = as.map (substB m) := by
  induction as with
  | nil => rfl
  | cons a as ih => simp [substBList, ih]

theorem substB_correct (m : String → Option Bool) (σ : Env K) (f : Formula) :
    (wt .bool f = true → truth σ (f.substB m) = truth (σ.override m) f) ∧
    (wt .real f = true → value σ (f.substB m) = value (σ.override m) f) := by
  induction f using Formula.induct with
  | and as ih =>
    refine ⟨fun h => ?_, fun h => by simp [wt] at h⟩
    simp only [wt, Bool.and_eq_true, wtAll_iff] at h
    simp only [substB, substBList_eq, truth, truthAll_eq, List.all_map]
    exact all_congr_mem fun a ha => (ih a ha).1 (h.2 a ha)
  | or as ih =>
    refine ⟨fun h => ?_, fun h => by simp [wt] at h⟩
    simp only [wt, Bool.and_eq_true, wtAll_iff] at h
    simp only [substB, substBList_eq, truth, truthAny_eq, List.any_map]
    exact any_congr_mem fun a ha => (ih a ha).1 (h.2 a ha)
  | implies l r hl hr =>
    refine ⟨fun h => ?_, fun h => by simp [wt] at h⟩
    simp only [wt, Bool.and_eq_true] at h
    simp only [substB, truth, hl.1 h.1, hr.1 h.2]
  | not a ha =>
    refine ⟨fun h => ?_, fun h => by simp [wt] at h⟩
    simp only [wt] at h
    simp only [substB, truth_mkNot, truth, ha.1 h]
  | times as ih =>
    refine ⟨fun h => by simp [wt] at h, fun h => ?_⟩
    simp only [wt, Bool.and_eq_true, wtAll_iff] at h
    simp only [substB, substBList_eq, value, valueProd_eq, List.map_map]
    congr 1
    exact List.map_congr_left fun a ha => (ih a ha).2 (h.2 a ha)
  | plus as ih =>
    refine ⟨fun h => by simp [wt] at h, fun h => ?_⟩
    simp only [wt, Bool.and_eq_true, wtAll_iff] at h
    simp only [substB, substBList_eq, value, valueSum_eq, List.map_map]
    congr 1
    exact List.map_congr_left fun a ha => (ih a ha).2 (h.2 a ha)
  | minus l r hl hr =>
    refine ⟨fun h => by simp [wt] at h, fun h => ?_⟩
    simp only [wt, Bool.and_eq_true] at h
    simp only [substB, value, hl.2 h.1, hr.2 h.2]
  | ite c t e hc ht he =>
    refine ⟨fun h => ?_, fun h => ?_⟩
    · simp only [wt, Bool.and_eq_true] at h
      simp only [substB, truth, hc.1 h.1.1, ht.1 h.1.2, he.1 h.2]
    · simp only [wt, Bool.and_eq_true] at h
      simp only [substB, value, hc.1 h.1.1, ht.2 h.1.2, he.2 h.2]
  | pow b e hb he =>
    refine ⟨fun h => by simp [wt] at h, fun h => ?_⟩
    cases e with
    | realC q =>
      simp only [wt, Bool.and_eq_true] at h
      simp only [substB, value, hb.2 h.1]
    | _ => simp [wt] at h
  | le l r hl hr =>
    refine ⟨fun h => ?_, fun h => by simp [wt] at h⟩
    simp only [wt, Bool.and_eq_true] at h
    simp only [substB, truth, hl.2 h.1, hr.2 h.2]
  | lt l r hl hr =>
    refine ⟨fun h => ?_, fun h => by simp [wt] at h⟩
    simp only [wt, Bool.and_eq_true] at h
    simp only [substB, truth, hl.2 h.1, hr.2 h.2]
  | equals l r hl hr =>
    refine ⟨fun h => ?_, fun h => by simp [wt] at h⟩
    simp only [wt, Bool.and_eq_true] at h
    simp only [substB, truth, hl.2 h.1, hr.2 h.2]
  | iff l r hl hr =>
    refine ⟨fun h => ?_, fun h => by simp [wt] at h⟩
    simp only [wt, Bool.and_eq_true] at h
    simp only [substB, truth, hl.1 h.1, hr.1 h.2]
  | sym n t =>
    cases t with
    | bool =>
      refine ⟨fun _ => ?_, fun h => by simp [wt] at h⟩
      simp only [substB]
      cases hm : m n <;> simp [truth, Env.override, hm]
    | real => exact ⟨fun h => by simp [wt] at h, fun _ => by simp [substB, value, Env.override]⟩
  | boolC b => exact ⟨fun _ => by simp [substB, truth], fun h => by simp [wt] at h⟩
  | realC q => exact ⟨fun h => by simp [wt] at h, fun _ => by simp [substB, value]⟩

end

theorem substB_wt (m : String → Option Bool) (f : Formula) : ∀ ty, wt ty f = true → wt ty (f.substB m) = true := by
  have hl : ∀ (ty : Ty) (as : List Formula), (∀ a ∈ as, ∀ ty, wt ty a = true → wt ty (a.substB m) = true) →
      (!as.isEmpty && wtAll ty as) = true → (!(substBList m as).isEmpty && wtAll ty (substBList m as)) = true := by
    intro ty as ih h
    rw [substBList_eq]
    simp only [Bool.and_eq_true, wtAll_iff, List.isEmpty_map, List.mem_map, forall_exists_index, and_imp,
      forall_apply_eq_imp_iff₂] at h ⊢
    exact ⟨h.1, fun a ha => ih a ha ty (h.2 a ha)⟩
  induction f using Formula.induct with
  | and as ih => intro ty h; cases ty <;> simp only [wt, substB] at h ⊢ <;> first | exact hl _ as ih h | simp at h
  | or as ih => intro ty h; cases ty <;> simp only [wt, substB] at h ⊢ <;> first | exact hl _ as ih h | simp at h
  | times as ih => intro ty h; cases ty <;> simp only [wt, substB] at h ⊢ <;> first | exact hl _ as ih h | simp at h
  | plus as ih => intro ty h; cases ty <;> simp only [wt, substB] at h ⊢ <;> first | exact hl _ as ih h | simp at h
  | not a ha =>
    intro ty h
    cases ty with
    | bool => exact wt_mkNot (ha _ (by simpa [wt] using h))
    | real => simp [wt] at h
  | ite c t e hc ht he =>
    intro ty h
    simp only [wt, Bool.and_eq_true, substB] at h ⊢
    exact ⟨⟨hc _ h.1.1, ht _ h.1.2⟩, he _ h.2⟩
  | pow b e hb he =>
    intro ty h
    cases ty with
    | bool => simp [wt] at h
    | real =>
      cases e with
      | realC q =>
        simp only [wt, Bool.and_eq_true, substB] at h ⊢
        exact ⟨hb _ h.1, h.2⟩
      | _ => simp [wt] at h
  | sym n t =>
    intro ty h
    cases t with
    | bool =>
      cases ty with
      | bool => simp only [substB]; cases m n <;> simp [wt]
      | real => simp [wt] at h
    | real => exact h
  | boolC b => intro ty h; exact h
  | realC q => intro ty h; exact h
  | _ l r hl' hr' =>
    intro ty h
    cases ty <;> simp only [wt, Bool.and_eq_true, substB] at h ⊢ <;> first | exact ⟨hl' _ h.1, hr' _ h.2⟩ | simp at h

theorem substB_syms (m : String → Option Bool) (f : Formula) :
    ∀ p ∈ syms (f.substB m), p ∈ syms f ∧ (p.2 = .bool → m p.1 = none) := by
  have hl : ∀ as : List Formula, (∀ a ∈ as, ∀ p ∈ syms (a.substB m), p ∈ syms a ∧ (p.2 = .bool → m p.1 = none)) →
      ∀ p ∈ symsList (substBList m as), p ∈ symsList as ∧ (p.2 = .bool → m p.1 = none) := by
    intro as ih p hp
    rw [substBList_eq, mem_symsList] at hp
    obtain ⟨b, hb, hp⟩ := hp
    obtain ⟨a, ha, rfl⟩ := List.mem_map.mp hb
    obtain ⟨h1, h2⟩ := ih a ha p hp
    exact ⟨mem_symsList.mpr ⟨a, ha, h1⟩, h2⟩
  induction f using Formula.induct with
  | and as ih => simpa only [substB, syms] using hl as ih
  | or as ih => simpa only [substB, syms] using hl as ih
  | times as ih => simpa only [substB, syms] using hl as ih
  | plus as ih => simpa only [substB, syms] using hl as ih
  | not a ha => simpa only [substB, syms, syms_mkNot] using ha
  | ite c t e hc ht he =>
    intro p hp
    simp only [substB, syms, List.mem_append] at hp ⊢
    rcases hp with h | h | h
    · exact ⟨.inl (hc p h).1, (hc p h).2⟩
    · exact ⟨.inr (.inl (ht p h).1), (ht p h).2⟩
    · exact ⟨.inr (.inr (he p h).1), (he p h).2⟩
  | sym n t =>
    intro p hp
    cases t with
    | bool =>
      simp only [substB] at hp
      cases hm : m n with
      | some v => simp [hm, syms] at hp
      | none =>
        simp only [hm, syms, List.mem_singleton] at hp
        subst hp
        exact ⟨by simp [syms], fun _ => hm⟩
    | real =>
      simp only [substB, syms, List.mem_singleton] at hp
      subst hp
      exact ⟨by simp [syms], fun h => by cases h⟩
  | boolC b => intro p hp; simp [substB, syms] at hp
  | realC q => intro p hp; simp [substB, syms] at hp
  | _ l r hl' hr' =>
    intro p hp
    simp only [substB, syms, List.mem_append] at hp ⊢
    rcases hp with h | h
    · exact ⟨.inl (hl' p h).1, (hl' p h).2⟩
    · exact ⟨.inr (hr' p h).1, (hr' p h).2⟩

theorem setB_comm (σ : Env ℝ) {a b : String} (h : a ≠ b) (v u : Bool) : (σ.setB a v).setB b u = (σ.setB b u).setB a v := by
  simp only [Env.setB, Env.mk.injEq, and_true]
  funext n
  by_cases h1 : n = a <;> by_cases h2 : n = b <;> simp [h1, h2, h, Ne.symm h]

theorem sumBools_ignore {bs : List String} {ψ : Env ℝ → ℝ} {b : String} (hb : b ∉ bs) (h : ∀ σ v, ψ (σ.setB b v) = ψ σ)
    (σ : Env ℝ) (v : Bool) : sumBools bs ψ (σ.setB b v) = sumBools bs ψ σ := by
  induction bs generalizing σ with
  | nil => exact h σ v
  | cons c bs ih =>
    have hne : b ≠ c := fun e => hb (by simp [e])
    have hb' : b ∉ bs := fun e => hb (by simp [e])
    simp only [sumBools]
    rw [setB_comm σ hne, setB_comm σ hne, ih hb', ih hb']

open Classical in
theorem sumBools_conflict {m : String → Option Bool} {b : String} {v : Bool} (hm : m b = some v) {φ : Env ℝ → ℝ} {bs : List String}
    (hb : b ∉ bs) {σ : Env ℝ} (hσ : σ.b b ≠ v) : sumBools bs (fun σ => if σ.agrees m then φ σ else 0) σ = 0 := by
  induction bs generalizing σ with
  | nil =>
    simp only [sumBools]
    rw [if_neg fun h => hσ (h b v hm)]
  | cons c bs ih =>
    have hne : b ≠ c := fun e => hb (by simp [e])
    have hb' : b ∉ bs := fun e => hb (by simp [e])
    simp only [sumBools]
    rw [ih hb' (by rwa [Env.setB_other _ _ hne]), ih hb' (by rwa [Env.setB_other _ _ hne]), add_zero]

open Classical in
/-- Summing over all Booleans the terms that agree with the evidence = summing over the others with the evidence
filled in. -/
theorem sumBools_evidence (m : String → Option Bool) (φ : Env ℝ → ℝ) {bs : List String} (hnd : bs.Nodup) :
    ∀ σ : Env ℝ, (∀ n v, m n = some v → n ∉ bs → σ.b n = v) →
    sumBools bs (fun σ => if σ.agrees m then φ σ else 0) σ =
      sumBools (bs.filter fun b => m b = none) (fun σ => φ (σ.override m)) σ := by
  induction bs with
  | nil =>
    intro σ h
    have ha : σ.agrees m := fun n v hn => h n v hn (by simp)
    have ho : σ.override m = σ := by
      simp only [Env.override]
      congr 1
      funext n
      cases hn : m n with
      | none => rfl
      | some v => exact (ha n v hn).symm
    simp [sumBools, ha, ho]
  | cons b bs ih =>
    intro σ h
    obtain ⟨hb, hnd⟩ := List.nodup_cons.mp hnd
    have ih := ih hnd
    cases hm : m b with
    | none =>
      rw [List.filter_cons_of_pos (by simp [hm])]
      simp only [sumBools]
      have hside : ∀ u, ∀ n v, m n = some v → n ∉ bs → (σ.setB b u).b n = v := by
        intro u n v hn hnb
        have hne : n ≠ b := fun e => by rw [e, hm] at hn; cases hn
        rw [Env.setB_other _ _ hne]
        exact h n v hn (by simp [hne, hnb])
      rw [ih _ (hside true), ih _ (hside false)]
    | some v =>
      rw [List.filter_cons_of_neg (by simp [hm])]
      simp only [sumBools]
      have hgood : ∀ n u, m n = some u → n ∉ bs → (σ.setB b v).b n = u := by
        intro n u hn hnb
        by_cases hne : n = b
        · subst hne; rw [hm] at hn; simp only [Option.some.injEq] at hn; simp [hn]
        · rw [Env.setB_other _ _ hne]; exact h n u hn (by simp [hne, hnb])
      have hover : ∀ (σ : Env ℝ) u, φ ((σ.setB b u).override m) = φ (σ.override m) := by
        intro σ u
        congr 1
        simp only [Env.override, Env.setB, Env.mk.injEq, and_true]
        funext n
        by_cases hne : n = b
        · subst hne; simp [hm]
        · simp [hne]
      have hnf : b ∉ bs.filter fun b => m b = none := fun h => hb (List.mem_filter.mp h).1
      cases v with
      | true =>
        rw [sumBools_conflict hm hb (σ := σ.setB b false) (by simp), add_zero, ih _ hgood,
          sumBools_ignore (ψ := fun σ => φ (σ.override m)) hnf hover]
      | false =>
        rw [sumBools_conflict hm hb (σ := σ.setB b true) (by simp), zero_add, ih _ hgood,
          sumBools_ignore (ψ := fun σ => φ (σ.override m)) hnf hover]

/-- What is assumed about pysmt's `simplify` on numbers: it keeps the value, the type and adds no variables. -/
structure SimpReal (simp : Formula → Formula) : Prop where
  value : ∀ (σ : Env ℝ) f, wt .real f = true → value σ (simp f) = value σ f
  wt : ∀ f, wt .real f = true → wt .real (simp f) = true
  syms : ∀ f, ∀ p ∈ syms (simp f), p ∈ syms f

/-- The evidence dictionary as pysmt terms. -/
def evidenceOf (ev : List (String × Bool)) : List (Formula × Formula) := ev.map fun p => (.sym p.1 .bool, .boolC p.2)

theorem mapE_evidence (ev : List (String × Bool)) : mapE EngineObj.evidenceItem (evidenceOf ev) = .ok ev := by
  induction ev with
  | nil => rfl
  | cons p ev ih =>
    simp only [evidenceOf, List.map_cons] at ih ⊢
    simp [mapE, EngineObj.evidenceItem, ih]

theorem mapE_types {D : Domain} (vs : List String) (h : ∀ v ∈ vs, ∃ t, D.varTypes.lookup v = some t) :
    ∃ ts, mapE (EngineObj.typeItem D) vs = .ok ts ∧
      ts.map (·.1) = vs ∧ ∀ v ∈ vs, ts.lookup v = D.varTypes.lookup v := by
  induction vs with
  | nil => exact ⟨[], rfl, rfl, by simp⟩
  | cons v vs ih =>
    obtain ⟨ts, h1, h2, h3⟩ := ih fun w hw => h w (by simp [hw])
    obtain ⟨t, ht⟩ := h v (by simp)
    refine ⟨(v, t) :: ts, ?_, by simp [h2], ?_⟩
    · simp only [mapE, EngineObj.typeItem, dictGet, ht, h1]
    · intro w hw
      by_cases hwv : w = v
      · subst hwv; simp [ht]
      · have : (w == v) = false := beq_eq_false_iff_ne.mpr hwv
        simp only [List.lookup_cons, this]
        exact h3 w (by simpa [hwv] using hw)

open Classical in
/-- **C24**: evidence on Boolean variables of the domain gives an engine over the remaining variables, again a
well-formed problem, whose volume is the volume of the original problem with the evidence as a constraint. -/
theorem withEvidence_correct {simp : Formula → Formula} (hsimp : SimpReal simp) {e : EngineObj} {w : Formula}
    (hw : e.weight = some w) (hp : Problem e.domain e.support w) {ev : List (String × Bool)} (hnd : (ev.map (·.1)).Nodup)
    (hev : ∀ p ∈ ev, p.1 ∈ e.domain.bools) :
    ∃ e' w', e.withEvidence simp (evidenceOf ev) = .ok e' ∧ e'.weight = some w' ∧
      e'.domain.vars = e.domain.vars.filter (fun v => v ∉ ev.map (·.1)) ∧
      e'.domain.reals = e.domain.reals ∧ e'.domain.varDomains = e.domain.varDomains ∧
      Problem e'.domain e'.support w' ∧
      ∀ ab, e'.domain.volumeOf ab (density e'.support w') =
        e.domain.volumeOf ab fun σ => if ∀ p ∈ ev, σ.b p.1 = p.2 then density e.support w σ else 0 := by
  obtain ⟨ts, t1, t2, t3⟩ := mapE_types (D := e.domain) (e.domain.vars.filter fun v => decide (v ∉ ev.map (·.1))) fun v hv =>
    lookup_of_key ((hp.box.wf.types v).mpr (List.mem_filter.mp hv).1)
  set m : String → Option Bool := fun n => ev.lookup n with hm
  set vs := e.domain.vars.filter fun v => decide (v ∉ ev.map (·.1)) with hvs
  have hmnone : ∀ n, m n = none ↔ n ∉ ev.map (·.1) := by
    intro n
    constructor
    · intro h hn
      obtain ⟨v, hv⟩ := lookup_of_key hn
      simp only [hm] at h; rw [h] at hv; cases hv
    · exact lookup_none_of_key
  have hagree : ∀ σ : Env ℝ, σ.agrees m ↔ ∀ p ∈ ev, σ.b p.1 = p.2 := by
    intro σ
    constructor
    · intro h p hpe; exact h p.1 p.2 (lookup_mem_nodup hnd hpe)
    · intro h n v hn; exact h (n, v) (mem_of_dictGet hn)
  have hvnd : vs.Nodup := hp.box.wf.nodup.filter _
  have htl : ∀ v t, (v, t) ∈ ts ↔ v ∈ vs ∧ e.domain.varTypes.lookup v = some t := by
    intro v t
    constructor
    · intro h
      have hv : v ∈ vs := by rw [← t2]; exact List.mem_map_of_mem (f := Prod.fst) h
      refine ⟨hv, ?_⟩
      rw [← t3 v hv]
      exact lookup_mem_nodup (by rw [t2]; exact hvnd) h
    · rintro ⟨hv, h⟩
      rw [← t3 v hv] at h
      exact mem_of_dictGet h
  have hrealkeep : ∀ v, v ∈ e.domain.vars → e.domain.varTypes.lookup v = some .real → v ∈ vs := by
    intro v hv ht
    rw [hvs, List.mem_filter]
    refine ⟨hv, ?_⟩
    simp only [decide_eq_true_eq]
    intro hin
    obtain ⟨p, hpe, rfl⟩ := List.mem_map.mp hin
    have := (mem_bools.mp (hev p hpe)).2
    rw [ht] at this; cases this
  set D' : Domain := ⟨vs, ts, e.domain.varDomains⟩ with hD'
  have hreals : D'.reals = e.domain.reals := by
    simp only [Domain.reals, hD', hvs, List.filter_filter]
    refine List.filter_congr fun v hv => ?_
    by_cases hin : v ∈ ev.map (·.1)
    · obtain ⟨p, hpe, rfl⟩ := List.mem_map.mp hin
      have hb := (mem_bools.mp (hev p hpe)).2
      have h1 : decide (p.1 ∉ ev.map (·.1)) = false := decide_eq_false fun h => h hin
      rw [h1, hb]; simp
    · have h1 : decide (v ∉ ev.map (·.1)) = true := decide_eq_true hin
      have hv' : v ∈ vs := by rw [hvs, List.mem_filter]; exact ⟨hv, h1⟩
      rw [t3 v hv', h1, Bool.and_true]
  have hbools : D'.bools = e.domain.bools.filter fun b => m b = none := by
    simp only [Domain.bools, hD', hvs, List.filter_filter]
    refine List.filter_congr fun v hv => ?_
    by_cases hin : v ∈ ev.map (·.1)
    · have : m v ≠ none := fun h => (hmnone v).mp h hin
      have h1 : decide (v ∉ ev.map (·.1)) = false := decide_eq_false fun h => h hin
      rw [h1]; simp [this]
    · have hv' : v ∈ vs := by rw [hvs, List.mem_filter]; exact ⟨hv, by simpa using hin⟩
      have h1 : decide (v ∉ ev.map (·.1)) = true := by simpa using hin
      rw [t3 v hv', h1]
      simp [(hmnone v).mpr hin]
  have hwf : D'.WF := by
    refine ⟨hvnd, by rw [hD']; simp only; rw [t2]; exact hvnd, ?_, hp.box.wf.domNodup, ?_⟩
    · intro v; simp only [hD', t2]
    · intro v
      simp only [hD']
      rw [hp.box.wf.doms, htl]
      constructor
      · intro h
        have hl := lookup_mem_nodup hp.box.wf.typesNodup h
        exact ⟨hrealkeep v ((hp.box.wf.types v).mp (List.mem_map_of_mem (f := Prod.fst) h)) hl, hl⟩
      · rintro ⟨_, h⟩; exact mem_of_dictGet h
  have hcov : ∀ f, e.domain.covers f → D'.covers (f.substB m) := by
    intro f hf p hp'
    obtain ⟨h1, h2⟩ := substB_syms m f p hp'
    obtain ⟨h3, h4⟩ := hf p h1
    have hv : p.1 ∈ vs := by
      cases ht : p.2 with
      | real => exact hrealkeep p.1 h3 (by rw [h4, ht])
      | bool =>
        rw [hvs, List.mem_filter]
        exact ⟨h3, by simpa using (hmnone p.1).mp (h2 ht)⟩
    exact ⟨hv, by simp only [hD']; rw [t3 p.1 hv, h4]⟩
  refine ⟨⟨D', e.support.substB m, some (simp (w.substB m))⟩, simp (w.substB m), ?_, rfl, rfl, hreals, rfl, ?_, ?_⟩
  · simp only [EngineObj.withEvidence, mapE_evidence, ← hvs]
    rw [t1]
    simp only [hw, ← hm, ← hD']
  · exact ⟨⟨hwf, hp.box.box⟩, substB_wt m _ _ hp.supportWt, hsimp.wt _ (substB_wt m _ _ hp.weightWt), hcov _ hp.supportVars,
      fun p hp' => hcov w hp.weightVars p (hsimp.syms _ p hp')⟩
  · intro ab
    have hden : density (e.support.substB m) (simp (w.substB m)) = fun σ => density e.support w (σ.override m) := by
      funext σ
      simp only [density, (substB_correct m σ e.support).1 hp.supportWt, hsimp.value σ _ (substB_wt m _ _ hp.weightWt),
        (substB_correct m σ w).2 hp.weightWt]
    have hbox : ∀ σ, D'.inBox σ ↔ e.domain.inBox σ := fun σ => Iff.rfl
    show wmiOf D'.bools D'.reals (D'.restricted ab (density (e.support.substB m) (simp (w.substB m)))) env0 = _
    rw [hden, hbools, hreals]
    unfold Domain.volumeOf wmiOf
    have hside : ∀ n v, m n = some v → n ∉ e.domain.bools → env0.b n = v := fun n v hn hnb =>
      absurd (hev (n, v) (mem_of_dictGet hn)) hnb
    have key := sumBools_evidence m (intReals e.domain.reals (e.domain.restricted ab (density e.support w)))
      (bools_nodup hp.box.wf) env0 hside
    have hl : (intReals e.domain.reals (D'.restricted ab fun σ => density e.support w (σ.override m))) =
        fun σ => intReals e.domain.reals (e.domain.restricted ab (density e.support w)) (σ.override m) := by
      funext σ
      simp only [intReals]
      refine integral_congr_ae ?_
      filter_upwards with x
      rfl
    rw [hl, ← key]
    congr 1
    funext σ
    simp only [intReals]
    by_cases ha : σ.agrees m
    · rw [if_pos ha]
      refine integral_congr_ae ?_
      filter_upwards with x
      have : ∀ p ∈ ev, (σ.setReals e.domain.reals x).b p.1 = p.2 := (hagree σ).mp ha
      simp only [Domain.restricted]
      rw [if_pos this]
    · rw [if_neg ha]
      rw [integral_congr_ae (g := fun _ => 0), integral_zero]
      filter_upwards with x
      have : ¬ ∀ p ∈ ev, (σ.setReals e.domain.reals x).b p.1 = p.2 := fun h => ha ((hagree σ).mpr h)
      simp only [Domain.restricted]
      rw [if_neg this, ite_self]

/-- **C24**: the order in which the evidence is given does not matter. -/
theorem withEvidence_order (simp : Formula → Formula) (e : EngineObj) {ev ev' : List (String × Bool)}
    (hnd : (ev.map (·.1)).Nodup) (hperm : ev.Perm ev') :
    e.withEvidence simp (evidenceOf ev) = e.withEvidence simp (evidenceOf ev') := by
  have hnd' : (ev'.map (·.1)).Nodup := (hperm.map _).nodup_iff.mp hnd
  have hm : (fun n => ev.lookup n) = fun n => ev'.lookup n := by
    funext n
    cases h : ev.lookup n with
    | some v => exact (lookup_mem_nodup hnd' (hperm.mem_iff.mp (mem_of_dictGet h))).symm
    | none =>
      cases h' : ev'.lookup n with
      | none => rfl
      | some v => rw [lookup_mem_nodup hnd (hperm.mem_iff.mpr (mem_of_dictGet h'))] at h; cases h
  have hf : (e.domain.vars.filter fun v => decide (v ∉ ev.map (·.1))) = e.domain.vars.filter fun v => decide (v ∉ ev'.map (·.1)) := by
    refine List.filter_congr fun v _ => ?_
    rw [decide_eq_decide]
    exact not_congr (hperm.map _).mem_iff
  simp only [EngineObj.withEvidence, mapE_evidence, hf, hm]

/-- **C24**: evidence on a real variable is rejected. -/
theorem withEvidence_real (simp : Formula → Formula) (e : EngineObj) (n : String) (v : Formula) (subs : List (Formula × Formula)) :
    e.withEvidence simp ((.sym n .real, v) :: subs) = .error .assertionError := by
  simp [EngineObj.withEvidence, mapE, EngineObj.evidenceItem]

/-! ### Concrete cases -/

/-- An exact engine exists. -/
theorem exactVol_exists : ExactVol fun e ab => match e.weight with
    | some w => .ok (e.domain.volumeOf ab (density e.support w))
    | none => .error .other := by
  intro e w ab hw _ _
  simp [hw]

/-- The identity is a correct `simplify`. -/
theorem simpReal_id : SimpReal id := ⟨fun _ _ _ => rfl, fun _ h => h, fun _ _ h => h⟩

/-- A problem with a Boolean and a real condition and a non-constant weight. -/
def sampleEngine : EngineObj := ⟨sampleDomain, .or [.sym "a" .bool, .le (.sym "x" .real) (.realC 3)], some (.ite (.sym "b" .bool) (.realC 2) (.sym "x" .real))⟩

theorem sampleEngine_problem : Problem sampleEngine.domain sampleEngine.support (.ite (.sym "b" .bool) (.realC 2) (.sym "x" .real)) where
  box := sampleDomain_box
  supportWt := rfl
  weightWt := rfl
  supportVars := by
    intro p hp
    simp only [sampleEngine, syms, symsList, List.append_nil, List.mem_append, List.mem_singleton] at hp
    rcases hp with rfl | rfl <;> exact ⟨by decide, rfl⟩
  weightVars := by
    intro p hp
    simp only [syms, List.nil_append, List.mem_append, List.mem_singleton] at hp
    rcases hp with rfl | rfl <;> exact ⟨by decide, rfl⟩

/-- The weight of the concrete problem is non-negative on the box, so the laws apply. -/
example (σ : Env ℝ) (h : sampleEngine.domain.inBox σ) :
    0 ≤ density sampleEngine.support (.ite (.sym "b" .bool) (.realC 2) (.sym "x" .real)) σ := by
  have := (h ("x", some 0, some 10) (by simp [sampleEngine, sampleDomain])).1 0 rfl
  unfold density
  split_ifs
  · simp only [value]
    split_ifs
    · norm_num
    · simpa using this
  · exact le_refl _

example : ∃ e', sampleEngine.withEvidence id (evidenceOf [("b", true)]) = .ok e' ∧ e'.domain.vars = ["a", "x", "y"] := by
  obtain ⟨e', w', h1, -, h2, -⟩ := withEvidence_correct simpReal_id (e := sampleEngine) rfl sampleEngine_problem (ev := [("b", true)])
    (by decide) (by intro p hp; simp only [List.mem_singleton] at hp; subst hp; exact mem_bools.mpr ⟨by decide, rfl⟩)
  exact ⟨e', h1, by rw [h2]; decide⟩

end Pywmi
