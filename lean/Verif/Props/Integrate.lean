import Verif.Algebra.Integrate
import Verif.Xadd.Law
import Mathlib.MeasureTheory.Integral.Prod

set_option linter.unusedSectionVars false
set_option linter.unusedSimpArgs false

/-!
# C85: polynomials are integrated exactly

The integration back-ends compute iterated integrals of polynomials, variable by variable.
-/

namespace Pywmi
open MeasureTheory

/-! ### SPEC -/

/-- SPEC: the iterated integral, the first variable innermost; bounds are functions of the remaining variables. -/
noncomputable def iterInt (lo up : String → (String → ℝ) → ℝ) : List String → ((String → ℝ) → ℝ) → (String → ℝ) → ℝ
  | [], f => f
  | v :: vs, f => iterInt lo up vs fun ρ => ∫ t in (lo v ρ)..(up v ρ), f (upd ρ v t)

/-- SPEC: an expression is a polynomial. -/
def IsPoly {E : Type} (ev : E → (String → ℝ) → ℝ) (e : E) : Prop := ∃ d : Dict, ∀ ρ, ev e ρ = polyEval ρ d

/-- SPEC: what is assumed of sympy. -/
structure SympyLaw {E : Type} (L : SympyLib E) (ev : E → (String → ℝ) → ℝ) : Prop where
  sub : ∀ a b ρ, ev (L.sub a b) ρ = ev a ρ - ev b ρ
  subs : ∀ e x u ρ, ev (L.subs e x u) ρ = ev e (upd ρ x (ev u ρ))
  antiderivative : ∀ e x, IsPoly ev e → ∃ F, L.antiderivative e x = .ok F ∧ IsPoly ev F ∧
    ∀ ρ t, HasDerivAt (fun s => ev F (upd ρ x s)) (ev e (upd ρ x t)) t

/-- SPEC: what is assumed of PSI's polynomials. -/
def PsiLaw {E : Type} (integ : E → String → E → E → Except PyErr E) (ev : E → (String → ℝ) → ℝ) : Prop :=
  ∀ e x l u, IsPoly ev e → IsPoly ev l → IsPoly ev u →
    ∃ F, integ e x l u = .ok F ∧ IsPoly ev F ∧ ∀ ρ, ev F ρ = ∫ t in (ev l ρ)..(ev u ρ), ev e (upd ρ x t)

/-- SPEC: what is assumed of PSI's piecewise polynomials: integrals over the whole line, where they exist. -/
def PsiPieceLaw {E : Type} (integ : E → String → Except PyErr E) (ev : E → (String → ℝ) → ℝ) : Prop :=
  ∀ e x, (∀ ρ, Integrable fun t => ev e (upd ρ x t)) → ∃ F, integ e x = .ok F ∧ ∀ ρ, ev F ρ = ∫ t, ev e (upd ρ x t)

/-- SPEC: bounds for all variables, which are polynomials. -/
def BoundsOk {E : Type} (ev : E → (String → ℝ) → ℝ) (vs : List String) (bounds : List (String × (E × E))) : Prop :=
  ∀ v ∈ vs, ∃ p, bounds.lookup v = some p ∧ IsPoly ev p.1 ∧ IsPoly ev p.2

/-- SPEC: the bounds as functions. -/
def boundFun {E : Type} (ev : E → (String → ℝ) → ℝ) (bounds : List (String × (E × E))) (pick : E × E → E) (v : String) (ρ : String → ℝ) : ℝ :=
  match bounds.lookup v with
  | some p => ev (pick p) ρ
  | none => 0

/-- SPEC: the bounds of a variable mention neither the variable nor one that is integrated before, and the lower bound is at most the upper
bound wherever the variables that are integrated later are within their bounds. -/
def Nested (lo up : String → (String → ℝ) → ℝ) : List String → Prop
  | [] => True
  | v :: vs => (∀ w ∈ v :: vs, ∀ ρ t, lo w (upd ρ v t) = lo w ρ ∧ up w (upd ρ v t) = up w ρ) ∧
      (∀ ρ : String → ℝ, (∀ w ∈ vs, lo w ρ ≤ ρ w ∧ ρ w ≤ up w ρ) → lo v ρ ≤ up v ρ) ∧ Nested lo up vs

/-! ### Antiderivatives -/

section
variable {E : Type} {ev : E → (String → ℝ) → ℝ}

theorem upd_cont (ρ : String → ℝ) (x : String) : Continuous fun t : ℝ => upd ρ x t := by
  refine continuous_pi fun y => ?_
  by_cases h : y = x
  · simp only [upd, h, if_true]; exact continuous_id
  · simp only [upd, h, if_false]; exact continuous_const

theorem IsPoly.cont {e : E} (h : IsPoly ev e) (ρ : String → ℝ) (x : String) : Continuous fun t : ℝ => ev e (upd ρ x t) := by
  obtain ⟨d, hd⟩ := h
  simp only [hd]
  exact (polyEval_cont d).comp (upd_cont ρ x)

/-- An integral of a polynomial between polynomial bounds is a polynomial. -/
theorem IsPoly.integral {e l u : E} (he : IsPoly ev e) (hl : IsPoly ev l) (hu : IsPoly ev u) (x : String) :
    ∃ d : Dict, ∀ ρ, (∫ t in (ev l ρ)..(ev u ρ), ev e (upd ρ x t)) = polyEval ρ d := by
  obtain ⟨d, hd⟩ := he
  obtain ⟨dl, hl⟩ := hl
  obtain ⟨du, hu⟩ := hu
  refine ⟨exInt d x dl du, fun ρ => ?_⟩
  rw [exInt_eval, hl, hu]
  exact intervalIntegral.integral_congr fun t _ => hd _

theorem sympySingle_spec {L : SympyLib E} (hL : SympyLaw L ev) {e l u : E} (he : IsPoly ev e) (hl : IsPoly ev l) (hu : IsPoly ev u) (x : String) :
    ∃ F, sympySingle L e x l u = .ok F ∧ IsPoly ev F ∧ ∀ ρ, ev F ρ = ∫ t in (ev l ρ)..(ev u ρ), ev e (upd ρ x t) := by
  obtain ⟨F, h1, -, h3⟩ := hL.antiderivative e x he
  have key : ∀ ρ, ev (L.sub (L.subs F x u) (L.subs F x l)) ρ = ∫ t in (ev l ρ)..(ev u ρ), ev e (upd ρ x t) := by
    intro ρ
    rw [hL.sub, hL.subs, hL.subs]
    exact (intervalIntegral.integral_eq_sub_of_hasDerivAt (fun t _ => h3 ρ t) ((he.cont ρ x).intervalIntegrable _ _)).symm
  obtain ⟨d, hd⟩ := he.integral hl hu x
  exact ⟨_, by simp only [sympySingle, h1], ⟨d, fun ρ => (key ρ).trans (hd ρ)⟩, key⟩

theorem iterInt_congr {lo up : String → (String → ℝ) → ℝ} : ∀ (vs : List String) {f g : (String → ℝ) → ℝ}, (∀ ρ, f ρ = g ρ) → ∀ ρ, iterInt lo up vs f ρ = iterInt lo up vs g ρ
  | [], _, _, h => h
  | v :: vs, f, g, h => by
    simp only [iterInt]
    exact iterInt_congr vs fun ρ => intervalIntegral.integral_congr fun t _ => h _

/-- C85: sympy's back-end returns the iterated integral, for every number of variables and all polynomial bounds (also bounds in the wrong order:
the integral is signed). -/
theorem sympy_integrate_exact {L : SympyLib E} (hL : SympyLaw L ev) {bounds : List (String × (E × E))} : ∀ {vs : List String} {e : E}, IsPoly ev e →
    BoundsOk ev vs bounds → ∃ r, sympyIntegratePoly L e vs bounds = .ok r ∧ IsPoly ev r ∧
      ∀ ρ, ev r ρ = iterInt (boundFun ev bounds (·.1)) (boundFun ev bounds (·.2)) vs (ev e) ρ
  | [], e, he, _ => ⟨e, rfl, he, fun _ => rfl⟩
  | v :: vs, e, he, hb => by
    obtain ⟨⟨l, u⟩, h1, h2, h3⟩ := hb v (by simp)
    obtain ⟨F, f1, f2, f3⟩ := sympySingle_spec hL he h2 h3 v
    obtain ⟨r, r1, r2, r3⟩ := sympy_integrate_exact hL (vs := vs) f2 fun w hw => hb w (by simp [hw])
    refine ⟨r, by simp only [sympyIntegratePoly, dictGet, h1, f1, r1], r2, fun ρ => ?_⟩
    rw [r3, iterInt]
    refine iterInt_congr vs (fun ρ => ?_) ρ
    simp only [f3, boundFun, h1]

/-- C85: so does the back-end of PSI's polynomials. -/
theorem psi_integrate_exact {integ : E → String → E → E → Except PyErr E} (hL : PsiLaw integ ev) {bounds : List (String × (E × E))} :
    ∀ {vs : List String} {e : E}, IsPoly ev e → BoundsOk ev vs bounds → ∃ r, psiIntegratePoly integ e vs bounds = .ok r ∧ IsPoly ev r ∧
      ∀ ρ, ev r ρ = iterInt (boundFun ev bounds (·.1)) (boundFun ev bounds (·.2)) vs (ev e) ρ
  | [], e, he, _ => ⟨e, rfl, he, fun _ => rfl⟩
  | v :: vs, e, he, hb => by
    obtain ⟨⟨l, u⟩, h1, h2, h3⟩ := hb v (by simp)
    obtain ⟨F, f1, f2, f3⟩ := hL e v l u he h2 h3
    obtain ⟨r, r1, r2, r3⟩ := psi_integrate_exact hL (vs := vs) f2 fun w hw => hb w (by simp [hw])
    refine ⟨r, by simp only [psiIntegratePoly, dictGet, h1, f1, r1], r2, fun ρ => ?_⟩
    rw [r3, iterInt]
    refine iterInt_congr vs (fun ρ => ?_) ρ
    simp only [f3, boundFun, h1]

/-- C85: a variable without bounds is a KeyError, unless an earlier step failed. -/
theorem sympy_missing_bounds {L : SympyLib E} (hL : SympyLaw L ev) {bounds : List (String × (E × E))} {vs ws : List String} {v : String} {e : E} (he : IsPoly ev e)
    (hb : BoundsOk ev vs bounds) (hv : bounds.lookup v = none) : sympyIntegratePoly L e (vs ++ v :: ws) bounds = .error .keyError := by
  induction vs generalizing e with
  | nil => simp only [List.nil_append, sympyIntegratePoly, dictGet, hv]
  | cons w vs ih =>
    obtain ⟨⟨l, u⟩, h1, h2, h3⟩ := hb w (by simp)
    obtain ⟨F, f1, f2, -⟩ := sympySingle_spec hL he h2 h3 w
    simp only [List.cons_append, sympyIntegratePoly, dictGet, h1, f1]
    exact ih f2 fun w hw => hb w (by simp [hw])

/-! ### Indicators -/

/-- SPEC: 1 if all variables are within their bounds. -/
noncomputable def boxInd (lo up : String → (String → ℝ) → ℝ) (vs : List String) (ρ : String → ℝ) : ℝ :=
  open Classical in if ∀ w ∈ vs, lo w ρ ≤ ρ w ∧ ρ w ≤ up w ρ then 1 else 0

theorem boxInd_cons (lo up : String → (String → ℝ) → ℝ) (v : String) (vs : List String) (ρ : String → ℝ) :
    boxInd lo up (v :: vs) ρ = (open Classical in if lo v ρ ≤ ρ v ∧ ρ v ≤ up v ρ then 1 else 0) * boxInd lo up vs ρ := by
  classical
  unfold boxInd
  by_cases h1 : lo v ρ ≤ ρ v ∧ ρ v ≤ up v ρ <;> by_cases h2 : ∀ w ∈ vs, lo w ρ ≤ ρ w ∧ ρ w ≤ up w ρ <;> simp [h1, h2]

theorem multBounds_spec {A : Algebra E} (hA : A.Sound ev) {bounds : List (String × (E × E))} : ∀ {vs : List String} {e : E},
    (∀ v ∈ vs, ∃ p, bounds.lookup v = some p) → ∃ r, multBounds A e vs bounds = .ok r ∧
      ∀ ρ, ev r ρ = boxInd (boundFun ev bounds (·.1)) (boundFun ev bounds (·.2)) vs ρ * ev e ρ
  | [], e, _ => ⟨e, rfl, fun ρ => by simp [boxInd]⟩
  | v :: vs, e, hb => by
    classical
    obtain ⟨⟨l, u⟩, h1⟩ := hb v (by simp)
    obtain ⟨r, r1, r2⟩ := multBounds_spec hA (vs := vs) (e := A.times (A.lessThanEqual (A.symbol v) u) (A.times (A.greaterThanEqual (A.symbol v) l) e))
      fun w hw => hb w (by simp [hw])
    refine ⟨r, by simp only [multBounds, dictGet, h1, r1], fun ρ => ?_⟩
    rw [r2, boxInd_cons, hA.times, hA.times, hA.lessThanEqual, Algebra.greaterThanEqual, hA.lessThanEqual, hA.negate, hA.negate, hA.symbol]
    simp only [boundFun, h1, neg_le_neg_iff]
    by_cases a : ev l ρ ≤ ρ v <;> by_cases b : ρ v ≤ ev u ρ <;> simp [a, b]

/-- Integration over the line of a function restricted to an interval. -/
theorem integral_interval {l u : ℝ} (h : l ≤ u) (f : ℝ → ℝ) :
    (∫ t, (open Classical in if l ≤ t ∧ t ≤ u then 1 else 0) * f t) = ∫ t in l..u, f t := by
  classical
  rw [intervalIntegral.integral_of_le h, ← integral_Icc_eq_integral_Ioc, ← integral_indicator measurableSet_Icc]
  refine integral_congr_ae (.of_forall fun t => ?_)
  simp only [Set.indicator, Set.mem_Icc]
  split <;> simp

theorem integrable_interval (l u : ℝ) {f : ℝ → ℝ} (hf : Continuous f) : Integrable fun t => (open Classical in if l ≤ t ∧ t ≤ u then 1 else 0) * f t := by
  classical
  have : (fun t => (if l ≤ t ∧ t ≤ u then (1 : ℝ) else 0) * f t) = (Set.Icc l u).indicator f := by
    funext t
    simp only [Set.indicator, Set.mem_Icc]
    split <;> simp
  rw [this, integrable_indicator_iff measurableSet_Icc]
  exact hf.continuousOn.integrableOn_Icc

theorem mem_of_lookup_str {β : Type} {d : List (String × β)} {k : String} {v : β} (h : d.lookup k = some v) : (k, v) ∈ d := by
  induction d with
  | nil => simp at h
  | cons q d ih =>
    obtain ⟨a, b⟩ := q
    rw [List.lookup_cons] at h
    by_cases hk : k = a
    · subst hk; simp at h; subst h; simp
    · have : (k == a) = false := by simpa using hk
      rw [this] at h
      exact List.mem_cons_of_mem _ (ih h)

theorem upd_same (ρ : String → ℝ) (x : String) (t : ℝ) : upd ρ x t x = t := by simp [upd]
theorem upd_other (ρ : String → ℝ) {x y : String} (h : y ≠ x) (t : ℝ) : upd ρ x t y = ρ y := by simp [upd, h]

theorem psiIntegrate_spec {integ : E → String → Except PyErr E} (hI : PsiPieceLaw integ ev) {lo up : String → (String → ℝ) → ℝ}
    (hlo : ∀ v, ∃ d : Dict, ∀ ρ, lo v ρ = polyEval ρ d) (hup : ∀ v, ∃ d : Dict, ∀ ρ, up v ρ = polyEval ρ d) :
    ∀ {vs : List String} {e : E} {d : Dict}, vs.Nodup → Nested lo up vs → (∀ ρ, ev e ρ = boxInd lo up vs ρ * polyEval ρ d) →
      ∃ r, psiIntegrate integ e vs = .ok r ∧ ∀ ρ, ev r ρ = iterInt lo up vs (fun ρ => polyEval ρ d) ρ
  | [], e, d, _, _, he => ⟨e, rfl, fun ρ => by rw [he]; simp [boxInd, iterInt]⟩
  | v :: vs, e, d, hnd, hN, he => by
    classical
    obtain ⟨hind, hle, hN'⟩ := hN
    obtain ⟨hv, hnd'⟩ := List.nodup_cons.mp hnd
    have hbox : ∀ ρ t, boxInd lo up vs (upd ρ v t) = boxInd lo up vs ρ := by
      intro ρ t
      unfold boxInd
      congr 1
      refine propext (forall₂_congr fun w hw => ?_)
      have := hind w (by simp [hw]) ρ t
      rw [this.1, this.2, upd_other ρ (fun h : w = v => hv (h ▸ hw))]
    have heq : ∀ ρ t, ev e (upd ρ v t) = boxInd lo up vs ρ * ((if lo v ρ ≤ t ∧ t ≤ up v ρ then 1 else 0) * polyEval (upd ρ v t) d) := by
      intro ρ t
      have := hind v (by simp) ρ t
      rw [he, boxInd_cons, hbox, this.1, this.2, upd_same]
      ring
    have hcont : ∀ ρ, Continuous fun t => polyEval (upd ρ v t) d := fun ρ => (polyEval_cont d).comp (upd_cont ρ v)
    obtain ⟨F, f1, f2⟩ := hI e v fun ρ => by
      simp only [heq]
      exact (integrable_interval _ _ (hcont ρ)).const_mul _
    obtain ⟨dl, hdl⟩ := hlo v
    obtain ⟨du, hdu⟩ := hup v
    have hF : ∀ ρ, ev F ρ = boxInd lo up vs ρ * polyEval ρ (exInt d v dl du) := by
      intro ρ
      rw [f2]
      simp only [heq]
      rw [integral_const_mul, exInt_eval, ← hdl, ← hdu]
      by_cases hb : ∀ w ∈ vs, lo w ρ ≤ ρ w ∧ ρ w ≤ up w ρ
      · rw [integral_interval (hle ρ hb)]
      · simp [boxInd, hb]
    obtain ⟨r, r1, r2⟩ := psiIntegrate_spec hI hlo hup hnd' hN' hF
    refine ⟨r, by simp only [psiIntegrate, f1, r1], fun ρ => ?_⟩
    rw [r2, iterInt]
    refine iterInt_congr vs (fun ρ => ?_) ρ
    rw [exInt_eval, hdl, hdu]

/-- C85: a back-end that multiplies with the bounds and integrates over the whole line returns the same iterated integral, if the variables are
distinct and the bounds are nested: free of the variables integrated so far, and in the right order. -/
theorem indicator_integrate_exact {A : Algebra E} (hA : A.Sound ev) {integ : E → String → Except PyErr E} (hI : PsiPieceLaw integ ev) {flat : E → E}
    (hflat : ∀ e ρ, ev (flat e) ρ = ev e ρ) {bounds : List (String × (E × E))} {vs : List String} {e : E} (he : IsPoly ev e) (hb : BoundsOk ev vs bounds)
    (hnd : vs.Nodup) (hN : Nested (boundFun ev bounds (·.1)) (boundFun ev bounds (·.2)) vs) (hall : ∀ p ∈ bounds, IsPoly ev p.2.1 ∧ IsPoly ev p.2.2) :
    ∃ r, indicatorIntegratePoly A integ flat e vs bounds = .ok r ∧
      ∀ ρ, ev r ρ = iterInt (boundFun ev bounds (·.1)) (boundFun ev bounds (·.2)) vs (ev e) ρ := by
  obtain ⟨b, b1, b2⟩ := multBounds_spec hA (e := e) fun v hv => (hb v hv).imp fun p h => h.1
  obtain ⟨d, hd⟩ := he
  have hpoly : ∀ (pick : E × E → E), (∀ p ∈ bounds, IsPoly ev (pick p.2)) → ∀ v, ∃ d : Dict, ∀ ρ, boundFun ev bounds pick v ρ = polyEval ρ d := by
    intro pick hp v
    cases hl : bounds.lookup v with
    | none => exact ⟨[], fun ρ => by simp [boundFun, hl]⟩
    | some p =>
      obtain ⟨d, hd⟩ := hp (v, p) (mem_of_lookup_str hl)
      exact ⟨d, fun ρ => by simp only [boundFun, hl]; exact hd ρ⟩
  obtain ⟨r, r1, r2⟩ := psiIntegrate_spec hI (hpoly (·.1) fun p hp => (hall p hp).1) (hpoly (·.2) fun p hp => (hall p hp).2) hnd hN
    fun ρ => by rw [b2, hd]
  refine ⟨flat r, by simp only [indicatorIntegratePoly, b1, r1], fun ρ => ?_⟩
  rw [hflat, r2]
  exact iterInt_congr vs (fun ρ => (hd ρ).symm) ρ

/-- C85: the two kinds of back-ends agree under these conditions. -/
theorem backends_agree {L : SympyLib E} (hL : SympyLaw L ev) {E' : Type} {ev' : E' → (String → ℝ) → ℝ} {A : Algebra E'} (hA : A.Sound ev')
    {integ : E' → String → Except PyErr E'} (hI : PsiPieceLaw integ ev') {flat : E' → E'} (hflat : ∀ e ρ, ev' (flat e) ρ = ev' e ρ)
    {bounds : List (String × (E × E))} {bounds' : List (String × (E' × E'))} {vs : List String} {e : E} {e' : E'} (he : IsPoly ev e)
    (hee : ∀ ρ, ev e ρ = ev' e' ρ) (hb : BoundsOk ev vs bounds) (hb' : BoundsOk ev' vs bounds') (hall : ∀ p ∈ bounds', IsPoly ev' p.2.1 ∧ IsPoly ev' p.2.2)
    (hbb : ∀ v ρ, boundFun ev bounds (·.1) v ρ = boundFun ev' bounds' (·.1) v ρ ∧ boundFun ev bounds (·.2) v ρ = boundFun ev' bounds' (·.2) v ρ)
    (hnd : vs.Nodup) (hN : Nested (boundFun ev bounds (·.1)) (boundFun ev bounds (·.2)) vs) :
    ∃ r r', sympyIntegratePoly L e vs bounds = .ok r ∧ indicatorIntegratePoly A integ flat e' vs bounds' = .ok r' ∧ ∀ ρ, ev r ρ = ev' r' ρ := by
  have h1 : boundFun ev bounds (·.1) = boundFun ev' bounds' (·.1) := by funext v ρ; exact (hbb v ρ).1
  have h2 : boundFun ev bounds (·.2) = boundFun ev' bounds' (·.2) := by funext v ρ; exact (hbb v ρ).2
  obtain ⟨r, r1, -, r3⟩ := sympy_integrate_exact hL he hb
  obtain ⟨r', r1', r3'⟩ := indicator_integrate_exact hA hI hflat (he.imp fun d hd ρ => by rw [← hee, hd] : IsPoly ev' e') hb' hnd (by rw [← h1, ← h2]; exact hN) hall
  refine ⟨r, r', r1, r1', fun ρ => ?_⟩
  rw [r3, r3', h1, h2]
  exact iterInt_congr vs hee ρ

/-- FINDING: the back-ends disagree if the lower bound is above the upper bound: one back-end returns the signed integral, the other zero. -/
theorem backends_order_counterexample {L : SympyLib E} (hL : SympyLaw L ev) {E' : Type} {ev' : E' → (String → ℝ) → ℝ} {A : Algebra E'} (hA : A.Sound ev')
    {integ : E' → String → Except PyErr E'} (hI : PsiPieceLaw integ ev') {flat : E' → E'} (hflat : ∀ e ρ, ev' (flat e) ρ = ev' e ρ)
    {zero one : E} (h0 : ∀ ρ, ev zero ρ = 0) (h1 : ∀ ρ, ev one ρ = 1) :
    (∃ r, sympyIntegratePoly L one ["x"] [("x", (one, zero))] = .ok r ∧ ∀ ρ, ev r ρ = -1) ∧
      ∃ r, indicatorIntegratePoly A integ flat A.one ["x"] [("x", (A.one, A.zero))] = .ok r ∧ ∀ ρ, ev' r ρ = 0 := by
  have p0 : IsPoly ev zero := ⟨[], fun ρ => by rw [h0]; simp⟩
  have p1 : IsPoly ev one := ⟨exReal 1, fun ρ => by rw [h1, exReal_eval]; simp⟩
  refine ⟨?_, ?_⟩
  · obtain ⟨r, r1, -, r3⟩ := sympy_integrate_exact hL (vs := ["x"]) (bounds := [("x", (one, zero))]) p1 (fun v hv => by
      simp only [List.mem_singleton] at hv
      subst hv
      exact ⟨(one, zero), by simp, p1, p0⟩)
    refine ⟨r, r1, fun ρ => ?_⟩
    rw [r3]
    simp [iterInt, boundFun, h0, h1]
  · have e1 : ∀ ρ, ev' A.one ρ = 1 := fun ρ => by rw [Algebra.one, hA.real]; simp
    have e0 : ∀ ρ, ev' A.zero ρ = 0 := fun ρ => by rw [Algebra.zero, hA.real]; simp
    obtain ⟨b, b1, b2⟩ := multBounds_spec hA (vs := ["x"]) (e := A.one) (bounds := [("x", (A.one, A.zero))]) (by simp)
    have hz : ∀ ρ, ev' b ρ = 0 := by
      intro ρ
      have : ¬(1 ≤ ρ "x" ∧ ρ "x" ≤ 0) := fun h => by linarith [h.1, h.2]
      rw [b2, boxInd]
      simp only [List.mem_singleton, forall_eq, boundFun, List.lookup_cons_self, e0, e1, this, if_false, zero_mul]
    obtain ⟨F, f1, f2⟩ := hI b "x" fun ρ => by simp [hz]
    refine ⟨flat F, by simp only [indicatorIntegratePoly, b1, psiIntegrate, f1], fun ρ => ?_⟩
    rw [hflat, f2]
    simp [hz]

/-! ### The order of the variables -/

theorem polyEval_swap (d : Dict) (ρ : String → ℝ) {x y : String} (a b a' b' : ℝ) (h : x ≠ y) :
    (∫ t in a..b, ∫ s in a'..b', polyEval (upd (upd ρ x t) y s) d) = ∫ s in a'..b', ∫ t in a..b, polyEval (upd (upd ρ y s) x t) d := by
  have hc : Continuous fun z : ℝ × ℝ => upd (upd ρ x z.1) y z.2 := by
    refine continuous_pi fun w => ?_
    by_cases h1 : w = y
    · simp only [upd, h1, if_true]; exact continuous_snd
    · by_cases h2 : w = x
      · simp only [upd, h1, h2, if_true, if_false]
        have : ¬ x = y := h
        simp only [this, if_false]; exact continuous_fst
      · simp only [upd, h1, h2, if_false]; exact continuous_const
  have hcomm : ∀ t s, upd (upd ρ y s) x t = upd (upd ρ x t) y s := by
    intro t s
    funext w
    by_cases h1 : w = x <;> by_cases h2 : w = y <;> simp [upd, h1, h2]
    · exact absurd (h1.symm.trans h2) h
    all_goals first | (intro e; exact absurd e h) | (intro e; exact absurd e.symm h)
  simp only [hcomm]
  have hf : Continuous (Function.uncurry fun t s => polyEval (upd (upd ρ x t) y s) d) := (polyEval_cont d).comp hc
  refine intervalIntegral_intervalIntegral_swap ?_
  exact (hf.continuousOn.integrableOn_compact (isCompact_uIcc.prod isCompact_uIcc)).mono_set (Set.prod_mono Set.uIoc_subset_uIcc Set.uIoc_subset_uIcc)

theorem iterInt_poly {lo up : String → (String → ℝ) → ℝ} {a b : String → ℚ} (hlo : ∀ v ρ, lo v ρ = a v) (hup : ∀ v ρ, up v ρ = b v) (v : String) (d : Dict) (ρ : String → ℝ) :
    (∫ t in (lo v ρ)..(up v ρ), polyEval (upd ρ v t) d) = polyEval ρ (exInt d v (exReal (a v)) (exReal (b v))) := by
  rw [exInt_eval, exReal_eval, exReal_eval, hlo, hup]

/-- C85: with constant bounds the order of the variables does not matter. -/
theorem iterInt_perm {lo up : String → (String → ℝ) → ℝ} {a b : String → ℚ} (hlo : ∀ v ρ, lo v ρ = a v) (hup : ∀ v ρ, up v ρ = b v) {vs ws : List String}
    (h : vs.Perm ws) : ∀ (d : Dict) (ρ : String → ℝ), iterInt lo up vs (fun ρ => polyEval ρ d) ρ = iterInt lo up ws (fun ρ => polyEval ρ d) ρ := by
  induction h with
  | nil => intro d ρ; rfl
  | cons v _ ih =>
    intro d ρ
    simp only [iterInt]
    rw [iterInt_congr _ (iterInt_poly hlo hup v d), iterInt_congr _ (iterInt_poly hlo hup v d), ih]
  | swap x y vs =>
    intro d ρ
    simp only [iterInt]
    refine iterInt_congr vs (fun ρ => ?_) ρ
    simp only [hlo, hup]
    by_cases h : x = y
    · subst h; rfl
    · exact polyEval_swap d ρ _ _ _ _ h
  | trans _ _ ih1 ih2 => intro d ρ; rw [ih1, ih2]

/-- C85: so sympy's back-end returns the same for every order of the variables, if the bounds are numbers. -/
theorem sympy_order {L : SympyLib E} (hL : SympyLaw L ev) {bounds : List (String × (E × E))} {vs ws : List String} {e : E} (he : IsPoly ev e)
    {a b : String → ℚ} (hb : ∀ v ∈ vs, ∃ p, bounds.lookup v = some p ∧ ∀ ρ, ev p.1 ρ = a v ∧ ev p.2 ρ = b v) (h : vs.Perm ws) :
    ∃ r r', sympyIntegratePoly L e vs bounds = .ok r ∧ sympyIntegratePoly L e ws bounds = .ok r' ∧ ∀ ρ, ev r ρ = ev r' ρ := by
  have hok : BoundsOk ev vs bounds := fun v hv => by
    obtain ⟨p, h1, h2⟩ := hb v hv
    exact ⟨p, h1, ⟨exReal (a v), fun ρ => by rw [exReal_eval]; exact (h2 ρ).1⟩, ⟨exReal (b v), fun ρ => by rw [exReal_eval]; exact (h2 ρ).2⟩⟩
  obtain ⟨r, r1, -, r3⟩ := sympy_integrate_exact hL he hok
  obtain ⟨r', r1', -, r3'⟩ := sympy_integrate_exact hL he (vs := ws) fun v hv => hok v (h.mem_iff.mpr hv)
  refine ⟨r, r', r1, r1', fun ρ => ?_⟩
  obtain ⟨d, hd⟩ := he
  have key : ∀ us : List String, (∀ v ∈ us, v ∈ vs) → ∀ (f : (String → ℝ) → ℝ) ρ, iterInt (boundFun ev bounds (·.1)) (boundFun ev bounds (·.2)) us f ρ =
      iterInt (fun v _ => (a v : ℝ)) (fun v _ => (b v : ℝ)) us f ρ := by
    intro us
    induction us with
    | nil => intro _ f ρ; rfl
    | cons v us ih =>
      intro hus f ρ
      obtain ⟨p, h1, h2⟩ := hb v (hus v (by simp))
      simp only [iterInt]
      rw [ih fun w hw => hus w (by simp [hw])]
      refine iterInt_congr us (fun ρ => ?_) ρ
      simp only [boundFun, h1, (h2 ρ).1, (h2 ρ).2]
  rw [r3, r3', key vs fun _ h => h, key ws fun v hv => h.mem_iff.mpr hv, iterInt_congr vs hd, iterInt_congr ws hd]
  exact iterInt_perm (fun _ _ => rfl) (fun _ _ => rfl) h d ρ

end

/-! ### Libraries that meet the laws -/

/-- EXAMPLE: substitution in a monomial. -/
def exSubsMono (p : Mono × ℚ) (x : String) (u : Dict) : Dict := exTimes [(p.1.filter (· ≠ x), p.2)] (exPow u (p.1.count x))

/-- EXAMPLE: substitution in a dictionary. -/
def exSubs (d : Dict) (x : String) (u : Dict) : Dict :=
  match d with
  | [] => []
  | p :: d => exPlus (exSubsMono p x u) (exSubs d x u)

theorem exSubs_eval (d : Dict) (x : String) (u : Dict) (ρ : String → ℝ) : polyEval ρ (exSubs d x u) = polyEval (upd ρ x (polyEval ρ u)) d := by
  induction d with
  | nil => simp [exSubs]
  | cons p d ih =>
    rw [exSubs, exPlus_eval, ih, polyEval_cons, exSubsMono, exTimes_eval, exPow_eval, monoEval_upd]
    simp [polyEval]
    ring

/-- EXAMPLE: a library of polynomials. -/
def exSympy : SympyLib Dict := ⟨fun d x => .ok (exInt d x [] [([x], 1)]), exSubs, fun a b => exPlus a (exTimes (exReal (-1)) b)⟩

theorem exSympy_law : SympyLaw exSympy (fun d ρ => polyEval ρ d) where
  sub a b ρ := by
    show polyEval ρ (exPlus a (exTimes (exReal (-1)) b)) = _
    rw [exPlus_eval, exTimes_eval, exReal_eval]
    push_cast
    ring
  subs e x u ρ := exSubs_eval e x u ρ
  antiderivative e x _ := by
    refine ⟨_, rfl, ⟨_, fun ρ => rfl⟩, fun ρ t => ?_⟩
    have hc : Continuous fun s => polyEval (upd ρ x s) e := (polyEval_cont e).comp (upd_cont ρ x)
    have h := (hc.integral_hasStrictDerivAt 0 t).hasDerivAt
    refine h.congr_of_eventuallyEq (.of_forall fun s => ?_)
    show polyEval (upd ρ x s) (exInt e x [] [([x], 1)]) = _
    rw [exInt_eval]
    simp [polyEval, monoEval, upd_same]
    refine intervalIntegral.integral_congr fun r _ => ?_
    have hu : upd (upd ρ x s) x r = upd ρ x r := by
      funext w
      by_cases hw : w = x <;> simp [upd, hw]
    simp only [hu]

/-- EXAMPLE: PSI's polynomials. -/
theorem exPsi_law : PsiLaw (fun d x l u => .ok (exInt d x l u)) (fun d ρ => polyEval ρ d) :=
  fun e x l u _ _ _ => ⟨_, rfl, ⟨_, fun _ => rfl⟩, fun ρ => exInt_eval e x l u ρ⟩

/-- EXAMPLE: functions as expressions. -/
noncomputable def exFunAlg : Algebra ((String → ℝ) → ℝ) where
  real q _ := q
  symbol n ρ := ρ n
  times a b ρ := a ρ * b ρ
  plus a b ρ := a ρ + b ρ
  negate a ρ := -a ρ
  lessThan a b ρ := if a ρ < b ρ then 1 else 0
  lessThanEqual a b ρ := if a ρ ≤ b ρ then 1 else 0

theorem exFunAlg_sound : exFunAlg.Sound (fun e ρ => e ρ) :=
  ⟨fun _ _ => rfl, fun _ _ => rfl, fun _ _ _ => rfl, fun _ _ _ => rfl, fun _ _ => rfl, fun _ _ _ => rfl, fun _ _ _ => rfl⟩

theorem exFunPiece_law : PsiPieceLaw (fun (e : (String → ℝ) → ℝ) x => .ok fun ρ => ∫ t, e (upd ρ x t)) (fun e ρ => e ρ) :=
  fun _ _ _ => ⟨_, rfl, fun _ => rfl⟩

/-- EXAMPLE: bounds of a triangle: `0 ≤ x ≤ y` and `0 ≤ y ≤ 2`. -/
def exTriangle : List (String × (Dict × Dict)) := [("x", ([], [(["y"], 1)])), ("y", ([], [([], 2)]))]

/-- The hypotheses are met, and the area of the triangle is 2. -/
theorem triangle_example : sympyIntegratePoly exSympy [([], 1)] ["x", "y"] exTriangle = .ok [([], 2)] := by decide +kernel

theorem exTriangle_ok : BoundsOk (fun d ρ => polyEval ρ d) ["x", "y"] exTriangle := by
  intro v hv
  simp only [List.mem_cons, List.not_mem_nil, or_false] at hv
  rcases hv with rfl | rfl
  · exact ⟨([], [(["y"], 1)]), by decide, ⟨_, fun _ => rfl⟩, ⟨_, fun _ => rfl⟩⟩
  · exact ⟨([], [([], 2)]), by decide, ⟨_, fun _ => rfl⟩, ⟨_, fun _ => rfl⟩⟩

/-- The bounds of the triangle are nested. -/
theorem exTriangle_nested : Nested (boundFun (fun d ρ => polyEval ρ d) exTriangle (·.1)) (boundFun (fun d ρ => polyEval ρ d) exTriangle (·.2)) ["x", "y"] := by
  have lx : exTriangle.lookup "x" = some ([], [(["y"], 1)]) := by decide
  have ly : exTriangle.lookup "y" = some ([], [([], 2)]) := by decide
  refine ⟨fun w hw ρ t => ?_, fun ρ h => ?_, fun w hw ρ t => ?_, fun ρ _ => ?_, trivial⟩
  · simp only [List.mem_cons, List.not_mem_nil, or_false] at hw
    rcases hw with rfl | rfl
    · simp [boundFun, lx, polyEval, monoEval, upd]
    · simp [boundFun, ly, polyEval, monoEval, upd]
  · have := h "y" (by simp)
    simp [boundFun, ly, polyEval, monoEval] at this
    simp [boundFun, lx, polyEval, monoEval, this.1]
  · simp only [List.mem_cons, List.not_mem_nil, or_false] at hw
    subst hw
    simp [boundFun, ly, polyEval, monoEval, upd]
  · simp [boundFun, ly, polyEval, monoEval]

/-- The hypotheses of the theorem on agreement are met by the triangle. -/
example : ∃ r r', sympyIntegratePoly exSympy [([], 1)] ["x", "y"] exTriangle = .ok r ∧
    indicatorIntegratePoly exFunAlg (fun (e : (String → ℝ) → ℝ) x => .ok fun ρ => ∫ t, e (upd ρ x t)) id (fun _ => 1) ["x", "y"]
      [("x", ((fun _ => 0), (fun ρ => ρ "y"))), ("y", ((fun _ => 0), (fun _ => 2)))] = .ok r' ∧ ∀ ρ, polyEval ρ r = r' ρ := by
  have lx : exTriangle.lookup "x" = some ([], [(["y"], 1)]) := by decide
  have ly : exTriangle.lookup "y" = some ([], [([], 2)]) := by decide
  have p0 : IsPoly (fun (e : (String → ℝ) → ℝ) ρ => e ρ) (fun _ => 0) := ⟨[], fun _ => by simp⟩
  have p2 : IsPoly (fun (e : (String → ℝ) → ℝ) ρ => e ρ) (fun _ => 2) := ⟨[([], 2)], fun _ => by simp [polyEval, monoEval]⟩
  have py : IsPoly (fun (e : (String → ℝ) → ℝ) ρ => e ρ) (fun ρ => ρ "y") := ⟨[(["y"], 1)], fun _ => by simp [polyEval, monoEval]⟩
  refine backends_agree exSympy_law exFunAlg_sound exFunPiece_law (fun _ _ => rfl) ⟨_, fun _ => rfl⟩ (fun ρ => by simp [polyEval, monoEval]) exTriangle_ok
    (fun v hv => ?_) (fun p hp => ?_) (fun v ρ => ?_) (by decide) exTriangle_nested
  · simp only [List.mem_cons, List.not_mem_nil, or_false] at hv
    rcases hv with rfl | rfl
    · exact ⟨((fun _ => 0), (fun ρ => ρ "y")), by simp, p0, py⟩
    · exact ⟨((fun _ => 0), (fun _ => 2)), by simp [List.lookup_cons], p0, p2⟩
  · simp only [List.mem_cons, List.not_mem_nil, or_false] at hp
    rcases hp with rfl | rfl
    · exact ⟨p0, py⟩
    · exact ⟨p0, p2⟩
  · by_cases hx : v = "x"
    · subst hx
      simp [boundFun, lx, polyEval, monoEval]
    · by_cases hy : v = "y"
      · subst hy
        simp [boundFun, ly, polyEval, monoEval, List.lookup_cons]
      · have hx' : (v == "x") = false := by simpa using hx
        have hy' : (v == "y") = false := by simpa using hy
        simp [boundFun, exTriangle, List.lookup_cons, hx', hy']

end Pywmi
