import Verif.Props.XsddRegion
import Verif.Props.Engine
import Verif.Props.IntTree
import Verif.Spec.Null

set_option linter.unusedSectionVars false
set_option linter.unusedSimpArgs false

/-!
# Lemmas for the XSDD engine: formulas of a problem, Boolean sums, boundaries
-/

namespace Pywmi
open Formula Prog MeasureTheory

/-! ### Formulas that the engine can handle -/

theorem litOk_atoms (f : Formula) : litOk f = true → ∀ a ∈ atoms f,
    (∃ l r, (a = .le l r ∨ a = .lt l r) ∧ linTerm l = true ∧ linTerm r = true) ∧ ∀ p ∈ syms a, p ∈ syms f := by
  have lst : ∀ {as : List Formula}, (∀ x ∈ as, litOk x = true → ∀ a ∈ atoms x,
      (∃ l r, (a = .le l r ∨ a = .lt l r) ∧ linTerm l = true ∧ linTerm r = true) ∧ ∀ p ∈ syms a, p ∈ syms x) →
      litOkAll as = true → ∀ a ∈ atomsList as,
      (∃ l r, (a = .le l r ∨ a = .lt l r) ∧ linTerm l = true ∧ linTerm r = true) ∧ ∀ p ∈ syms a, p ∈ symsList as := by
    intro as ih h a ha
    obtain ⟨x, hx, hax⟩ := mem_atomsList.mp ha
    obtain ⟨h1, h2⟩ := ih x hx ((litOkAll_iff as).mp h x hx) a hax
    exact ⟨h1, fun p hp => mem_symsList.mpr ⟨x, hx, h2 p hp⟩⟩
  induction f using Formula.induct with
  | and as ih => intro h; exact lst ih h
  | or as ih => intro h; exact lst ih h
  | not a ih => intro h; exact ih h
  | implies l r ihl ihr =>
    intro h a ha
    simp only [litOk, Bool.and_eq_true] at h
    rcases List.mem_append.mp ha with ha | ha
    · obtain ⟨h1, h2⟩ := ihl h.1 a ha; exact ⟨h1, fun p hp => List.mem_append_left _ (h2 p hp)⟩
    · obtain ⟨h1, h2⟩ := ihr h.2 a ha; exact ⟨h1, fun p hp => List.mem_append_right _ (h2 p hp)⟩
  | iff l r ihl ihr =>
    intro h a ha
    simp only [litOk, Bool.and_eq_true] at h
    rcases List.mem_append.mp ha with ha | ha
    · obtain ⟨h1, h2⟩ := ihl h.1 a ha; exact ⟨h1, fun p hp => List.mem_append_left _ (h2 p hp)⟩
    · obtain ⟨h1, h2⟩ := ihr h.2 a ha; exact ⟨h1, fun p hp => List.mem_append_right _ (h2 p hp)⟩
  | ite c t e ihc iht ihe =>
    intro h a ha
    simp only [litOk, Bool.and_eq_true] at h
    simp only [atoms, List.mem_append] at ha
    simp only [syms, List.mem_append]
    rcases ha with ha | ha | ha
    · obtain ⟨h1, h2⟩ := ihc h.1 a ha; exact ⟨h1, fun p hp => by simp [h2 p hp]⟩
    · obtain ⟨h1, h2⟩ := iht h.2.1 a ha; exact ⟨h1, fun p hp => by simp [h2 p hp]⟩
    · obtain ⟨h1, h2⟩ := ihe h.2.2 a ha; exact ⟨h1, fun p hp => by simp [h2 p hp]⟩
  | le l r ihl ihr =>
    intro h a ha
    simp only [litOk, Bool.and_eq_true] at h
    simp only [atoms, isAllReal_atoms l (linTerm_allReal l h.1), isAllReal_atoms r (linTerm_allReal r h.2), List.append_nil,
      List.mem_singleton] at ha
    subst ha
    exact ⟨⟨l, r, .inl rfl, h.1, h.2⟩, fun p hp => hp⟩
  | lt l r ihl ihr =>
    intro h a ha
    simp only [litOk, Bool.and_eq_true] at h
    simp only [atoms, isAllReal_atoms l (linTerm_allReal l h.1), isAllReal_atoms r (linTerm_allReal r h.2), List.append_nil,
      List.mem_singleton] at ha
    subst ha
    exact ⟨⟨l, r, .inr rfl, h.1, h.2⟩, fun p hp => hp⟩
  | sym n t => intro _ a ha; simp [atoms] at ha
  | boolC b => intro _ a ha; simp [atoms] at ha
  | _ => intro h; simp [litOk] at h

/-- SPEC: a formula over the domain made of Boolean variables and linear comparisons `<=`, `<`, none of which compares equal
terms; without real variables there are no comparisons. -/
structure XOk (D : Domain) (f : Formula) : Prop where
  wt : wt .bool f = true
  lit : litOk f = true
  vars : D.covers f
  generic : ∀ a ∈ atoms f, ∃ τ : Env ℝ, strictAt τ a
  noReals : D.reals = [] → atoms f = []

theorem mkList_litOk {as : List Formula} (h : ∀ a ∈ as, litOk a = true) : litOk (mkAnd as) = true ∧ litOk (mkOr as) = true := by
  constructor
  · unfold mkAnd; split
    · rfl
    · exact h _ (by simp)
    · simpa only [litOk, litOkAll_iff] using h
  · unfold mkOr; split
    · rfl
    · exact h _ (by simp)
    · simpa only [litOk, litOkAll_iff] using h

theorem wt_mkList {as : List Formula} (h : ∀ a ∈ as, Formula.wt .bool a = true) :
    Formula.wt .bool (mkAnd as) = true ∧ Formula.wt .bool (mkOr as) = true := by
  constructor
  · unfold mkAnd; split
    · rfl
    · exact h _ (by simp)
    · rename_i h1 h2
      simp only [Formula.wt, Bool.and_eq_true, wtAll_iff]
      exact ⟨by cases as <;> simp_all, h⟩
  · unfold mkOr; split
    · rfl
    · exact h _ (by simp)
    · rename_i h1 h2
      simp only [Formula.wt, Bool.and_eq_true, wtAll_iff]
      exact ⟨by cases as <;> simp_all, h⟩

namespace XOk
variable {D : Domain}

theorem mkAndOr {as : List Formula} (h : ∀ a ∈ as, XOk D a) : XOk D (mkAnd as) ∧ XOk D (mkOr as) := by
  have hv : ∀ p ∈ symsList as, p.1 ∈ D.vars ∧ D.varTypes.lookup p.1 = some p.2 := fun p hp => by
    obtain ⟨a, ha, hp⟩ := mem_symsList.mp hp
    exact (h a ha).vars p hp
  have hg : ∀ x ∈ atomsList as, ∃ τ : Env ℝ, strictAt τ x := fun x hx => by
    obtain ⟨a, ha, hx⟩ := mem_atomsList.mp hx
    exact (h a ha).generic x hx
  have hn : D.reals = [] → atomsList as = [] := fun hr => by
    rw [List.eq_nil_iff_forall_not_mem]
    intro x hx
    obtain ⟨a, ha, hx⟩ := mem_atomsList.mp hx
    rw [(h a ha).noReals hr] at hx
    cases hx
  have w := wt_mkList fun a ha => (h a ha).wt
  have l := mkList_litOk fun a ha => (h a ha).lit
  exact ⟨⟨w.1, l.1, fun p hp => hv p (by rwa [syms_mkAnd] at hp), by rw [atoms_mkAnd]; exact hg, by rw [atoms_mkAnd]; exact hn⟩,
    ⟨w.2, l.2, fun p hp => hv p (by rwa [syms_mkOr] at hp), by rw [atoms_mkOr]; exact hg, by rw [atoms_mkOr]; exact hn⟩⟩

theorem not {a : Formula} (h : XOk D a) : XOk D (mkNot a) where
  wt := by rw [wt_mkNot]; exact h.wt
  lit := by
    have := h.lit
    unfold mkNot; split
    · simpa [litOk] using this
    · simpa [litOk] using this
  vars p hp := h.vars p (by rwa [syms_mkNot] at hp)
  generic := by rw [atoms_mkNot]; exact h.generic
  noReals := by rw [atoms_mkNot]; exact h.noReals

theorem tt : XOk D (.boolC true) := ⟨rfl, rfl, by simp [Domain.covers, syms], by simp [atoms], fun _ => rfl⟩

theorem two {a b : Formula} (ha : XOk D a) (hb : XOk D b) : XOk D (mkAnd [a, b]) ∧ XOk D (mkOr [a, b]) :=
  mkAndOr fun x hx => by
    simp only [List.mem_cons, List.not_mem_nil, or_false] at hx
    rcases hx with rfl | rfl
    · exact ha
    · exact hb

theorem supportInv {simp : Formula → Formula} (hs : ∀ f, XOk D f → XOk D (simp f)) : SupportInv simp (XOk D) :=
  ⟨tt, fun _ _ a b => (two a b).1, fun _ _ a b => (two a b).2, fun _ a => a.not, hs⟩

/-- Almost every point is off the boundaries. -/
theorem off_ae (hD : D.WF) {f : Formula} (h : XOk D f) (σ : Env ℝ) : ∀ᵐ x, OffBoundary (σ.setReals D.reals x) f := by
  have : ∀ a ∈ {a | a ∈ atoms f}, ∀ᵐ x, strictAt (σ.setReals D.reals x) a := by
    intro a ha
    obtain ⟨⟨l, r, hlr, hl, hr⟩, hs⟩ := litOk_atoms f h.lit a ha
    obtain ⟨τ, hτ⟩ := h.generic a ha
    have hcov : ∀ p ∈ syms l ++ syms r, p.1 ∈ D.reals := fun p hp => by
      have hreal : p.2 = .real := by
        rcases List.mem_append.mp hp with hp | hp
        · exact isAllReal_syms l (linTerm_allReal l hl) p hp
        · exact isAllReal_syms r (linTerm_allReal r hr) p hp
      have := h.vars p (hs p (by rcases hlr with rfl | rfl <;> exact hp))
      rw [hreal] at this
      exact mem_reals.mpr this
    have hne : ∃ τ : Env ℝ, value τ l ≠ value τ r := ⟨τ, by rcases hlr with rfl | rfl <;> exact hτ⟩
    have := boundary_null hl hr (reals_nodup hD) hcov hne σ
    rcases hlr with rfl | rfl <;> exact this
  exact (ae_ball_iff (List.finite_toSet (atoms f)).countable).mpr this
end XOk

/-! ### Sums over Boolean assignments -/

theorem setB_true (T : Finset String) (b : String) (r : String → ℝ) :
    (⟨fun n => decide (n ∈ T), r⟩ : Env ℝ).setB b true = ⟨fun n => decide (n ∈ insert b T), r⟩ := by
  simp only [Env.setB, Env.mk.injEq, and_true]
  funext n
  by_cases h : n = b <;> simp [h]

theorem setB_false {T : Finset String} {b : String} (hb : b ∉ T) (r : String → ℝ) :
    (⟨fun n => decide (n ∈ T), r⟩ : Env ℝ).setB b false = ⟨fun n => decide (n ∈ T), r⟩ := by
  simp only [Env.setB, Env.mk.injEq, and_true]
  funext n
  by_cases h : n = b
  · subst h; simp [hb]
  · simp [h]

theorem sumBools_subsets {bs : List String} (hn : bs.Nodup) (φ : Env ℝ → ℝ) (r : String → ℝ) :
    ∀ T0 : Finset String, (∀ b ∈ bs, b ∉ T0) → sumBools bs φ ⟨fun n => decide (n ∈ T0), r⟩ =
      ∑ T ∈ bs.toFinset.powerset, φ ⟨fun n => decide (n ∈ T0 ∪ T), r⟩ := by
  induction bs with
  | nil => intro T0 _; simp [sumBools]
  | cons b bs ih =>
    intro T0 h
    obtain ⟨hb, hn⟩ := List.nodup_cons.mp hn
    have ih := ih hn
    simp only [sumBools]
    rw [setB_true, setB_false (h b (by simp)), ih _ (fun c hc => by
      simp only [Finset.mem_insert, not_or]
      exact ⟨fun e => hb (e ▸ hc), h c (by simp [hc])⟩), ih _ (fun c hc => h c (by simp [hc]))]
    rw [List.toFinset_cons, Finset.sum_powerset_insert (by simpa using hb), add_comm]
    congr 1
    refine Finset.sum_congr rfl fun T _ => ?_
    have : insert b T0 ∪ T = T0 ∪ insert b T := by ext; simp
    rw [this]

/-- The sum over the Boolean assignments is the sum over the sets of true variables. -/
theorem sumBools_eq {bs : List String} (hn : bs.Nodup) (φ : Env ℝ → ℝ) :
    sumBools bs φ env0 = ∑ T ∈ bs.toFinset.powerset, φ (env0.withBools T) := by
  have := sumBools_subsets hn φ (fun _ => 0) ∅ (by simp)
  simp only [Finset.empty_union] at this
  simpa [env0, Env.withBools] using this

theorem setReals_withBools (σ : Env ℝ) (T : Finset String) (rs : List String) (x : Fin rs.length → ℝ) :
    (σ.withBools T).setReals rs x = (σ.setReals rs x).withBools T := rfl

/-! ### Tame functions -/

theorem Tame.add {rs : List String} {φ ψ : Env ℝ → ℝ} {σ : Env ℝ} (h1 : Tame rs φ σ) (h2 : Tame rs ψ σ) :
    Tame rs (fun σ => φ σ + ψ σ) σ := by
  obtain ⟨M, C, h⟩ := h1
  obtain ⟨M', C', h'⟩ := h2
  refine ⟨max M M', C + C', fun x => ⟨?_, fun i hi => ?_⟩⟩
  · exact (abs_add_le _ _).trans (add_le_add (h x).1 (h' x).1)
  · show φ _ + ψ _ = 0
    rw [(h x).2 i ((le_max_left _ _).trans_lt hi), (h' x).2 i ((le_max_right _ _).trans_lt hi), add_zero]

theorem Tame.zero {rs : List String} {σ : Env ℝ} : Tame rs (fun _ => 0) σ := ⟨0, 0, fun x => by simp⟩

theorem EnvMeas.add {φ ψ : Env ℝ → ℝ} (h1 : EnvMeas φ) (h2 : EnvMeas ψ) : EnvMeas fun σ => φ σ + ψ σ :=
  fun e hr hb => (h1 e hr hb).add (h2 e hr hb)

/-- The volume of a finite sum of functions. -/
theorem volumeOf_sum {ι : Type} {D : Domain} {ab : Bool} (ps : List ι) (φ : ι → Env ℝ → ℝ) (hm : ∀ p ∈ ps, EnvMeas (φ p))
    (ht : ∀ p ∈ ps, ∀ β : String → Bool, Tame D.reals (D.restricted ab (φ p)) ⟨β, env0.r⟩) :
    D.volumeOf ab (fun σ => (ps.map fun p => φ p σ).sum) = (ps.map fun p => D.volumeOf ab (φ p)).sum := by
  suffices H : D.volumeOf ab (fun σ => (ps.map fun p => φ p σ).sum) = (ps.map fun p => D.volumeOf ab (φ p)).sum ∧
      EnvMeas (fun σ => (ps.map fun p => φ p σ).sum) ∧
      ∀ β : String → Bool, Tame D.reals (D.restricted ab (fun σ => (ps.map fun p => φ p σ).sum)) ⟨β, env0.r⟩ from H.1
  induction ps with
  | nil =>
    have hz : D.restricted ab (fun _ => (0 : ℝ)) = fun _ => 0 := by funext σ; simp [Domain.restricted]
    simp only [List.map_nil, List.sum_nil]
    refine ⟨?_, by intro Ω _ e _ _; exact measurable_const, fun β => by rw [hz]; exact Tame.zero⟩
    have h0 : ∀ bs σ, sumBools bs (fun _ => (0:ℝ)) σ = 0 := by
      intro bs
      induction bs with
      | nil => intro σ; rfl
      | cons b bs ih => intro σ; simp [sumBools, ih]
    rw [Domain.volumeOf, hz, wmiOf]
    refine (sumBools_congr (ψ := fun _ => 0) fun β => by unfold intReals; simp).trans (h0 _ _)
  | cons p ps ih =>
    obtain ⟨h1, h2, h3⟩ := ih (fun q hq => hm q (by simp [hq])) (fun q hq => ht q (by simp [hq]))
    have hm1 : EnvMeas (φ p) := hm p (by simp)
    have ht1 := ht p (by simp)
    simp only [List.map_cons, List.sum_cons]
    refine ⟨?_, fun {Ω} _ e hr hb => (hm1 e hr hb).add (h2 e hr hb), fun β => ?_⟩
    · rw [← h1, Domain.volumeOf, restricted_add]
      exact wmiOf_add (restricted_meas D ab hm1) (restricted_meas D ab h2) ht1 h3
    · rw [restricted_add]
      exact (ht1 β).add (h3 β)

end Pywmi
