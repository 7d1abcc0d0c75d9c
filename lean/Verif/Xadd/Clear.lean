import Verif.Xadd.ConvertRun
import Verif.Spec.Null
import Verif.Spec.Problem
import Verif.Props.XsddLemmas

set_option linter.unusedSectionVars false
set_option linter.unusedSimpArgs false

/-!
# Away from the boundaries a pool reads formulas and weights as they are
-/

namespace Pywmi
open Formula MeasureTheory

/-- SPEC: the two sides of a comparison differ; a comparison `<=` may also be one of identical functions. -/
def clearAt (σ : Env ℝ) : Formula → Prop
  | .le l r => value σ l ≠ value σ r ∨ ∀ τ : Env ℝ, value τ l = value τ r
  | .lt l r => value σ l ≠ value σ r
  | _ => True

/-- SPEC: the assignment is on no boundary of a comparison of the formula. -/
def ClearOf (σ : Env ℝ) (f : Formula) : Prop := ∀ a ∈ atoms f, clearAt σ a

theorem readTest_equal {l r : Formula} (hl : linTerm l = true) (hr : linTerm r = true) (h : ∀ τ : Env ℝ, value τ l = value τ r) (σ : Env ℝ) :
    readTest σ (.le l r) = true := by
  obtain ⟨q, hq⟩ := linRead_cmp hl hr (Or.inl rfl)
  obtain ⟨c, hc, hs⟩ := hq.scale
  have h0 : ∀ τ : Env ℝ, polyEval τ.r q = 0 := fun τ => by rw [hs τ, gap, h τ]; simp
  have hnil : q = [] := by
    by_contra hne
    by_cases hv : ∃ p ∈ q, p.1 ≠ []
    · obtain ⟨p, hp, hpn⟩ := hv
      have hlen := hq.lin p hp
      match hp1 : p.1, hlen, hpn with
      | [x], _, _ =>
        have hx := linCoef_ne_zero hq.nodup hq.nz (List.mem_map.mpr ⟨p, hp, hp1⟩)
        have e := polyEval_var hq.nodup hq.lin x (fun _ => (0 : ℝ))
        have e0 := (e 0).symm.trans (h0 ⟨fun _ => false, fun y => if y = x then 0 else 0⟩)
        have e1 := (e 1).symm.trans (h0 ⟨fun _ => false, fun y => if y = x then 1 else 0⟩)
        have : (linCoef q [x] : ℝ) = 0 := by linarith
        exact hx (by exact_mod_cast this)
    · push Not at hv
      match hq' : q, hne with
      | p :: q', _ =>
        have hp := hv p (by simp)
        have hn := hq.nodup
        have hrest : q' = [] := by
          rw [List.eq_nil_iff_forall_not_mem]
          intro p' hp'
          simp only [KeysNodup, List.map_cons, List.nodup_cons] at hn
          exact hn.1 (List.mem_map.mpr ⟨p', hp', (hv p' (by simp [hp'])).trans hp.symm⟩)
        subst hrest
        have := h0 ⟨fun _ => false, fun _ => 0⟩
        rw [polyEval_cons, polyEval_nil, hp] at this
        simp only [monoEval, List.map_nil, List.prod_nil, mul_one, add_zero] at this
        exact hq.nz p (by simp) (by exact_mod_cast this)
  rw [readTest_lin hq, hnil]
  simp [readDict, leadCoef, linCoef, polyEval]
  split <;> simp

theorem readTest_clear {l r : Formula} (hl : linTerm l = true) (hr : linTerm r = true) {σ : Env ℝ} (h : clearAt σ (.le l r)) :
    readTest σ (.le (cterm l) (cterm r)) = truth σ (.le l r) := by
  obtain ⟨l1, l2, -⟩ := cterm_spec l hl
  obtain ⟨r1, r2, -⟩ := cterm_spec r hr
  rcases h with h | h
  · rw [readTest_truth (.le l1 r1) σ (by simpa [onBoundary, l2, r2] using h)]
    simp only [truth, l2, r2]
  · rw [readTest_equal l1 r1 (fun τ => by rw [l2, r2]; exact h τ)]
    simp [truth, h σ]

theorem readAll_eq {σ : Env ℝ} {as : List Formula} (h : ∀ a ∈ as, readF σ a = truth σ a) : readAll σ as = truthAll σ as := by
  induction as with
  | nil => rfl
  | cons a as ih => simp only [readAll, truthAll]; rw [h a (by simp), ih fun b hb => h b (by simp [hb])]
theorem readAny_eq {σ : Env ℝ} {as : List Formula} (h : ∀ a ∈ as, readF σ a = truth σ a) : readAny σ as = truthAny σ as := by
  induction as with
  | nil => rfl
  | cons a as ih => simp only [readAny, truthAny]; rw [h a (by simp), ih fun b hb => h b (by simp [hb])]
theorem readSum_eq {σ : Env ℝ} {as : List Formula} (h : ∀ a ∈ as, readV σ a = value σ a) : readSum σ as = valueSum σ as := by
  induction as with
  | nil => rfl
  | cons a as ih => simp only [readSum, valueSum]; rw [h a (by simp), ih fun b hb => h b (by simp [hb])]
theorem readProd_eq {σ : Env ℝ} {as : List Formula} (h : ∀ a ∈ as, readV σ a = value σ a) : readProd σ as = valueProd σ as := by
  induction as with
  | nil => rfl
  | cons a as ih => simp only [readProd, valueProd]; rw [h a (by simp), ih fun b hb => h b (by simp [hb])]

/-- Off the boundaries the reading of a formula is its truth value. -/
theorem readF_clear (f : Formula) : supB f = true → ∀ {σ : Env ℝ}, ClearOf σ f → readF σ f = truth σ f := by
  induction f using Formula.induct with
  | and as ih =>
    simp only [supB, Bool.and_eq_true, supBAll_iff]
    intro h σ hc
    simp only [readF, truth]
    exact readAll_eq fun a ha => ih a ha (h.2 a ha) fun x hx => hc x (by simp only [atoms]; exact mem_atomsList.mpr ⟨a, ha, hx⟩)
  | or as ih =>
    simp only [supB, Bool.and_eq_true, supBAll_iff]
    intro h σ hc
    simp only [readF, truth]
    exact readAny_eq fun a ha => ih a ha (h.2 a ha) fun x hx => hc x (by simp only [atoms]; exact mem_atomsList.mpr ⟨a, ha, hx⟩)
  | implies l r ihl ihr =>
    simp only [supB, Bool.and_eq_true]
    intro h σ hc
    simp only [readF, truth]
    rw [ihl h.1 fun x hx => hc x (by simp [atoms, hx]), ihr h.2 fun x hx => hc x (by simp [atoms, hx])]
  | iff l r ihl ihr =>
    simp only [supB, Bool.and_eq_true]
    intro h σ hc
    simp only [readF, truth]
    rw [ihl h.1 fun x hx => hc x (by simp [atoms, hx]), ihr h.2 fun x hx => hc x (by simp [atoms, hx])]
  | not a ih =>
    simp only [supB]
    intro h σ hc
    simp only [readF, truth]
    rw [ih h fun x hx => hc x (by simp [atoms, hx])]
  | ite c t e ihc iht ihe =>
    simp only [supB, Bool.and_eq_true]
    intro h σ hc
    simp only [readF, truth]
    rw [ihc h.1 fun x hx => hc x (by simp [atoms, hx]), iht h.2.1 fun x hx => hc x (by simp [atoms, hx]),
      ihe h.2.2 fun x hx => hc x (by simp [atoms, hx])]
  | le l r _ _ =>
    simp only [supB, Bool.and_eq_true]
    intro h σ hc
    exact readTest_clear h.1 h.2 (hc _ (by simp [atoms]))
  | lt l r _ _ =>
    simp only [supB, Bool.and_eq_true]
    intro h σ hc
    have hne : value σ l ≠ value σ r := hc (.lt l r) (by simp [atoms])
    simp only [readF]
    rw [readTest_clear h.1 h.2 (Or.inl hne), Bool.eq_iff_iff]
    simp only [truth, decide_eq_true_eq]
    exact ⟨fun h => lt_of_le_of_ne h hne, le_of_lt⟩
  | sym n t => intro _ σ _; rfl
  | boolC b => intro _ σ _; rfl
  | _ => simp [supB]

/-- Off the boundaries the reading of a weight is its value. -/
theorem readV_clear (f : Formula) : supW f = true → ∀ {σ : Env ℝ}, ClearOf σ f → readV σ f = value σ f := by
  induction f using Formula.induct with
  | times as ih =>
    simp only [supW, Bool.and_eq_true, supWAll_iff]
    intro h σ hc
    simp only [readV, value]
    exact readProd_eq fun a ha => ih a ha (h.2 a ha) fun x hx => hc x (by simp only [atoms]; exact mem_atomsList.mpr ⟨a, ha, hx⟩)
  | plus as ih =>
    simp only [supW, Bool.and_eq_true, supWAll_iff]
    intro h σ hc
    simp only [readV, value]
    exact readSum_eq fun a ha => ih a ha (h.2 a ha) fun x hx => hc x (by simp only [atoms]; exact mem_atomsList.mpr ⟨a, ha, hx⟩)
  | minus l r ihl ihr =>
    simp only [supW, Bool.and_eq_true]
    intro h σ hc
    simp only [readV, value]
    rw [ihl h.1 fun x hx => hc x (by simp [atoms, hx]), ihr h.2 fun x hx => hc x (by simp [atoms, hx])]
  | ite c t e _ iht ihe =>
    simp only [supW, Bool.and_eq_true]
    intro h σ hc
    simp only [readV, value]
    rw [readF_clear c h.1 fun x hx => hc x (by simp [atoms, hx]), iht h.2.1 fun x hx => hc x (by simp [atoms, hx]),
      ihe h.2.2 fun x hx => hc x (by simp [atoms, hx])]
  | pow b e ihb _ =>
    cases e with
    | realC q =>
      simp only [supW, Bool.and_eq_true]
      intro h σ hc
      simp only [readV, value]
      rw [ihb h.1 fun x hx => hc x (by simp [atoms, hx]), if_pos (by simpa using h.2)]
    | _ => simp [supW]
  | sym n t => intro _ σ _; rfl
  | realC q => intro _ σ _; rfl
  | _ => simp [supW]

theorem supB_litOk (f : Formula) : supB f = true → litOk f = true := by
  induction f using Formula.induct with
  | and as ih => simp only [supB, litOk, Bool.and_eq_true, supBAll_iff, litOkAll_iff]; exact fun h a ha => ih a ha (h.2 a ha)
  | or as ih => simp only [supB, litOk, Bool.and_eq_true, supBAll_iff, litOkAll_iff]; exact fun h a ha => ih a ha (h.2 a ha)
  | implies l r ihl ihr => simp only [supB, litOk, Bool.and_eq_true]; exact fun h => ⟨ihl h.1, ihr h.2⟩
  | iff l r ihl ihr => simp only [supB, litOk, Bool.and_eq_true]; exact fun h => ⟨ihl h.1, ihr h.2⟩
  | not a ih => simp only [supB, litOk]; exact ih
  | ite c t e ihc iht ihe => simp only [supB, litOk, Bool.and_eq_true]; exact fun h => ⟨ihc h.1, iht h.2.1, ihe h.2.2⟩
  | le l r _ _ => exact fun h => h
  | lt l r _ _ => exact fun h => h
  | sym n t => cases t <;> simp [supB, litOk]
  | boolC b => exact fun h => h
  | _ => simp [supB]

/-- The comparisons in supported weights are linear. -/
theorem supW_atoms (f : Formula) : supW f = true → ∀ a ∈ atoms f,
    (∃ l r, (a = .le l r ∨ a = .lt l r) ∧ linTerm l = true ∧ linTerm r = true) ∧ ∀ p ∈ syms a, p ∈ syms f := by
  have lst : ∀ {as : List Formula}, (∀ x ∈ as, supW x = true → ∀ a ∈ atoms x,
      (∃ l r, (a = .le l r ∨ a = .lt l r) ∧ linTerm l = true ∧ linTerm r = true) ∧ ∀ p ∈ syms a, p ∈ syms x) →
      supWAll as = true → ∀ a ∈ atomsList as,
      (∃ l r, (a = .le l r ∨ a = .lt l r) ∧ linTerm l = true ∧ linTerm r = true) ∧ ∀ p ∈ syms a, p ∈ symsList as := by
    intro as ih h a ha
    obtain ⟨x, hx, hax⟩ := mem_atomsList.mp ha
    obtain ⟨h1, h2⟩ := ih x hx ((supWAll_iff as).mp h x hx) a hax
    exact ⟨h1, fun p hp => mem_symsList.mpr ⟨x, hx, h2 p hp⟩⟩
  induction f using Formula.induct with
  | times as ih => simp only [supW, Bool.and_eq_true]; exact fun h => lst ih h.2
  | plus as ih => simp only [supW, Bool.and_eq_true]; exact fun h => lst ih h.2
  | minus l r ihl ihr =>
    intro h a ha
    simp only [supW, Bool.and_eq_true] at h
    rcases List.mem_append.mp ha with ha | ha
    · obtain ⟨h1, h2⟩ := ihl h.1 a ha; exact ⟨h1, fun p hp => List.mem_append_left _ (h2 p hp)⟩
    · obtain ⟨h1, h2⟩ := ihr h.2 a ha; exact ⟨h1, fun p hp => List.mem_append_right _ (h2 p hp)⟩
  | ite c t e _ iht ihe =>
    intro h a ha
    simp only [supW, Bool.and_eq_true] at h
    simp only [atoms, List.mem_append] at ha
    simp only [syms, List.mem_append]
    rcases ha with ha | ha | ha
    · obtain ⟨h1, h2⟩ := litOk_atoms c (supB_litOk c h.1) a ha; exact ⟨h1, fun p hp => by simp [h2 p hp]⟩
    · obtain ⟨h1, h2⟩ := iht h.2.1 a ha; exact ⟨h1, fun p hp => by simp [h2 p hp]⟩
    · obtain ⟨h1, h2⟩ := ihe h.2.2 a ha; exact ⟨h1, fun p hp => by simp [h2 p hp]⟩
  | pow b e ihb _ =>
    cases e with
    | realC q =>
      intro h a ha
      simp only [supW, Bool.and_eq_true] at h
      simp only [atoms, List.append_nil] at ha
      obtain ⟨h1, h2⟩ := ihb h.1 a ha
      exact ⟨h1, fun p hp => by simp [syms, h2 p hp]⟩
    | _ => simp [supW]
  | sym n t => intro _ a ha; cases ha
  | realC q => intro _ a ha; cases ha
  | _ => simp [supW]

/-- SPEC: no strict comparison compares terms that are equal everywhere. -/
def Generic (f : Formula) : Prop := ∀ l r, Formula.lt l r ∈ atoms f → ∃ τ : Env ℝ, value τ l ≠ value τ r

theorem clear_ae {D : Domain} (hD : D.WF) {f : Formula}
    (hl : ∀ a ∈ atoms f, (∃ l r, (a = .le l r ∨ a = .lt l r) ∧ linTerm l = true ∧ linTerm r = true) ∧ ∀ p ∈ syms a, p ∈ syms f)
    (hv : D.covers f) (hg : Generic f) (σ : Env ℝ) : ∀ᵐ x, ClearOf (σ.setReals D.reals x) f := by
  have : ∀ a ∈ {a | a ∈ atoms f}, ∀ᵐ x, clearAt (σ.setReals D.reals x) a := by
    intro a ha
    obtain ⟨⟨l, r, hlr, h1, h2⟩, hs⟩ := hl a ha
    have hcov : ∀ p ∈ syms l ++ syms r, p.1 ∈ D.reals := fun p hp => by
      have hreal : p.2 = .real := by
        rcases List.mem_append.mp hp with hp | hp
        · exact isAllReal_syms l (linTerm_allReal l h1) p hp
        · exact isAllReal_syms r (linTerm_allReal r h2) p hp
      have := hv p (hs p (by rcases hlr with rfl | rfl <;> exact hp))
      rw [hreal] at this
      exact mem_reals.mpr this
    by_cases hne : ∃ τ : Env ℝ, value τ l ≠ value τ r
    · have := boundary_null h1 h2 (reals_nodup hD) hcov hne σ
      rcases hlr with rfl | rfl
      · exact this.mono fun x hx => Or.inl hx
      · exact this
    · rcases hlr with rfl | rfl
      · push Not at hne
        exact Filter.Eventually.of_forall fun x => Or.inr hne
      · exact absurd (hg l r ha) hne
  exact (ae_ball_iff (List.finite_toSet (atoms f)).countable).mpr this

end Pywmi
