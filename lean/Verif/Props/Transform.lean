import Verif.Smt.Transform
import Verif.Props.Check
import Verif.Props.Math

set_option linter.unusedSectionVars false
set_option linter.unusedSimpArgs false

/-!
# Properties of the formula transformers (C03, C04, C05)
-/

namespace Pywmi
open Formula Prog

section
variable {K : Type} [Field K] [LinearOrder K] [IsStrictOrderedRing K]

/-- What a rebuilding walk guarantees. -/
structure RebuildOk (K : Type) [Field K] [LinearOrder K] (c : ℚ → ℚ) (ty : Ty) (f r : Formula) : Prop where
  wt : wt ty r = true
  rebuilt : rebuilt r = true
  isConst : ∀ q, f = .realC q → r = .realC (c q)
  sem : ∀ σ : Env K, den σ ty r = den σ ty (mapConst c f)
  nonneg : (∀ q, 0 ≤ c q) → ∀ q ∈ consts r, 0 ≤ q

theorem RebuildOk.truth {c : ℚ → ℚ} {f r : Formula} (h : RebuildOk K c .bool f r) (σ : Env K) :
    Formula.truth σ r = Formula.truth σ (mapConst c f) := by simpa [den] using h.sem σ
theorem RebuildOk.value {c : ℚ → ℚ} {f r : Formula} (h : RebuildOk K c .real f r) (σ : Env K) :
    Formula.value σ r = Formula.value σ (mapConst c f) := by simpa [den] using h.sem σ

theorem all_of_map_eq {α β : Type} {f : α → Bool} {g : β → Bool} {as : List α} {bs : List β}
    (h : as.map f = bs.map g) : as.all f = bs.all g := by
  have := congrArg (List.all · id) h
  simpa [List.all_map, Function.comp_def] using this

theorem any_of_map_eq {α β : Type} {f : α → Bool} {g : β → Bool} {as : List α} {bs : List β}
    (h : as.map f = bs.map g) : as.any f = bs.any g := by
  have := congrArg (List.any · id) h
  simpa [List.any_map, Function.comp_def] using this

theorem rebuild_sound (c : ℚ → ℚ) (hc : ∀ q : ℚ, q.den = 1 → 0 ≤ q.num → c q = q) (f : Formula) (ty : Ty)
    (hwt : wt ty f = true) : ∃ r, (rebuildW c).walk f = .ok r ∧ RebuildOk K c ty f r := by
  refine Walker.sound (rebuildW_decr c) (fun _ => True) (RebuildOk K c) ?_ ?_ ?_ ?_ ?_ ?_ ?_ ?_ ?_ ?_ ?_ ?_ ?_ ?_
    (fun _ _ => rfl) ?_ ?_ f ty hwt fun _ _ => trivial
  · -- and
    intro g as rs hne _ hm hD
    refine ⟨mkAnd rs, ?_, ?_⟩
    · show interp g (callAll as fun rs => .done (mkAnd rs)) = _
      rw [interp_callAll, hm]; rfl
    · refine ⟨wt_mkAnd fun r hr => ?_, rebuilt_mkAnd fun r hr => ?_, by simp, fun σ => ?_, fun h0 q hq => ?_⟩
      · obtain ⟨a, _, h⟩ := forall₂_mem_right hD r hr; exact h.wt
      · obtain ⟨a, _, h⟩ := forall₂_mem_right hD r hr; exact h.rebuilt
      · have := forall₂_map_eq (hD.imp fun a r h => h.truth σ)
        simp only [den, truth_mkAnd, mapConst, Formula.truth, truthAll_eq, mapConstList_eq, List.all_map]
        congr 1
        exact all_of_map_eq this
      · obtain ⟨r, hr, hq⟩ := consts_mkAnd hq
        obtain ⟨a, _, h⟩ := forall₂_mem_right hD r hr; exact h.nonneg h0 q hq
  · -- or
    intro g as rs hne _ hm hD
    refine ⟨mkOr rs, ?_, ?_⟩
    · show interp g (callAll as fun rs => .done (mkOr rs)) = _
      rw [interp_callAll, hm]; rfl
    · refine ⟨wt_mkOr fun r hr => ?_, rebuilt_mkOr fun r hr => ?_, by simp, fun σ => ?_, fun h0 q hq => ?_⟩
      · obtain ⟨a, _, h⟩ := forall₂_mem_right hD r hr; exact h.wt
      · obtain ⟨a, _, h⟩ := forall₂_mem_right hD r hr; exact h.rebuilt
      · have := forall₂_map_eq (hD.imp fun a r h => h.truth σ)
        simp only [den, truth_mkOr, mapConst, Formula.truth, truthAny_eq, mapConstList_eq, List.any_map]
        congr 1
        exact any_of_map_eq this
      · obtain ⟨r, hr, hq⟩ := consts_mkOr hq
        obtain ⟨a, _, h⟩ := forall₂_mem_right hD r hr; exact h.nonneg h0 q hq
  · -- times
    intro g as rs hne hm hD
    have hrs : rs ≠ [] := by rintro rfl; cases hD; exact hne rfl
    obtain ⟨f, hf⟩ := mkTimes_ok hrs
    refine ⟨f, ?_, ?_⟩
    · show interp g (callAll as fun rs => .ofExcept (mkTimes rs)) = _
      rw [interp_callAll, hm]; simp [hf]
    · refine ⟨wt_mkTimes (fun r hr => ?_) hf, rebuilt_mkTimes (fun r hr => ?_) hf, by simp, fun σ => ?_, fun h0 q hq => ?_⟩
      · obtain ⟨a, _, h⟩ := forall₂_mem_right hD r hr; exact h.wt
      · obtain ⟨a, _, h⟩ := forall₂_mem_right hD r hr; exact h.rebuilt
      · have := forall₂_map_eq (hD.imp fun a r h => h.value σ)
        simp only [den, value_mkTimes hf, this, mapConst, Formula.value, valueProd_eq, mapConstList_eq, List.map_map]
        rfl
      · obtain ⟨r, hr, hq⟩ := consts_mkTimes hf hq
        obtain ⟨a, _, h⟩ := forall₂_mem_right hD r hr; exact h.nonneg h0 q hq
  · -- plus
    intro g as rs hne hm hD
    have hrs : rs ≠ [] := by rintro rfl; cases hD; exact hne rfl
    obtain ⟨f, hf⟩ := mkPlus_ok hrs
    refine ⟨f, ?_, ?_⟩
    · show interp g (callAll as fun rs => .ofExcept (mkPlus rs)) = _
      rw [interp_callAll, hm]; simp [hf]
    · refine ⟨wt_mkPlus (fun r hr => ?_) hf, rebuilt_mkPlus (fun r hr => ?_) hf, by simp, fun σ => ?_, fun h0 q hq => ?_⟩
      · obtain ⟨a, _, h⟩ := forall₂_mem_right hD r hr; exact h.wt
      · obtain ⟨a, _, h⟩ := forall₂_mem_right hD r hr; exact h.rebuilt
      · have := forall₂_map_eq (hD.imp fun a r h => h.value σ)
        simp only [den, value_mkPlus hf, this, mapConst, Formula.value, valueSum_eq, mapConstList_eq, List.map_map]
        rfl
      · obtain ⟨r, hr, hq⟩ := consts_mkPlus hf hq
        obtain ⟨a, _, h⟩ := forall₂_mem_right hD r hr; exact h.nonneg h0 q hq
  · -- not
    intro g a ra _ ha hD
    refine ⟨mkNot ra, ?_, wt_mkNot hD.wt, rebuilt_mkNot hD.rebuilt, by simp, fun σ => ?_, ?_⟩
    · show interp g (.call a fun r => .done (mkNot r)) = _
      simp [interp, ha]
    · simp [den, mapConst, Formula.truth, hD.truth σ]
    · intro h0 q hq; rw [consts_mkNot] at hq; exact hD.nonneg h0 q hq
  · -- minus
    intro g l r rl rr hl hr hDl hDr
    refine ⟨.minus rl rr, ?_, by simp [Formula.wt, hDl.wt, hDr.wt],
      by simp [Pywmi.rebuilt, hDl.rebuilt, hDr.rebuilt], by simp, fun σ => ?_, ?_⟩
    · refine (interp_call2 g l r _).trans ?_; rw [hl, hr]
    · simp [den, mapConst, Formula.value, hDl.value σ, hDr.value σ]
    · intro h0 q hq; simp only [consts, List.mem_append] at hq
      exact hq.elim (hDl.nonneg h0 q) (hDr.nonneg h0 q)
  · -- ite
    intro g ty i t e ri rt re hwi hwt hwe hi ht he hDi hDt hDe
    refine ⟨.ite ri rt re, ?_, ?_, by simp [Pywmi.rebuilt, hDi.rebuilt, hDt.rebuilt, hDe.rebuilt], by simp, fun σ => ?_, ?_⟩
    · show interp g (.call i fun a => .call t fun b => .call e fun d => .done (.ite a b d)) = _
      simp [interp, hi, ht, he]
    · cases ty <;> simp [Formula.wt, hDi.wt, hDt.wt, hDe.wt]
    · cases ty
      · simp [den, mapConst, Formula.truth, hDi.truth σ, hDt.truth σ, hDe.truth σ]
      · simp [den, mapConst, Formula.value, hDi.truth σ, hDt.value σ, hDe.value σ]
    · intro h0 q hq; simp only [consts, List.mem_append] at hq
      rcases hq with hq | hq | hq
      · exact hDi.nonneg h0 q hq
      · exact hDt.nonneg h0 q hq
      · exact hDe.nonneg h0 q hq
  · -- pow
    intro g b q rb rq hq1 hq2 hb hq hDb hDq
    have hrq : rq = .realC q := by rw [hDq.isConst q rfl, hc q hq1 hq2]
    subst hrq
    have hval : ∀ σ : Env K, Formula.value σ (mapConst c (.pow b (.realC q))) = Formula.value σ rb ^ q.num.toNat := by
      intro σ
      simp only [mapConst, hc q hq1 hq2, Formula.value, hq1, hq2, and_self, if_true, hDb.value σ]
    by_cases hcst : ∃ x, rb = .realC x
    · obtain ⟨x, rfl⟩ := hcst
      refine ⟨.realC (x ^ q.num.toNat), ?_, rfl, rfl, by simp, fun σ => ?_, ?_⟩
      · refine (interp_call2 g b (.realC q) _).trans ?_; rw [hb, hq]; simp [mkPow, hq1, hq2]
      · simp only [den, hval]; simp [Formula.value]
      · intro h0 y hy
        simp only [consts, List.mem_singleton] at hy
        subst hy
        exact pow_nonneg (hDb.nonneg h0 x (by simp [consts])) _
    · have hpow : mkPow rb (.realC q) = .ok (.pow rb (.realC q)) := by
        cases rb <;> simp_all [mkPow]
      refine ⟨.pow rb (.realC q), ?_, ?_, ?_, by simp, fun σ => ?_, ?_⟩
      · refine (interp_call2 g b (.realC q) _).trans ?_; rw [hb, hq]; exact hpow
      · simp [Formula.wt, hDb.wt, hq1, hq2]
      · simp only [Pywmi.rebuilt, hDb.rebuilt, Bool.and_true, Bool.true_and]
        cases rb <;> simp_all
      · simp only [den, hval]; simp [Formula.value, hq1, hq2]
      · intro h0 y hy
        simp only [consts, List.mem_append, List.mem_singleton] at hy
        rcases hy with hy | hy
        · exact hDb.nonneg h0 y hy
        · subst hy; exact Rat.num_nonneg.mp hq2
  · -- le
    intro g l r rl rr _ _ hl hr hDl hDr
    refine ⟨.le rl rr, ?_, by simp [Formula.wt, hDl.wt, hDr.wt],
      by simp [Pywmi.rebuilt, hDl.rebuilt, hDr.rebuilt], by simp, fun σ => ?_, ?_⟩
    · refine (interp_call2 g l r _).trans ?_; rw [hl, hr]
    · simp [den, mapConst, Formula.truth, hDl.value σ, hDr.value σ]
    · intro h0 q hq; simp only [consts, List.mem_append] at hq
      exact hq.elim (hDl.nonneg h0 q) (hDr.nonneg h0 q)
  · -- lt
    intro g l r rl rr _ _ hl hr hDl hDr
    refine ⟨.lt rl rr, ?_, by simp [Formula.wt, hDl.wt, hDr.wt],
      by simp [Pywmi.rebuilt, hDl.rebuilt, hDr.rebuilt], by simp, fun σ => ?_, ?_⟩
    · refine (interp_call2 g l r _).trans ?_; rw [hl, hr]
    · simp [den, mapConst, Formula.truth, hDl.value σ, hDr.value σ]
    · intro h0 q hq; simp only [consts, List.mem_append] at hq
      exact hq.elim (hDl.nonneg h0 q) (hDr.nonneg h0 q)
  · -- equals
    intro g l r rl rr _ _ hl hr hDl hDr
    refine ⟨.equals rl rr, ?_, by simp [Formula.wt, hDl.wt, hDr.wt],
      by simp [Pywmi.rebuilt, hDl.rebuilt, hDr.rebuilt], by simp, fun σ => ?_, ?_⟩
    · refine (interp_call2 g l r _).trans ?_; rw [hl, hr]
    · simp [den, mapConst, Formula.truth, hDl.value σ, hDr.value σ]
    · intro h0 q hq; simp only [consts, List.mem_append] at hq
      exact hq.elim (hDl.nonneg h0 q) (hDr.nonneg h0 q)
  · -- symbol
    intro g n t _
    refine ⟨.sym n t, rfl, by cases t <;> rfl, rfl, by simp, fun σ => by simp [mapConst], by simp [consts]⟩
  · intro g b
    exact ⟨.boolC b, rfl, rfl, rfl, by simp, fun σ => by simp [mapConst], by simp [consts]⟩
  · intro g q
    refine ⟨.realC (c q), rfl, rfl, rfl, ?_, fun σ => by simp [mapConst], ?_⟩
    · intro q' h; cases h; rfl
    · intro h0 y hy; simp only [consts, List.mem_singleton] at hy; subst hy; exact h0 q
  · -- implies
    intro l r x h
    refine ⟨h.wt, h.rebuilt, by simp, fun σ => ?_, h.nonneg⟩
    have := h.truth σ
    have hn : Formula.truth σ (mapConst c (mkNot l)) = !Formula.truth σ (mapConst c l) := by
      unfold mkNot; split <;> simp [mapConst, Formula.truth]
    simp only [den, Val.b.injEq, mapConst, Formula.truth] at this ⊢
    simp only [mkOr, mapConst, mapConstList, Formula.truth, truthAny, Bool.or_false, hn] at this
    exact this
  · -- iff
    intro l r x h
    refine ⟨h.wt, h.rebuilt, by simp, fun σ => ?_, h.nonneg⟩
    have := h.truth σ
    simp only [den, Val.b.injEq, mapConst, mapConstList, Formula.truth, truthAll, Bool.and_true] at this ⊢
    rw [this]
    cases Formula.truth σ (mapConst c l) <;> cases Formula.truth σ (mapConst c r) <;> rfl

/-- A rebuilt formula with fixed constants is returned unchanged. -/
theorem rebuild_fixpoint (c : ℚ → ℚ) (f : Formula) : ∀ ty, wt ty f = true → rebuilt f = true →
    (∀ q ∈ consts f, c q = q) → (rebuildW c).walk f = .ok f := by
  have hmap : ∀ as : List Formula, (∀ a ∈ as, (rebuildW c).walk a = .ok a) →
      mapE (rebuildW c).walk as = .ok as := by
    intro as h
    have := mapE_ok (g := (rebuildW c).walk) (h := id) (as := as) (by simpa using h)
    simpa using this
  have hand : ∀ as : List Formula, 2 ≤ as.length → mkAnd as = .and as := by
    intro as h; unfold mkAnd; split <;> simp_all
  have hor : ∀ as : List Formula, 2 ≤ as.length → mkOr as = .or as := by
    intro as h; unfold mkOr; split <;> simp_all
  have hplus : ∀ as : List Formula, 2 ≤ as.length → mkPlus as = .ok (.plus as) := by
    intro as h; unfold mkPlus; split <;> simp_all
  have htimes : ∀ as : List Formula, 2 ≤ as.length → mkTimes as = .ok (.times as) := by
    intro as h; unfold mkTimes; split <;> simp_all
  induction f using Formula.induct with
  | and as ih =>
    intro ty hw hr hq
    cases ty
    · simp only [wt, Bool.and_eq_true, wtAll_iff] at hw
      simp only [rebuilt, Bool.and_eq_true, rebuiltAll_iff, decide_eq_true_eq] at hr
      simp only [consts, mem_constsList] at hq
      rw [Walker.walk_eq (rebuildW_decr c)]
      show interp _ (callAll as fun rs => .done (mkAnd rs)) = _
      rw [interp_callAll, hmap as fun a ha => ih a ha _ (hw.2 a ha) (hr.2 a ha) fun q h => hq q ⟨a, ha, h⟩]
      simp [interp, hand as hr.1]
    · simp [wt] at hw
  | or as ih =>
    intro ty hw hr hq
    cases ty
    · simp only [wt, Bool.and_eq_true, wtAll_iff] at hw
      simp only [rebuilt, Bool.and_eq_true, rebuiltAll_iff, decide_eq_true_eq] at hr
      simp only [consts, mem_constsList] at hq
      rw [Walker.walk_eq (rebuildW_decr c)]
      show interp _ (callAll as fun rs => .done (mkOr rs)) = _
      rw [interp_callAll, hmap as fun a ha => ih a ha _ (hw.2 a ha) (hr.2 a ha) fun q h => hq q ⟨a, ha, h⟩]
      simp [interp, hor as hr.1]
    · simp [wt] at hw
  | times as ih =>
    intro ty hw hr hq
    cases ty
    · simp [wt] at hw
    · simp only [wt, Bool.and_eq_true, wtAll_iff] at hw
      simp only [rebuilt, Bool.and_eq_true, rebuiltAll_iff, decide_eq_true_eq] at hr
      simp only [consts, mem_constsList] at hq
      rw [Walker.walk_eq (rebuildW_decr c)]
      show interp _ (callAll as fun rs => .ofExcept (mkTimes rs)) = _
      rw [interp_callAll, hmap as fun a ha => ih a ha _ (hw.2 a ha) (hr.2 a ha) fun q h => hq q ⟨a, ha, h⟩]
      simp [htimes as hr.1]
  | plus as ih =>
    intro ty hw hr hq
    cases ty
    · simp [wt] at hw
    · simp only [wt, Bool.and_eq_true, wtAll_iff] at hw
      simp only [rebuilt, Bool.and_eq_true, rebuiltAll_iff, decide_eq_true_eq] at hr
      simp only [consts, mem_constsList] at hq
      rw [Walker.walk_eq (rebuildW_decr c)]
      show interp _ (callAll as fun rs => .ofExcept (mkPlus rs)) = _
      rw [interp_callAll, hmap as fun a ha => ih a ha _ (hw.2 a ha) (hr.2 a ha) fun q h => hq q ⟨a, ha, h⟩]
      simp [hplus as hr.1]
  | implies l r _ _ => intro ty _ hr; simp [rebuilt] at hr
  | iff l r _ _ => intro ty _ hr; simp [rebuilt] at hr
  | not a ih =>
    intro ty hw hr hq
    cases ty
    · simp only [wt] at hw
      simp only [rebuilt, Bool.and_eq_true] at hr
      simp only [consts] at hq
      rw [Walker.walk_eq (rebuildW_decr c)]
      show interp _ (.call a fun r => .done (mkNot r)) = _
      simp only [interp, ih .bool hw hr.2 hq]
      cases a <;> simp_all [mkNot]
    · simp [wt] at hw
  | minus l r ihl ihr =>
    intro ty hw hr hq
    cases ty
    · simp [wt] at hw
    · simp only [wt, Bool.and_eq_true] at hw
      simp only [rebuilt, Bool.and_eq_true] at hr
      simp only [consts, List.mem_append] at hq
      rw [Walker.walk_eq (rebuildW_decr c)]
      refine (interp_call2 _ l r _).trans ?_
      rw [ihl .real hw.1 hr.1 fun q h => hq q (.inl h), ihr .real hw.2 hr.2 fun q h => hq q (.inr h)]
  | le l r ihl ihr | lt l r ihl ihr | equals l r ihl ihr =>
    intro ty hw hr hq
    cases ty
    · simp only [wt, Bool.and_eq_true] at hw
      simp only [rebuilt, Bool.and_eq_true] at hr
      simp only [consts, List.mem_append] at hq
      rw [Walker.walk_eq (rebuildW_decr c)]
      refine (interp_call2 _ l r _).trans ?_
      rw [ihl .real hw.1 hr.1 fun q h => hq q (.inl h), ihr .real hw.2 hr.2 fun q h => hq q (.inr h)]
    · simp [wt] at hw
  | ite i t e ihi iht ihe =>
    intro ty hw hr hq
    have hw' : wt .bool i = true ∧ wt ty t = true ∧ wt ty e = true := by
      cases ty <;> simpa [wt, and_assoc] using hw
    simp only [rebuilt, Bool.and_eq_true] at hr
    simp only [consts, List.mem_append] at hq
    rw [Walker.walk_eq (rebuildW_decr c)]
    show interp _ (.call i fun a => .call t fun b => .call e fun d => .done (Formula.ite a b d)) = _
    simp only [interp, ihi _ hw'.1 hr.1 fun q h => hq q (.inl h),
      iht _ hw'.2.1 hr.2.1 fun q h => hq q (.inr (.inl h)),
      ihe _ hw'.2.2 hr.2.2 fun q h => hq q (.inr (.inr h))]
  | pow b e ihb ihe =>
    intro ty hw hr hq
    cases ty
    · simp [wt] at hw
    · cases e with
      | realC x =>
        simp only [wt, Bool.and_eq_true] at hw
        simp only [rebuilt, Bool.and_eq_true] at hr
        simp only [consts, List.mem_append] at hq
        rw [Walker.walk_eq (rebuildW_decr c)]
        refine (interp_call2 _ b _ _).trans ?_
        rw [ihb .real hw.1 hr.2.1 fun q h => hq q (.inl h), ihe .real rfl rfl fun q h => hq q (.inr h)]
        cases b <;> simp_all [mkPow]
      | _ => simp [wt] at hw
  | sym n t => intro ty _ _ _; rw [Walker.walk_eq (rebuildW_decr c)]; rfl
  | boolC b => intro ty _ _ _; rw [Walker.walk_eq (rebuildW_decr c)]; rfl
  | realC q =>
    intro ty _ _ h
    rw [Walker.walk_eq (rebuildW_decr c)]
    show Except.ok (Formula.realC (c q)) = _
    rw [h q (by simp [consts])]

/-! ## C03 -/

/-- **C03**: the identity walk succeeds on every well-typed formula, the result has the same type and the same
value at every assignment, and walking the result again returns it unchanged. -/
theorem identityWalk_correct {ty : Ty} {f : Formula} (h : wt ty f = true) :
    ∃ r, identityWalk f = .ok r ∧ wt ty r = true ∧ (∀ σ : Env K, den σ ty r = den σ ty f) ∧
      identityWalk r = .ok r := by
  obtain ⟨r, hr, hs⟩ := rebuild_sound (K := K) id (fun _ _ _ => rfl) f ty h
  refine ⟨r, hr, hs.wt, fun σ => ?_, rebuild_fixpoint id r ty hs.wt hs.rebuilt fun _ _ => rfl⟩
  rw [hs.sem σ, mapConst_self id f fun _ _ => rfl]

/-! ## C05 -/

/-- **C05**: `make_coefficients_positive` succeeds, its result has no negative real constant, has at every
assignment the value of the formula with all constants replaced by their absolute values, equals the formula in
value if that has no negative constant, and is unchanged by a second application. -/
theorem makePositive_correct {ty : Ty} {f : Formula} (h : wt ty f = true) :
    ∃ r, makePositive f = .ok r ∧ wt ty r = true ∧ (∀ q ∈ consts r, 0 ≤ q) ∧
      (∀ σ : Env K, den σ ty r = den σ ty (mapConst (fun q => |q|) f)) ∧
      ((∀ q ∈ consts f, 0 ≤ q) → ∀ σ : Env K, den σ ty r = den σ ty f) ∧
      makePositive r = .ok r := by
  obtain ⟨r, hr, hs⟩ := rebuild_sound (K := K) (fun q => |q|)
    (fun q _ h => abs_of_nonneg (Rat.num_nonneg.mp h)) f ty h
  have hn := hs.nonneg fun q => abs_nonneg q
  refine ⟨r, hr, hs.wt, hn, hs.sem, fun hp σ => ?_, ?_⟩
  · rw [hs.sem σ, mapConst_self _ f fun q hq => abs_of_nonneg (hp q hq)]
  · exact rebuild_fixpoint _ r ty hs.wt hs.rebuilt fun q hq => abs_of_nonneg (hn q hq)

/-! ## C04 -/

/-- SPEC: an atom with linear sides. -/
def linAtom : Formula → Bool
  | .le l r => linTerm l && linTerm r
  | .lt l r => linTerm l && linTerm r
  | _ => true

/-- SPEC: the two sides of a `<=` or `<` atom differ at the assignment. -/
def strictAt (σ : Env K) : Formula → Prop
  | .le l r => value σ l ≠ value σ r
  | .lt l r => value σ l ≠ value σ r
  | _ => True

/-- SPEC: no `<=` or `<` atom of the formula holds with equality. -/
def OffBoundary (σ : Env K) (f : Formula) : Prop := ∀ a ∈ atoms f, strictAt σ a

theorem normalizeAtom_correct {l r g : Formula} (hl : linTerm l = true) (hr : linTerm r = true)
    (hg : g = .le l r ∨ g = .lt l r) :
    ∃ t, normalizeAtom g = .ok t ∧ wt .bool t = true ∧
      ∀ σ : Env K, value σ l ≠ value σ r → truth σ t = truth σ g := by
  obtain ⟨q, hq, hs⟩ := linFromSmt_linear (K := K) hl hr hg
  have hwf := linFromSmt_wf (polyTerm_wt l (linTerm_polyTerm l hl)) (polyTerm_wt r (linTerm_polyTerm r hr)) hg hq
  unfold normalizeAtom
  rw [hq]
  by_cases hne : q = []
  · subst hne
    refine ⟨.le (.realC 0) (.realC 0), by simp [linNormalize, linToSmt], rfl, fun σ hσ => ?_⟩
    exfalso
    have := hs σ
    simp only [polyEval_nil, lt_self_iff_false, false_iff, not_lt] at this
    exact hσ (le_antisymm this.2 this.1)
  · obtain ⟨h1, h2, h3, p, hp, h4⟩ := linNormalize_correct (K := K) hwf hne
    have hne' : linNormalize q ≠ [] := by intro h; rw [h] at hp; cases hp
    obtain ⟨t, ht, hwt, hsem⟩ := linToSmt_spec (K := K) h1.1 h1.2 hne'
    refine ⟨t, ht, hwt, fun σ hσ => ?_⟩
    have hmem : polyEval σ.r (linNormalize q) < 0 ↔ polyEval σ.r q < 0 := by
      have : σ.r ∈ halfSpace (linNormalize q) K ↔ σ.r ∈ halfSpace q K := by rw [h2]
      exact this
    rw [Bool.eq_iff_iff, hsem, hmem, (hs σ).1]
    rcases hg with rfl | rfl
    · simp only [truth, decide_eq_true_eq]
      exact ⟨le_of_lt, fun h => lt_of_le_of_ne h hσ⟩
    · simp [truth]

/-- What normalisation guarantees. -/
structure NormOk (K : Type) [Field K] [LinearOrder K] [IsStrictOrderedRing K] (ty : Ty) (f r : Formula) : Prop where
  wt : wt ty r = true
  isConst : ∀ q, f = .realC q → r = .realC q
  sem : ∀ σ : Env K, OffBoundary σ f → den σ ty r = den σ ty f

theorem NormOk.truth {f r : Formula} (h : NormOk K .bool f r) {σ : Env K} (ho : OffBoundary σ f) :
    Formula.truth σ r = Formula.truth σ f := by simpa [den] using h.sem σ ho
theorem NormOk.value {f r : Formula} (h : NormOk K .real f r) {σ : Env K} (ho : OffBoundary σ f) :
    Formula.value σ r = Formula.value σ f := by simpa [den] using h.sem σ ho

theorem OffBoundary.list {σ : Env K} {as : List Formula} (h : ∀ x ∈ atomsList as, strictAt σ x) :
    ∀ a ∈ as, OffBoundary σ a := fun a ha x hx => h x (mem_atomsList.mpr ⟨a, ha, hx⟩)

theorem forall₂_off {P Q : Formula → Formula → Prop} {as rs : List Formula} (h : List.Forall₂ P as rs)
    (hPQ : ∀ a ∈ as, ∀ r, P a r → Q a r) : List.Forall₂ Q as rs := by
  induction h with
  | nil => exact .nil
  | cons h _ ih => exact .cons (hPQ _ (by simp) _ h) (ih fun a ha => hPQ a (by simp [ha]))

/-- **C04**: `normalize_formula` succeeds on every well-typed formula whose `<=` and `<` atoms have linear
sides, and the result has the same value at every assignment at which no such atom holds with equality. -/
theorem normalizeFormula_correct {ty : Ty} {f : Formula} (h : wt ty f = true)
    (hlin : ∀ a ∈ atoms f, linAtom a = true) :
    ∃ r, normalizeFormula f = .ok r ∧ wt ty r = true ∧
      ∀ σ : Env K, OffBoundary σ f → den σ ty r = den σ ty f := by
  suffices H : ∃ r, normalizeW.walk f = .ok r ∧ NormOk K ty f r by
    obtain ⟨r, hr, hs⟩ := H
    exact ⟨r, hr, hs.wt, hs.sem⟩
  refine Walker.soundA normalizeW_decr (fun _ => True) (fun a => linAtom a = true) (NormOk K)
    ?_ ?_ ?_ ?_ ?_ ?_ ?_ ?_ ?_ ?_ ?_ ?_ ?_ ?_ (fun _ _ => rfl) ?_ ?_ f ty h (fun _ _ => trivial) hlin
  · -- and
    intro g as rs hne _ hm hD
    refine ⟨mkAnd rs, ?_, wt_mkAnd fun r hr => ?_, by simp, fun σ ho => ?_⟩
    · show interp g (callAll as fun rs => .done (mkAnd rs)) = _
      rw [interp_callAll, hm]; rfl
    · obtain ⟨a, _, h⟩ := forall₂_mem_right hD r hr; exact h.wt
    · have ho' := OffBoundary.list (σ := σ) (as := as) (by simpa [OffBoundary, atoms] using ho)
      have := forall₂_map_eq (forall₂_off (Q := fun a r => Formula.truth σ r = Formula.truth σ a) hD
        fun a ha r h => h.truth (ho' a ha))
      simp only [den, truth_mkAnd, Formula.truth, truthAll_eq]
      congr 1
      exact all_of_map_eq this
  · -- or
    intro g as rs hne _ hm hD
    refine ⟨mkOr rs, ?_, wt_mkOr fun r hr => ?_, by simp, fun σ ho => ?_⟩
    · show interp g (callAll as fun rs => .done (mkOr rs)) = _
      rw [interp_callAll, hm]; rfl
    · obtain ⟨a, _, h⟩ := forall₂_mem_right hD r hr; exact h.wt
    · have ho' := OffBoundary.list (σ := σ) (as := as) (by simpa [OffBoundary, atoms] using ho)
      have := forall₂_map_eq (forall₂_off (Q := fun a r => Formula.truth σ r = Formula.truth σ a) hD
        fun a ha r h => h.truth (ho' a ha))
      simp only [den, truth_mkOr, Formula.truth, truthAny_eq]
      congr 1
      exact any_of_map_eq this
  · -- times
    intro g as rs hne hm hD
    have hrs : rs ≠ [] := by rintro rfl; cases hD; exact hne rfl
    obtain ⟨f, hf⟩ := mkTimes_ok hrs
    refine ⟨f, ?_, wt_mkTimes (fun r hr => ?_) hf, by simp, fun σ ho => ?_⟩
    · show interp g (callAll as fun rs => .ofExcept (mkTimes rs)) = _
      rw [interp_callAll, hm]; simp [hf]
    · obtain ⟨a, _, h⟩ := forall₂_mem_right hD r hr; exact h.wt
    · have ho' := OffBoundary.list (σ := σ) (as := as) (by simpa [OffBoundary, atoms] using ho)
      have := forall₂_map_eq (forall₂_off (Q := fun a r => Formula.value σ r = Formula.value σ a) hD
        fun a ha r h => h.value (ho' a ha))
      simp only [den, value_mkTimes hf, this, Formula.value, valueProd_eq]
  · -- plus
    intro g as rs hne hm hD
    have hrs : rs ≠ [] := by rintro rfl; cases hD; exact hne rfl
    obtain ⟨f, hf⟩ := mkPlus_ok hrs
    refine ⟨f, ?_, wt_mkPlus (fun r hr => ?_) hf, by simp, fun σ ho => ?_⟩
    · show interp g (callAll as fun rs => .ofExcept (mkPlus rs)) = _
      rw [interp_callAll, hm]; simp [hf]
    · obtain ⟨a, _, h⟩ := forall₂_mem_right hD r hr; exact h.wt
    · have ho' := OffBoundary.list (σ := σ) (as := as) (by simpa [OffBoundary, atoms] using ho)
      have := forall₂_map_eq (forall₂_off (Q := fun a r => Formula.value σ r = Formula.value σ a) hD
        fun a ha r h => h.value (ho' a ha))
      simp only [den, value_mkPlus hf, this, Formula.value, valueSum_eq]
  · -- not
    intro g a ra _ ha hD
    refine ⟨mkNot ra, ?_, wt_mkNot hD.wt, by simp, fun σ ho => ?_⟩
    · show interp g (.call a fun r => .done (mkNot r)) = _
      simp [interp, ha]
    · simp [den, Formula.truth, hD.truth (σ := σ) (by simpa [OffBoundary, atoms] using ho)]
  · -- minus
    intro g l r rl rr hl hr hDl hDr
    refine ⟨.minus rl rr, ?_, by simp [Formula.wt, hDl.wt, hDr.wt], by simp, fun σ ho => ?_⟩
    · refine (interp_call2 g l r _).trans ?_; rw [hl, hr]
    · simp only [OffBoundary, atoms, List.mem_append] at ho
      simp [den, Formula.value, hDl.value fun x hx => ho x (.inl hx), hDr.value fun x hx => ho x (.inr hx)]
  · -- ite
    intro g ty i t e ri rt re hwi hwt hwe hi ht he hDi hDt hDe
    refine ⟨.ite ri rt re, ?_, ?_, by simp, fun σ ho => ?_⟩
    · show interp g (.call i fun a => .call t fun b => .call e fun d => .done (.ite a b d)) = _
      simp [interp, hi, ht, he]
    · cases ty <;> simp [Formula.wt, hDi.wt, hDt.wt, hDe.wt]
    · simp only [OffBoundary, atoms, List.mem_append] at ho
      have h1 := hDi.truth (σ := σ) fun x hx => ho x (.inl hx)
      cases ty
      · simp [den, Formula.truth, h1, hDt.truth fun x hx => ho x (.inr (.inl hx)),
          hDe.truth fun x hx => ho x (.inr (.inr hx))]
      · simp [den, Formula.value, h1, hDt.value fun x hx => ho x (.inr (.inl hx)),
          hDe.value fun x hx => ho x (.inr (.inr hx))]
  · -- pow
    intro g b q rb rq hq1 hq2 hb hq hDb hDq
    have hrq : rq = .realC q := hDq.isConst q rfl
    subst hrq
    by_cases hcst : ∃ x, rb = .realC x
    · obtain ⟨x, rfl⟩ := hcst
      refine ⟨.realC (x ^ q.num.toNat), ?_, rfl, by simp, fun σ ho => ?_⟩
      · refine (interp_call2 g b (.realC q) _).trans ?_; rw [hb, hq]; simp [mkPow, hq1, hq2]
      · simp only [OffBoundary, atoms, List.append_nil] at ho
        have := hDb.value ho
        simp only [Formula.value] at this
        simp [den, Formula.value, hq1, hq2, ← this]
    · have hpow : mkPow rb (.realC q) = .ok (.pow rb (.realC q)) := by
        cases rb <;> simp_all [mkPow]
      refine ⟨.pow rb (.realC q), ?_, ?_, by simp, fun σ ho => ?_⟩
      · refine (interp_call2 g b (.realC q) _).trans ?_; rw [hb, hq]; exact hpow
      · simp [Formula.wt, hDb.wt, hq1, hq2]
      · simp only [OffBoundary, atoms, List.append_nil] at ho
        simp [den, Formula.value, hq1, hq2, hDb.value ho]
  · -- le
    intro g l r rl rr ha _ _ _ _ _ _
    simp only [linAtom, Bool.and_eq_true] at ha
    obtain ⟨t, ht, hw, hs⟩ := normalizeAtom_correct (K := K) ha.1 ha.2 (.inl rfl)
    refine ⟨t, ?_, hw, by simp, fun σ ho => ?_⟩
    · show interp g (.ofExcept (normalizeAtom (.le l r))) = _
      rw [interp_ofExcept, ht]
    · simp only [den]; rw [hs σ (ho (.le l r) (by simp [atoms]))]
  · -- lt
    intro g l r rl rr ha _ _ _ _ _ _
    simp only [linAtom, Bool.and_eq_true] at ha
    obtain ⟨t, ht, hw, hs⟩ := normalizeAtom_correct (K := K) ha.1 ha.2 (.inr rfl)
    refine ⟨t, ?_, hw, by simp, fun σ ho => ?_⟩
    · show interp g (.ofExcept (normalizeAtom (.lt l r))) = _
      rw [interp_ofExcept, ht]
    · simp only [den]; rw [hs σ (ho (.lt l r) (by simp [atoms]))]
  · -- equals
    intro g l r rl rr _ _ _ hl hr hDl hDr
    refine ⟨.equals rl rr, ?_, by simp [Formula.wt, hDl.wt, hDr.wt], by simp, fun σ ho => ?_⟩
    · refine (interp_call2 g l r _).trans ?_; rw [hl, hr]
    · simp only [OffBoundary, atoms, List.mem_append, List.mem_cons] at ho
      simp [den, Formula.truth, hDl.value fun x hx => ho x (.inr (.inl hx)),
        hDr.value fun x hx => ho x (.inr (.inr hx))]
  · intro g n t _
    exact ⟨.sym n t, rfl, by cases t <;> rfl, by simp, fun σ _ => rfl⟩
  · intro g b
    exact ⟨.boolC b, rfl, rfl, by simp, fun σ _ => rfl⟩
  · intro g q
    exact ⟨.realC q, rfl, rfl, by simp, fun σ _ => rfl⟩
  · -- implies
    intro l r x h
    refine ⟨h.wt, by simp, fun σ ho => ?_⟩
    have := h.truth (σ := σ) (by
      simp only [OffBoundary, mkOr, atoms, atomsList, atoms_mkNot, List.append_nil] at ho ⊢; exact ho)
    simp only [den, this, truth_mkOr]
    simp [Formula.truth]
  · -- iff
    intro l r x h
    refine ⟨h.wt, by simp, fun σ ho => ?_⟩
    have := h.truth (σ := σ) (by
      intro y hy
      simp only [atoms, atomsList, List.append_nil, List.mem_append] at hy
      apply ho
      simp only [atoms, List.mem_append]
      tauto)
    simp only [den, this, Formula.truth, truthAll, Bool.and_true]
    cases Formula.truth σ l <;> cases Formula.truth σ r <;> rfl

end

/-- **C04 (what happens on the boundary)**: the atom `x < x`, false everywhere, is normalised to a formula that
is true everywhere. -/
theorem normalizeFormula_degenerate :
    ∃ r, normalizeFormula (.lt (.sym "x" .real) (.sym "x" .real)) = .ok r ∧
      ∀ σ : Env ℚ, truth σ r = true ∧ truth σ (.lt (.sym "x" .real) (.sym "x" .real)) = false := by
  refine ⟨.le (.realC 0) (.realC 0), by decide +kernel, fun σ => ⟨by simp [truth, value], by simp [truth]⟩⟩

/-! ## Concrete cases meeting the hypotheses -/

/-- `(a & 2*x + 4*y < 6) -> !(!(x <= y))`. -/
def sampleNorm : Formula :=
  .implies (.and [.sym "a" .bool, .lt (.plus [.times [.realC 2, .sym "x" .real],
      .times [.realC 4, .sym "y" .real]]) (.realC 6)])
    (.not (.not (.le (.sym "x" .real) (.sym "y" .real))))

example : wt .bool sampleNorm = true ∧ ∀ a ∈ atoms sampleNorm, linAtom a = true := by decide +kernel
example : OffBoundary (K := ℚ) ⟨fun _ => true, fun n => if n = "x" then 1 else 2⟩ sampleNorm := by
  intro a ha
  simp only [sampleNorm, atoms, atomsList, List.append_nil, List.mem_append, List.mem_cons, List.not_mem_nil,
    or_false, false_or] at ha
  rcases ha with rfl | rfl
  · simp [strictAt, value, valueSum, valueProd]; norm_num
  · simp [strictAt, value]
example : normalizeFormula sampleNorm = .ok (.or [.not (.and [.sym "a" .bool,
    .lt (.plus [.times [.sym "x" .real, .realC (1/3)], .times [.sym "y" .real, .realC (2/3)]]) (.realC 1)]),
    .lt (.plus [.sym "x" .real, .times [.sym "y" .real, .realC (-1)]]) (.realC 0)]) := by decide +kernel
example : makePositive (.plus [.realC (-2), .times [.sym "x" .real, .realC (-1/2)]]) =
    .ok (.plus [.realC 2, .times [.sym "x" .real, .realC (1/2)]]) := by decide +kernel

end Pywmi
