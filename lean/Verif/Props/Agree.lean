import Verif.Engine.Stateful
import Verif.Props.PoolEngine
import Verif.Props.ConvexCases
import Verif.Props.RejectionLaw

set_option linter.unusedSectionVars false
set_option linter.unusedSimpArgs false

/-!
# C98: the exact engines agree
-/

namespace Pywmi
open Formula Prog MeasureTheory

/-! ### The classes of formulas -/

theorem litOk_supB (f : Formula) : wt .bool f = true → litOk f = true → supB f = true := by
  induction f using Formula.induct with
  | and as ih =>
    simp only [supB, wt, litOk, Bool.and_eq_true, supBAll_iff, wtAll_iff, litOkAll_iff]
    exact fun h h' => ⟨h.1, fun a ha => ih a ha (h.2 a ha) (h' a ha)⟩
  | or as ih =>
    simp only [supB, wt, litOk, Bool.and_eq_true, supBAll_iff, wtAll_iff, litOkAll_iff]
    exact fun h h' => ⟨h.1, fun a ha => ih a ha (h.2 a ha) (h' a ha)⟩
  | implies l r ihl ihr => simp only [supB, wt, litOk, Bool.and_eq_true]; exact fun h h' => ⟨ihl h.1 h'.1, ihr h.2 h'.2⟩
  | iff l r ihl ihr => simp only [supB, wt, litOk, Bool.and_eq_true]; exact fun h h' => ⟨ihl h.1 h'.1, ihr h.2 h'.2⟩
  | not a ih => simp only [supB, wt, litOk]; exact ih
  | ite c t e ihc iht ihe =>
    simp only [supB, wt, litOk, Bool.and_eq_true]
    exact fun h h' => ⟨ihc h.1.1 h'.1, iht h.1.2 h'.2.1, ihe h.2 h'.2.2⟩
  | le l r _ _ => simp only [supB, wt, litOk, Bool.and_eq_true]; exact fun _ h => h
  | lt l r _ _ => simp only [supB, wt, litOk, Bool.and_eq_true]; exact fun _ h => h
  | sym n t => cases t <;> simp [supB, wt, litOk]
  | boolC b => simp [supB]
  | _ => simp [litOk]

theorem conds_supW (w : Formula) : wt .real w = true → (∀ c ∈ condsOf w, supB c = true) → supW w = true := by
  induction w using Formula.induct with
  | plus as ih =>
    simp only [supW, wt, condsOf, Bool.and_eq_true, supWAll_iff, wtAll_iff]
    exact fun h h' => ⟨h.1, fun a ha => ih a ha (h.2 a ha) fun c hc => h' c (mem_condsOfList.mpr ⟨a, ha, hc⟩)⟩
  | times as ih =>
    simp only [supW, wt, condsOf, Bool.and_eq_true, supWAll_iff, wtAll_iff]
    exact fun h h' => ⟨h.1, fun a ha => ih a ha (h.2 a ha) fun c hc => h' c (mem_condsOfList.mpr ⟨a, ha, hc⟩)⟩
  | minus l r ihl ihr =>
    simp only [supW, wt, condsOf, Bool.and_eq_true, List.mem_append]
    exact fun h h' => ⟨ihl h.1 fun c hc => h' c (.inl hc), ihr h.2 fun c hc => h' c (.inr hc)⟩
  | ite c t e ihc iht ihe =>
    simp only [supW, wt, condsOf, Bool.and_eq_true, List.mem_cons, List.mem_append]
    exact fun h h' => ⟨h' c (.inl rfl), iht h.1.2 fun d hd => h' d (.inr (.inl hd)), ihe h.2 fun d hd => h' d (.inr (.inr hd))⟩
  | pow b x ihb _ =>
    intro h h'
    cases x <;> simp only [wt, Bool.false_eq_true] at h
    simp only [Bool.and_eq_true] at h
    simp only [supW, Bool.and_eq_true]
    exact ⟨ihb h.1 h', by simpa using h.2⟩
  | sym n t => cases t <;> simp [supW, wt]
  | realC q => simp [supW]
  | _ => simp [wt]

theorem atoms_conds (w : Formula) : wt .real w = true → ∀ a ∈ atoms w, ∃ c ∈ condsOf w, a ∈ atoms c := by
  induction w using Formula.induct with
  | plus as ih =>
    simp only [wt, atoms, condsOf, Bool.and_eq_true, wtAll_iff]
    intro h a ha
    obtain ⟨b, hb, hab⟩ := mem_atomsList.mp ha
    obtain ⟨c, hc, hac⟩ := ih b hb (h.2 b hb) a hab
    exact ⟨c, mem_condsOfList.mpr ⟨b, hb, hc⟩, hac⟩
  | times as ih =>
    simp only [wt, atoms, condsOf, Bool.and_eq_true, wtAll_iff]
    intro h a ha
    obtain ⟨b, hb, hab⟩ := mem_atomsList.mp ha
    obtain ⟨c, hc, hac⟩ := ih b hb (h.2 b hb) a hab
    exact ⟨c, mem_condsOfList.mpr ⟨b, hb, hc⟩, hac⟩
  | minus l r ihl ihr =>
    simp only [wt, atoms, condsOf, Bool.and_eq_true, List.mem_append]
    rintro h a (ha | ha)
    · obtain ⟨c, hc, hac⟩ := ihl h.1 a ha; exact ⟨c, .inl hc, hac⟩
    · obtain ⟨c, hc, hac⟩ := ihr h.2 a ha; exact ⟨c, .inr hc, hac⟩
  | ite c t e ihc iht ihe =>
    simp only [wt, atoms, condsOf, Bool.and_eq_true, List.mem_cons, List.mem_append]
    rintro h a (ha | ha | ha)
    · exact ⟨c, .inl rfl, ha⟩
    · obtain ⟨d, hd, had⟩ := iht h.1.2 a ha; exact ⟨d, .inr (.inl hd), had⟩
    · obtain ⟨d, hd, had⟩ := ihe h.2 a ha; exact ⟨d, .inr (.inr hd), had⟩
  | pow b x ihb _ =>
    intro h a ha
    cases x <;> simp only [wt, Bool.false_eq_true] at h
    simp only [Bool.and_eq_true] at h
    simp only [atoms, List.append_nil] at ha
    exact ihb h.1 a ha
  | sym n t => simp [atoms]
  | realC q => simp [atoms]
  | _ => simp [wt]

theorem XOk.isGeneric {D : Domain} {f : Formula} (h : XOk D f) : Generic f := fun l r hm => by
  obtain ⟨τ, hτ⟩ := h.generic _ hm
  exact ⟨τ, hτ⟩

/-! ### The problems that all exact engines solve -/

/-- SPEC: a problem that is in the scope of all exact engines: `Γ` gives the types of the variables, which are listed Booleans first; unless
the scope is wide, there are at most one Boolean and at least one real variable; support and conditions are made of Boolean variables and of linear comparisons of terms that
differ; without the bounds of the domain, the support implies them and has constant bounds among its conjuncts. -/
structure Shared (wide : Bool) (Γ : String → Ty) (e : EngineObj) (w : Formula) (ab : Bool) : Prop where
  weight : e.weight = some w
  box : BoxOk e.domain
  reals : wide = true ∨ e.domain.reals ≠ []
  oneBool : wide = true ∨ e.domain.bools.length ≤ 1
  types : ∀ v ∈ e.domain.vars, e.domain.varTypes.lookup v = some (Γ v)
  order : e.domain.vars = e.domain.bools ++ e.domain.reals
  wtW : wt .real w = true
  vars : e.domain.covers w
  conds : ∀ c ∈ condsOf w, XOk e.domain c
  support : XOk e.domain e.support
  inside : ab = true ∨ Bounded e.domain e.support ∧ ∀ σ, ¬ e.domain.inBox σ → density e.support w σ = 0

/-- SPEC: the weighted model integral of a problem. -/
noncomputable def EngineObj.integral (e : EngineObj) (w : Formula) (ab : Bool) : ℝ := e.domain.volumeOf ab (density e.support w)

namespace Shared
variable {wide : Bool} {Γ : String → Ty} {e : EngineObj} {w : Formula} {ab : Bool}

theorem problem (h : Shared wide Γ e w ab) : Problem e.domain e.support w := ⟨h.box, h.support.wt, h.wtW, h.support.vars, h.vars⟩

theorem confined (h : Shared wide Γ e w ab) : e.domain.confined ab (density e.support w) := h.inside.imp id fun h => h.2

theorem bounded (h : Shared wide Γ e w ab) : ab = true ∨ Bounded e.domain e.support := h.inside.imp id fun h => h.1

theorem supB (h : Shared wide Γ e w ab) : Pywmi.supB e.support = true := litOk_supB _ h.support.wt h.support.lit

theorem supW (h : Shared wide Γ e w ab) : Pywmi.supW w = true := conds_supW w h.wtW fun c hc => litOk_supB c (h.conds c hc).wt (h.conds c hc).lit

theorem genericW (h : Shared wide Γ e w ab) : Generic w := fun l r hm => by
  obtain ⟨c, hc, hm⟩ := atoms_conds w h.wtW _ hm
  exact (h.conds c hc).isGeneric l r hm

theorem realTypes (h : Shared wide Γ e w ab) : ∀ x ∈ e.domain.reals, Γ x = .real := fun x hx => by
  obtain ⟨h1, h2⟩ := mem_reals.mp hx
  have := h.types x h1
  rw [h2] at this
  exact (Option.some.inj this).symm

theorem xweight {E : Type} {o : XsddOpts E} (h : Shared wide Γ e w ab) (hc : ∃ P, (pieceW o.simp (Pieces.clashFree o.simp)).walk w = .ok P) :
    XWeight o e.domain w := ⟨h.wtW, h.vars, h.conds, hc⟩

/-- A query keeps the problem in scope. -/
theorem query (h : Shared wide Γ e w ab) {q : Formula} (hq : XOk e.domain q) : Shared wide Γ (e.withConstraint q) w ab where
  weight := h.weight
  box := h.box
  reals := h.reals
  oneBool := h.oneBool
  types := h.types
  order := h.order
  wtW := h.wtW
  vars := h.vars
  conds := h.conds
  support := (XOk.two h.support hq).1
  inside := h.inside.imp id fun ⟨h1, h2⟩ => ⟨h1.of_conjunct (.inside _ _ (by simp) .here), fun σ hσ => by
    show density (.and [e.support, q]) w σ = 0
    rw [density_and]
    have := h2 σ hσ
    unfold queryDensity
    split
    · exact this
    · rfl⟩

end Shared

/-! ### Engines that return the integral -/

/-- SPEC: from every state that can come up the engine returns the weighted model integral, for all problems in scope with weight `w`. -/
def StatefulEngine.Right (g : StatefulEngine) (wide : Bool) (Γ : String → Ty) (w : Formula) : Prop :=
  ∃ I : g.S → Prop, I g.start ∧ ∀ e ab s, Shared wide Γ e w ab → I s → ∃ s', g.vol e ab s = (.ok (e.integral w ab), s') ∧ I s'

theorem StatefulEngine.pure_right {wide : Bool} {vol : EngineObj → Bool → Except PyErr ℝ} {Γ : String → Ty} {w : Formula}
    (h : ∀ e ab, Shared wide Γ e w ab → vol e ab = .ok (e.integral w ab)) : (StatefulEngine.pure vol).Right wide Γ w :=
  ⟨fun _ => True, trivial, fun e ab s hS _ => ⟨s, by simp only [StatefulEngine.pure, h e ab hS], trivial⟩⟩

section
variable {wide : Bool} {Γ : String → Ty} {w : Formula}

/-- The volume as a real number. -/
noncomputable def castVol {E : Type} (vol : EngineObj → Bool → XM E ℚ) (e : EngineObj) (ab : Bool) (p : Pool E) : Except PyErr ℝ × Pool E :=
  match vol e ab p with
  | (.ok v, q) => (.ok (v : ℝ), q)
  | (.error err, q) => (.error err, q)

/-- PyXADD with the pool `p`. -/
noncomputable def pyxaddEngine {E : Type} [DecidableEq E] (C : RCtx E) (p : Pool E) : StatefulEngine := ⟨Pool E, castVol (xaddVolume C), p⟩

/-- C98: PyXADD, with every reduction strategy and from every pool that can come up. -/
theorem pyxadd_right_partial {E : Type} [DecidableEq E] {X : XCtx E} {ev : E → (String → ℝ) → ℝ} (hX : XLaw X ev) {C : RCtx E} (hC : C.X = X)
    (ho : OrdLaw C.ord) {p : Pool E} (hp : Reachable X Γ p) : (pyxaddEngine C p).Right wide Γ w := by
  subst hC
  refine ⟨Inv2 C.X Γ ev, hp.inv hX, fun e ab s hS hs => ?_⟩
  obtain ⟨v, q, h1, h2, -, h3⟩ := (xaddVolume_run (hX.rlaw rfl ho) hs hS.weight hS.problem hS.types hS.order hS.confined hS.supB hS.supW
    hS.support.isGeneric hS.genericW).returns trivial
  refine ⟨q, ?_, h2⟩
  simp only [pyxaddEngine, castVol, h1, h3]
  rfl

/-- XSDD with an algebra and a pool of PyXADD. -/
noncomputable def xsddPoolEngine {E : Type} [DecidableEq E] (q : PoolOpts E) (p : Pool E) : StatefulEngine := ⟨Pool E, castVol q.computeVolume, p⟩

/-- C98: XSDD whose expressions are diagrams of a pool. -/
theorem xsddPool_right_partial {E : Type} [DecidableEq E] {ev : E → (String → ℝ) → ℝ} {q : PoolOpts E} (hq : q.Sound ev) (hf : q.o.findConflicts = false)
    (hc : ∃ P, (pieceW q.o.simp (Pieces.clashFree q.o.simp)).walk w = .ok P) {p : Pool E} (hp : Reachable q.P.C.X Γ p) :
    (xsddPoolEngine q p).Right false Γ w := by
  refine ⟨Inv2 q.P.C.X Γ ev, hp.inv ⟨hq.law.simp, hq.law.solve, hq.law.back⟩, fun e ab s hS hs => ?_⟩
  have hfit : q.Fit Γ e w ab := ⟨hS.weight, hS.box, (hS.reals.resolve_left (by simp)), hS.realTypes, hS.xweight hc, hS.support, (hS.oneBool.resolve_left (by simp)), hS.bounded, hf⟩
  obtain ⟨v, s', h1, h2, -, h3⟩ := (hfit.run hq hs).returns trivial
  refine ⟨s', ?_, h2⟩
  simp only [xsddPoolEngine, castVol, h1, h3]
  rfl

variable {E : Type} {eval : E → (String → ℝ) → ℝ}

/-- C98: XSDD with an exact convex back-end. -/
theorem xsdd_right_partial {o : XsddOpts E} (ho : o.Sound eval) {integ : Domain → List Dict → Dict → Except PyErr ℝ} (hi : ConvexExact integ)
    (hback : o.backend = some integ) (himp : ∀ a b, o.implies a b = .ok true → ∀ σ : Env ℝ, truth σ a = true → truth σ b = true)
    (hc : ∃ P, (pieceW o.simp (Pieces.clashFree o.simp)).walk w = .ok P) (hrun : ∀ S, ∃ base, o.baseSupport S w = .ok base) :
    (StatefulEngine.pure o.computeVolume).Right wide Γ w := by
  refine StatefulEngine.pure_right fun e ab hS => ?_
  obtain ⟨h1, h2⟩ := computeVolume_correct_partial ho hi hback himp hS.weight hS.box (hS.xweight hc) hS.support
  obtain ⟨b, hb, -⟩ := bounds_ok hS.box
  cases ab with
  | true =>
    obtain ⟨base, hbase⟩ := hrun (.and [e.support, b])
    exact h1 ⟨b, base, hb, hbase⟩
  | false => exact h2 (hrun _) hS.confined (hS.bounded.resolve_left (by simp)).proper

/-- C98: XSDD without a convex back-end. -/
theorem xsddSymbolic_right_partial {o : XsddOpts E} (ho : o.Sound eval) (hvt : VtreeOk o.vtree) (hint : IntegrateExact o.integrate eval)
    (hback : o.backend = none) (himp : ∀ a b, o.implies a b = .ok true → ∀ σ : Env ℝ, truth σ a = true → truth σ b = true)
    (hc : ∃ P, (pieceW o.simp (Pieces.clashFree o.simp)).walk w = .ok P) (hrun : ∀ S, ∃ base, o.baseSupport S w = .ok base) :
    (StatefulEngine.pure o.computeVolume).Right false Γ w := by
  refine StatefulEngine.pure_right fun e ab hS => ?_
  obtain ⟨h1, h2⟩ := nonConvex_oneBool_partial ho hvt hint hback himp hS.weight hS.box (hS.reals.resolve_left (by simp)) (hS.xweight hc) hS.support (hS.oneBool.resolve_left (by simp))
  obtain ⟨b, hb, -⟩ := bounds_ok hS.box
  cases ab with
  | true =>
    obtain ⟨base, hbase⟩ := hrun (.and [e.support, b])
    exact h1 ⟨b, base, hb, hbase⟩
  | false => exact h2 (hrun _) (hS.bounded.resolve_left (by simp))

/-- C98: the factorised XSDD. -/
theorem fxsdd_right_partial {o : FactOpts E} (ho : o.Sound eval)
    (himp : ∀ a b, o.implies a b = .ok true → ∀ σ : Env ℝ, truth σ a = true → truth σ b = true)
    (hc : ∃ P, (pieceW o.simp (Pieces.clashFree o.simp)).walk w = .ok P) (hlab : extractLabels w = .ok ([], w))
    (hrun : ∀ S, ∃ base, o.baseSupport S w = .ok base) : (StatefulEngine.pure o.computeVolume).Right false Γ w := by
  refine StatefulEngine.pure_right fun e ab hS => ?_
  obtain ⟨h1, h2⟩ := FactOpts.computeVolume_oneBool_partial ho himp hS.weight hS.box (hS.xweight hc) hlab hS.support (hS.oneBool.resolve_left (by simp))
  obtain ⟨b, hb, -⟩ := bounds_ok hS.box
  cases ab with
  | true =>
    obtain ⟨base, hbase⟩ := hrun (.and [e.support, b])
    exact h1 ⟨b, base, hb, hbase⟩
  | false => exact h2 (hrun _) (hS.bounded.resolve_left (by simp))

/-- C98: XSDD with another engine as convex back-end. -/
theorem xsddEngine_right_partial {o : XsddOpts E} (ho : o.Sound eval) {vol : EngineObj → Bool → Except PyErr ℝ} (hvol : EngineExact vol)
    (hback : o.backend = some (engineIntegrate vol)) (himp : ∀ a b, o.implies a b = .ok true → ∀ σ : Env ℝ, truth σ a = true → truth σ b = true)
    (hc : ∃ P, (pieceW o.simp (Pieces.clashFree o.simp)).walk w = .ok P) (hrun : ∀ S, ∃ base, o.baseSupport S w = .ok base)
    (hne : ∃ σ : Env ℝ, value σ w ≠ 0) : (StatefulEngine.pure o.computeVolume).Right wide Γ w := by
  refine StatefulEngine.pure_right fun e ab hS => ?_
  obtain ⟨h1, h2⟩ := xsdd_engine_correct_partial ho hvol hback himp hS.weight hS.box (hS.xweight hc) hS.support hne
  obtain ⟨b, hb, -⟩ := bounds_ok hS.box
  cases ab with
  | true =>
    obtain ⟨base, hbase⟩ := hrun (.and [e.support, b])
    exact h1 ⟨b, base, hb, hbase⟩
  | false => exact h2 (hrun _) hS.confined (hS.bounded.resolve_left (by simp)).proper

end

/-! ### PyXADD as the convex back-end of XSDD -/

theorem polyTerm_noAtoms (w : Formula) (h : polyTerm w = true) : condsOf w = [] ∧ wt .real w = true := by
  refine ⟨?_, polyTerm_wt w h⟩
  revert h
  induction w using Formula.induct with
  | plus as ih =>
    simp only [polyTerm, condsOf, Bool.and_eq_true, polyTermAll_iff]
    exact fun h => List.eq_nil_iff_forall_not_mem.mpr fun c hc => by
      obtain ⟨a, ha, hc⟩ := mem_condsOfList.mp hc
      simp [ih a ha (h.2 a ha)] at hc
  | times as ih =>
    simp only [polyTerm, condsOf, Bool.and_eq_true, polyTermAll_iff]
    exact fun h => List.eq_nil_iff_forall_not_mem.mpr fun c hc => by
      obtain ⟨a, ha, hc⟩ := mem_condsOfList.mp hc
      simp [ih a ha (h.2 a ha)] at hc
  | minus l r ihl ihr =>
    simp only [polyTerm, condsOf, Bool.and_eq_true]
    exact fun h => by rw [ihl h.1, ihr h.2]; rfl
  | pow b x ihb _ =>
    intro h
    cases x <;> simp only [polyTerm, Bool.false_eq_true] at h
    simp only [Bool.and_eq_true] at h
    exact ihb h.1
  | _ => simp [polyTerm, condsOf]

theorem noBools_vars {D : Domain} (h : D.WF) (hb : D.bools = []) : D.vars = D.reals ∧ ∀ v ∈ D.vars, D.varTypes.lookup v = some .real := by
  have h2 : ∀ v ∈ D.vars, D.varTypes.lookup v = some .real := fun v hv => by
    have hm := (h.types v).mpr hv
    cases hl : D.varTypes.lookup v with
    | none =>
      obtain ⟨p, hp, rfl⟩ := List.mem_map.mp hm
      simpa using List.lookup_eq_none_iff.mp hl p hp
    | some t =>
      cases t with
      | real => rfl
      | bool =>
        have : v ∈ D.bools := List.mem_filter.mpr ⟨hv, by simp [hl]⟩
        rw [hb] at this
        cases this
  exact ⟨(List.filter_eq_self.mpr fun v hv => by simp [h2 v hv]).symm, h2⟩

/-- C98: PyXADD is exact on the problems that XSDD hands to its convex back-end, whatever pool it finds at each call. -/
theorem pyxadd_backend_exact {E : Type} [DecidableEq E] {X : XCtx E} {ev : E → (String → ℝ) → ℝ} (hX : XLaw X ev) {C : RCtx E} (hC : C.X = X)
    (ho : OrdLaw C.ord) {pools : EngineObj → Pool E} (hp : ∀ e, Reachable X (fun _ => .real) (pools e)) :
    EngineExact fun e ab => (castVol (xaddVolume C) e ab (pools e)).1 := by
  intro D S w hb hP hS hw
  obtain ⟨h1, h2⟩ := noBools_vars hP.box.wf hb
  obtain ⟨fs, rfl, hfs⟩ := hS
  have hlit : supB (mkAnd fs) = true := by
    have hf : ∀ f ∈ fs, supB f = true := fun f hf => by
      obtain ⟨l, r, rfl | rfl, hl, hr, -⟩ := hfs f hf <;> simp [supB, hl, hr]
    refine litOk_supB _ hP.supportWt (mkList_litOk fun f hf' => supB_litOk f (hf f hf')).1
  have hg : Generic (mkAnd fs) := fun l r hm => by
    rw [atoms_mkAnd] at hm
    obtain ⟨f, hf, hm⟩ := mem_atomsList.mp hm
    obtain ⟨l', r', hlr, hl, hr, hd⟩ := hfs f hf
    have ha : ∀ {t}, linTerm t = true → atoms t = [] := fun {t} ht => isAllReal_atoms t (linTerm_allReal t ht)
    rcases hlr with rfl | rfl <;> simp only [atoms, ha hl, ha hr, List.append_nil, List.mem_singleton, reduceCtorEq, Formula.lt.injEq] at hm
    obtain ⟨rfl, rfl⟩ := hm
    exact hd rfl
  obtain ⟨hc, hwt⟩ := polyTerm_noAtoms w hw
  have hgw : Generic w := fun l r hm => by
    obtain ⟨c, hc', -⟩ := atoms_conds w hwt _ hm
    simp [hc] at hc'
  obtain ⟨v, q, e1, e2⟩ := xadd_volume_partial hX hC ho (hp ⟨D, mkAnd fs, some w⟩) (e := ⟨D, mkAnd fs, some w⟩) rfl hP (fun v hv => h2 v hv)
    (by show D.vars = D.bools ++ D.reals; rw [hb, h1]; rfl) (ab := true) (Or.inl rfl) hlit (conds_supW w hwt (by simp [hc])) hg hgw
  simp only [castVol, e1, e2]

/-! ### Agreement -/

section
variable {wide : Bool} {Γ : String → Ty} {w : Formula}

namespace StatefulEngine
variable {g g' : StatefulEngine}

theorem answers_right {I : g.S → Prop} (h : ∀ e ab s, Shared wide Γ e w ab → I s → ∃ s', g.vol e ab s = (.ok (e.integral w ab), s') ∧ I s')
    {e : EngineObj} {ab : Bool} (hS : Shared wide Γ e w ab) (v : ℝ) : ∀ qs : List Formula, (∀ q ∈ qs, XOk e.domain q) → ∀ s, I s →
    ∃ s', g.answers e ab v qs s = (.ok (qs.map fun q => if v > 0 then some ((e.withConstraint q).integral w ab / v) else none), s') ∧ I s' := by
  intro qs
  induction qs with
  | nil => exact fun _ s hs => ⟨s, rfl, hs⟩
  | cons q qs ih =>
    intro hq s hs
    unfold answers
    by_cases hv : v > 0
    · obtain ⟨s1, h1, i1⟩ := h (e.withConstraint q) ab s (hS.query (hq q (by simp))) hs
      obtain ⟨s2, h2, i2⟩ := ih (fun r hr => hq r (by simp [hr])) s1 i1
      refine ⟨s2, ?_, i2⟩
      simp only [if_pos hv, h1, h2, List.map_cons]
    · obtain ⟨s2, h2, i2⟩ := ih (fun r hr => hq r (by simp [hr])) s hs
      refine ⟨s2, ?_, i2⟩
      simp only [if_neg hv, h2, List.map_cons]

/-- C98: what an engine that is right returns: the weighted model integral, and for queries the quotients of integrals, whatever was asked
before. -/
theorem Right.returns (h : g.Right wide Γ w) {e : EngineObj} {ab : Bool} (hS : Shared wide Γ e w ab) {qs : List Formula} (hq : ∀ q ∈ qs, XOk e.domain q) :
    g.volume e ab = .ok (e.integral w ab) ∧
    g.probabilities e qs ab =
      .ok (qs.map fun q => if e.integral w ab > 0 then some ((e.withConstraint q).integral w ab / e.integral w ab) else none) := by
  obtain ⟨I, h0, h⟩ := h
  obtain ⟨s1, h1, i1⟩ := h e ab g.start hS h0
  obtain ⟨s2, h2, -⟩ := answers_right h hS (e.integral w ab) qs hq s1 i1
  exact ⟨by simp only [volume, h1], by simp only [probabilities, probabilitiesIn, h1, h2]⟩

/-- **C98**: any two engines that are right agree on the volume and on the answers to all queries. The theorems above say which engines
are right: PyXADD, XSDD with and without a back-end, with PyXADD as algebra or as back-end, and the factorised XSDD. -/
theorem _root_.Pywmi.exact_engines_agree_partial (h : g.Right wide Γ w) (h' : g'.Right wide Γ w) {e : EngineObj} {ab : Bool} (hS : Shared wide Γ e w ab)
    {qs : List Formula} (hq : ∀ q ∈ qs, XOk e.domain q) :
    g.volume e ab = g'.volume e ab ∧ g.probabilities e qs ab = g'.probabilities e qs ab := by
  obtain ⟨a1, a2⟩ := h.returns hS hq
  obtain ⟨b1, b2⟩ := h'.returns hS hq
  exact ⟨a1.trans b1.symm, a2.trans b2.symm⟩

end StatefulEngine

/-- C98: rejection sampling converges to the volume of every engine that is right, with probability one. -/
theorem rejection_limit_partial {g : StatefulEngine} (h : g.Right wide Γ w) {e : EngineObj} (hS : Shared wide Γ e w true) {R : Rng ℝ} (hR : RngOk R) {Ω : Type}
    [MeasurableSpace Ω] {P : Measure Ω} {s : Ω → R.State} (hs : IidUniform R P s) {pypow : ℝ → ℝ → Except PyErr ℝ} (hpow : PowOk pypow) :
    ∃ v, g.volume e true = .ok v ∧
      ∀ᵐ ω ∂P, Filter.Tendsto (fun n => returned (rejectionVolume R pypow e.domain e.support e.weight n none (s ω))) Filter.atTop (nhds v) := by
  refine ⟨_, (h.returns hS (qs := []) (by simp)).1, ?_⟩
  have hP : Problem e.domain e.support (weightOr e.weight) := by rw [hS.weight]; exact hS.problem
  have := rejection_converges hR hs hpow hP
  rw [hS.weight] at this ⊢
  exact this

/-- C98: the answers of rejection sampling to queries converge to those of every engine that is right, if the volume is positive. -/
theorem rejection_queries_limit_partial {g : StatefulEngine} (h : g.Right wide Γ w) {e : EngineObj} (hS : Shared wide Γ e w true) {qs : List Formula}
    (hq : ∀ q ∈ qs, XOk e.domain q) (hpos : 0 < e.integral w true) {R : Rng ℝ} (hR : RngOk R) {Ω : Type} [MeasurableSpace Ω] {P : Measure Ω}
    {s : Ω → R.State} (hs : IidUniform R P s) {pypow : ℝ → ℝ → Except PyErr ℝ} (hpow : PowOk pypow) :
    ∃ a : Formula → ℝ, g.probabilities e qs true = .ok (qs.map fun q => some (a q)) ∧
      ∀ᵐ ω ∂P, ∃ f : Formula → ℕ → ℝ,
        (∀ᶠ n in Filter.atTop, ∃ s', rejectionProbabilities R pypow e.domain e.support e.weight qs n (s ω) = .ok (qs.map fun q => some (f q n), s')) ∧
        ∀ q ∈ qs, Filter.Tendsto (f q) Filter.atTop (nhds (a q)) := by
  refine ⟨fun q => (e.withConstraint q).integral w true / e.integral w true, ?_, ?_⟩
  · rw [(h.returns hS hq).2]
    simp only [if_pos hpos]
  have hP : Problem e.domain e.support (weightOr e.weight) := by rw [hS.weight]; exact hS.problem
  have hpos' : 0 < e.domain.volumeOf true (density e.support (weightOr e.weight)) := by rw [hS.weight]; exact hpos
  have := rejection_probabilities_converge hR hs hpow hP hpos' (qs := qs) fun q hqm => ⟨(hq q hqm).wt, (hq q hqm).vars⟩
  rw [hS.weight] at this ⊢
  exact this

end

/-! ### The hypotheses are met -/

/-- EXAMPLE: the problem. -/
def agreeEngine : EngineObj := ⟨factDomain, factSupport, some xsddWeight⟩

theorem agree_shared (ab : Bool) : Shared false exTypes agreeEngine xsddWeight ab where
  weight := rfl
  box := factDomain_box
  reals := .inr (by decide)
  oneBool := .inr (by decide)
  types := by decide +kernel
  order := by decide +kernel
  wtW := (factWeight_ok false).wt
  vars := (factWeight_ok false).vars
  conds := (factWeight_ok false).conds
  support := factSupport_ok
  inside := .inr ⟨factSupport_bounded, fun σ hσ => by
    unfold density
    rw [if_neg]
    intro ht
    apply hσ
    simp only [agreeEngine, factSupport, truth, truthAll, truthAny, value, Bool.and_eq_true, decide_eq_true_eq, Bool.and_true] at ht
    obtain ⟨-, h1, h2, h3, h4⟩ := ht
    intro v hv
    simp only [agreeEngine, factDomain, List.mem_cons, List.not_mem_nil, or_false] at hv
    rcases hv with rfl | rfl
    · exact ⟨fun b hb => by cases hb; exact of_decide_eq_true h1, fun b hb => by cases hb; exact of_decide_eq_true h2⟩
    · exact ⟨fun b hb => by cases hb; exact of_decide_eq_true h3, fun b hb => by cases hb; exact (of_decide_eq_true h4).le⟩⟩

theorem agree_clash : ∃ P, (pieceW id (Pieces.clashFree id)).walk xsddWeight = .ok P := (xsddWeight_ok false).clash

/-- EXAMPLE: the query `x <= 1`. -/
def agreeQuery : Formula := .le (.sym "x" .real) (.realC 1)

theorem agreeQuery_ok : XOk factDomain agreeQuery where
  wt := by decide
  lit := by decide
  vars p hp := by
    simp only [agreeQuery, syms, List.append_nil, List.mem_singleton] at hp
    subst hp
    exact ⟨by decide, rfl⟩
  generic a ha := by
    simp only [agreeQuery, atoms, List.append_nil, List.mem_singleton] at ha
    subst ha
    exact ⟨env0, by simp [strictAt, value, env0]⟩
  noReals h := absurd h (by decide)

theorem agree_value : agreeEngine.integral xsddWeight true = 15 ∧ (agreeEngine.withConstraint agreeQuery).integral xsddWeight true = 5 := by
  have key : ∀ (e : EngineObj) (n : ℚ), Shared false exTypes e xsddWeight true → (xaddVolume exFull e true (newPool exCtx)).1 = .ok n →
      e.integral xsddWeight true = n := fun e n hS hn => by
    have := ((pyxadd_right_partial (w := xsddWeight) exLaw (C := exFull) rfl id_ordLaw (.refl (p := newPool exCtx))).returns hS (qs := []) (by simp)).1
    simp only [StatefulEngine.volume, pyxaddEngine, castVol] at this
    generalize xaddVolume exFull e true (newPool exCtx) = r at this hn
    obtain ⟨r, q⟩ := r
    simp only at hn
    subst hn
    simpa using this.symm
  exact ⟨by simpa using key _ 15 (agree_shared true) (by decide +kernel),
    by simpa using key _ 5 ((agree_shared true).query agreeQuery_ok) (by decide +kernel)⟩

/-- The six kinds of engines, in concrete cases, give the same volume and the same answers to queries: PyXADD on a used pool, XSDD with an exact
back-end, with PyXADD as back-end, without a back-end, with PyXADD as algebra, and the factorised XSDD. -/
theorem agree_concrete : ∀ g ∈ [pyxaddEngine exFull exPool,
      .pure (sampleOpts false).computeVolume,
      .pure (engineOpts fun e ab => (castVol (xaddVolume exPlain) e ab (newPool exCtx)).1).computeVolume,
      .pure nonConvexOpts.computeVolume, xsddPoolEngine (poolSample true) exPool, .pure (sampleFact true).computeVolume],
    g.volume agreeEngine true = .ok 15 ∧ g.probabilities agreeEngine [agreeQuery] true = .ok [some (1 / 3)] := by
  intro g hg
  suffices h : g.Right false exTypes xsddWeight by
    obtain ⟨h1, h2⟩ := h.returns (agree_shared true) (qs := [agreeQuery]) (by simpa [agreeEngine] using agreeQuery_ok)
    rw [agree_value.1] at h1 h2
    refine ⟨h1, h2.trans ?_⟩
    simp only [List.map_cons, List.map_nil, agree_value.2]
    norm_num
  simp only [List.mem_cons, List.not_mem_nil, or_false] at hg
  rcases hg with rfl | rfl | rfl | rfl | rfl | rfl
  · exact pyxadd_right_partial exLaw rfl id_ordLaw exPool_reachable
  · exact xsdd_right_partial (sampleOpts_sound false) (fun _ _ _ _ _ _ _ _ => .inl rfl) rfl (fun a b h => by simpa [sampleOpts] using h) agree_clash
      fun S => ⟨S, rfl⟩
  · exact xsddEngine_right_partial (engineOpts_sound _) (pyxadd_backend_exact exLaw rfl id_ordLaw fun _ => .refl) rfl
      (fun a b h => by simpa [engineOpts, sampleOpts] using h) agree_clash (fun S => ⟨S, rfl⟩)
      ⟨⟨fun _ => false, fun _ => 1⟩, by simp [xsddWeight, value, truth]⟩
  · exact xsddSymbolic_right_partial nonConvexOpts_sound (bami_vtreeOk (fun _ => List.Perm.refl _) (fun _ => List.Perm.refl _) [])
      (fun _ e vs M _ _ _ _ _ _ => ⟨_, rfl, fun _ => rfl⟩) rfl (fun a b h => by simpa [nonConvexOpts, sampleOpts] using h) agree_clash fun S => ⟨S, rfl⟩
  · exact xsddPool_right_partial (poolSample_sound true) rfl agree_clash exPool_reachable
  · exact fxsdd_right_partial (sampleFact_sound true) (fun a b h => by simpa [sampleFact, sampleOpts] using h) agree_clash rfl fun S => ⟨S, rfl⟩

/-- Rejection sampling on the same problem. -/
example : ∃ v, (pyxaddEngine exFull exPool).volume agreeEngine true = .ok v ∧ ∀ᵐ f ∂(Measure.infinitePi fun _ : ℕ => unif),
    Filter.Tendsto (fun n => returned (rejectionVolume streamRng idealPow factDomain factSupport (some xsddWeight) n none f)) Filter.atTop (nhds v) :=
  rejection_limit_partial (w := xsddWeight) (pyxadd_right_partial exLaw rfl id_ordLaw exPool_reachable) (agree_shared true) streamRng_ok streamRng_iid
    idealPow_ok

/-- The answers of rejection sampling to the query, too. -/
example : ∀ᵐ f ∂(Measure.infinitePi fun _ : ℕ => unif), ∃ p : Formula → ℕ → ℝ,
    (∀ᶠ n in Filter.atTop, ∃ s', rejectionProbabilities streamRng idealPow factDomain factSupport (some xsddWeight) [agreeQuery] n f =
      .ok ([some (p agreeQuery n)], s')) ∧ Filter.Tendsto (p agreeQuery) Filter.atTop (nhds (1 / 3)) := by
  obtain ⟨a, h1, h2⟩ := rejection_queries_limit_partial (w := xsddWeight) (pyxadd_right_partial exLaw (C := exFull) rfl id_ordLaw exPool_reachable) (agree_shared true)
    (qs := [agreeQuery]) (by simpa [agreeEngine] using agreeQuery_ok) (by rw [agree_value.1]; norm_num) streamRng_ok streamRng_iid idealPow_ok
  rw [(agree_concrete _ (List.mem_cons_self ..)).2] at h1
  simp only [List.map_cons, List.map_nil, Except.ok.injEq, List.cons.injEq, Option.some.injEq, and_true] at h1
  rw [h1]
  filter_upwards [h2] with f hf
  obtain ⟨p, h3, h4⟩ := hf
  exact ⟨p, h3, h4 _ (by simp)⟩

/-- EXAMPLE: a problem with two Boolean variables. -/
def wideEngine : EngineObj :=
  ⟨⟨["a", "b", "x"], [("a", .bool), ("b", .bool), ("x", .real)], [("x", (some 0, some 2))]⟩, .or [.sym "a" .bool, .sym "b" .bool], some (.sym "x" .real)⟩

theorem wide_shared : Shared true exTypes wideEngine (.sym "x" .real) true where
  weight := rfl
  box := by
    refine ⟨⟨by decide, by decide, fun v => ?_, by decide, fun v => ?_⟩, fun v b h => ?_⟩
    · simp [wideEngine]
    · simp [wideEngine]
    · simp only [wideEngine, List.lookup] at h
      split at h
      · simp only [Option.some.injEq] at h
        exact ⟨_, _, h.symm, by norm_num⟩
      · cases h
  reals := .inl rfl
  oneBool := .inl rfl
  types := by decide +kernel
  order := by decide +kernel
  wtW := rfl
  vars p hp := by
    simp only [syms, List.mem_singleton] at hp
    subst hp
    exact ⟨by decide, rfl⟩
  conds c hc := by simp [condsOf] at hc
  support :=
    { wt := by decide
      lit := by decide
      vars := fun p hp => by
        simp only [wideEngine, syms, symsList, List.append_nil, List.cons_append, List.nil_append, List.mem_cons, List.not_mem_nil, or_false] at hp
        rcases hp with rfl | rfl <;> exact ⟨by decide, rfl⟩
      generic := fun a ha => by simp [wideEngine, atoms, atomsList] at ha
      noReals := fun h => absurd h (by decide) }
  inside := .inl rfl

/-- EXAMPLE: the query `a and b`. -/
def wideQuery : Formula := .and [.sym "a" .bool, .sym "b" .bool]

theorem wideQuery_ok : XOk wideEngine.domain wideQuery where
  wt := by decide
  lit := by decide
  vars p hp := by
    simp only [wideQuery, syms, symsList, List.append_nil, List.cons_append, List.nil_append, List.mem_cons, List.not_mem_nil, or_false] at hp
    rcases hp with rfl | rfl <;> exact ⟨by decide, rfl⟩
  generic a ha := by simp [wideQuery, atoms, atomsList] at ha
  noReals h := absurd h (by decide)

/-- With several Boolean variables: PyXADD and XSDD with an exact back-end or with PyXADD as back-end. -/
theorem agree_wide : ∀ g ∈ [pyxaddEngine exFull exPool, .pure (sampleOpts false).computeVolume,
      .pure (engineOpts fun e ab => (castVol (xaddVolume exPlain) e ab (newPool exCtx)).1).computeVolume],
    g.volume wideEngine true = .ok 6 ∧ g.probabilities wideEngine [wideQuery] true = .ok [some (1 / 3)] := by
  have key : ∀ (e : EngineObj) (n : ℚ), Shared true exTypes e (.sym "x" .real) true → (xaddVolume exFull e true (newPool exCtx)).1 = .ok n →
      e.integral (.sym "x" .real) true = n := fun e n hS hn => by
    have := ((pyxadd_right_partial (w := .sym "x" .real) exLaw (C := exFull) rfl id_ordLaw (.refl (p := newPool exCtx))).returns hS (qs := [])
      (by simp)).1
    simp only [StatefulEngine.volume, pyxaddEngine, castVol] at this
    generalize xaddVolume exFull e true (newPool exCtx) = r at this hn
    obtain ⟨r, q⟩ := r
    simp only at hn
    subst hn
    simpa using this.symm
  have v1 := key _ 6 wide_shared (by decide +kernel)
  have v2 := key _ 2 (wide_shared.query wideQuery_ok) (by decide +kernel)
  have hc : ∃ P, (pieceW id (Pieces.clashFree id)).walk (.sym "x" .real) = .ok P := by
    have h : ((pieceW id (Pieces.clashFree id)).walk (.sym "x" .real)).toBool = true := by decide +kernel
    cases hp : (pieceW id (Pieces.clashFree id)).walk (.sym "x" .real) with
    | error e => rw [hp] at h; cases h
    | ok P => exact ⟨P, rfl⟩
  intro g hg
  suffices h : g.Right true exTypes (.sym "x" .real) by
    obtain ⟨h1, h2⟩ := h.returns wide_shared (qs := [wideQuery]) (by simpa using wideQuery_ok)
    rw [v1] at h1 h2
    refine ⟨by simpa using h1, h2.trans ?_⟩
    simp only [List.map_cons, List.map_nil, v2]
    norm_num
  simp only [List.mem_cons, List.not_mem_nil, or_false] at hg
  rcases hg with rfl | rfl | rfl
  · exact pyxadd_right_partial exLaw rfl id_ordLaw exPool_reachable
  · exact xsdd_right_partial (sampleOpts_sound false) (fun _ _ _ _ _ _ _ _ => .inl rfl) rfl (fun a b h => by simpa [sampleOpts] using h) hc
      fun S => ⟨S, rfl⟩
  · exact xsddEngine_right_partial (engineOpts_sound _) (pyxadd_backend_exact exLaw rfl id_ordLaw fun _ => .refl) rfl
      (fun a b h => by simpa [engineOpts, sampleOpts] using h) hc (fun S => ⟨S, rfl⟩)
      ⟨⟨fun _ => false, fun _ => 1⟩, by simp [value]⟩

end Pywmi
