import Verif.Xadd.LeafRun
import Verif.Xadd.Order
import Verif.Xadd.EngineRun

set_option linter.unusedSectionVars false
set_option linter.unusedSimpArgs false

/-!
# Histories of a shared pool
-/

namespace Pywmi
open Formula MeasureTheory Set

section
variable {E : Type} [DecidableEq E]

/-- The calls that use or change a pool: `Pool.terminal`, `internal`, `bool_test`, `apply`, `invert`, leaf maps, `to_binary`,
`change_order(None)`, `Diagram.reduce`,
`ResolveIntegrator.integrate`, `ToXaddWalker.walk_smt` and `PyXaddEngine.compute_volume`
(/repo/pywmi/engines/pyxadd/core.py:229-333, 490-516, resolve.py:89-118, engine.py:17-158).  Integrators and engines with
different settings may share a pool, so these calls carry their integrator. -/
inductive PoolOp (E : Type) where
  | terminal (e : E)
  | terminalFormula
  | internal (g : Formula) (t f : ℕ)
  | boolTest (g : Formula)
  | apply (op : XOp) (a b : ℕ)
  | invert (n : ℕ)
  | mapLeaves (g : E → E) (n : ℕ)
  | toBinary (z : E → Bool) (n : ℕ)
  | changeOrder
  | reduce (m : RMethod) (n : ℕ)
  | integrate (C : RCtx E) (n : ℕ) (x : String) (ty : Ty)
  | convert (boolMode : Bool) (f : Formula)
  | volume (C : RCtx E) (e : EngineObj) (addBounds : Bool)

/-- The pool after a call, also when the call raises. -/
def PoolOp.exec (X : XCtx E) (o : PoolOp E) (p : Pool E) : Pool E :=
  match o with
  | .terminal e => (Pywmi.terminal e p).2
  | .terminalFormula => ((terminalFNode : XM E ℕ) p).2
  | .internal g t f => (Pywmi.internal X ⟨g, none, false⟩ t f p).2
  | .boolTest g => (Pywmi.boolTest X ⟨g, none, false⟩ p).2
  | .apply op a b => (Pywmi.apply X op a b p).2
  | .invert n => (Pywmi.invert X n p).2
  | .mapLeaves g n => (transformLeaves X (mapLeaf g) n p).2
  | .toBinary z n => (Pywmi.toBinary X z n p).2
  | .changeOrder => Pywmi.changeOrder p
  | .reduce m n => (reduceBy X m n p).2
  | .integrate C n x ty => (Pywmi.integrate C n x ty p).2
  | .convert m f => (Pywmi.convert X m f p).2
  | .volume C e ab => (xaddVolume C e ab p).2

/-- SPEC: the calls considered: node ids are ids of the pool, tests are Boolean literals, constants or linear comparisons,
formulas are those the converter supports, and names have one type (as pysmt enforces).  `apply` and `invert` are also
considered for operands on which they raise. -/
def PoolOp.Legal (X : XCtx E) (Γ : String → Ty) (p : Pool E) : PoolOp E → Prop
  | .terminal _ => True
  | .terminalFormula => True
  | .internal g t f => TestForm g ∧ (p.node t).isSome ∧ (p.node f).isSome
  | .boolTest g => TestForm g
  | .apply _ a b => (p.node a).isSome ∧ (p.node b).isSome
  | .invert n => (p.node n).isSome
  | .mapLeaves _ n => (p.node n).isSome
  | .toBinary _ n => (p.node n).isSome
  | .changeOrder => True
  | .reduce _ n => (p.node n).isSome
  | .integrate C n x ty => C.X = X ∧ OrdLaw C.ord ∧ (p.node n).isSome ∧ Γ x = ty
  | .convert m f => Sup m f
  | .volume C e _ => C.X = X ∧ OrdLaw C.ord ∧ BoxOk e.domain ∧ (∀ v ∈ e.domain.vars, e.domain.varTypes.lookup v = some (Γ v)) ∧
      supB e.support = true ∧ ∀ w ∈ e.weight, supW w = true

/-- SPEC: the second pool comes from the first one by calls. -/
inductive Hist (X : XCtx E) (Γ : String → Ty) (p : Pool E) : Pool E → Prop
  | refl : Hist X Γ p p
  | step {q : Pool E} (o : PoolOp E) : Hist X Γ p q → o.Legal X Γ q → Hist X Γ p (o.exec X q)

/-- SPEC: pools that can come up. -/
def Reachable (X : XCtx E) (Γ : String → Ty) (p : Pool E) : Prop := Hist X Γ (newPool X) p

theorem Hist.trans {X : XCtx E} {Γ : String → Ty} {p q r : Pool E} (h : Hist X Γ p q) (h' : Hist X Γ q r) : Hist X Γ p r := by
  induction h' with
  | refl => exact h
  | step o _ ho ih => exact .step o ih ho

/-- SPEC: the assumptions on pysmt's `simplify`, the solver and the algebra. -/
structure XLaw (X : XCtx E) (ev : E → (String → ℝ) → ℝ) : Prop where
  simp : SimpLaw X.simp
  solve : SolveLaw X.solve
  back : BackLaw X.back ev

variable {X : XCtx E} {ev : E → (String → ℝ) → ℝ} {Γ : String → Ty}

theorem XLaw.rlaw (h : XLaw X ev) {C : RCtx E} (hC : C.X = X) (ho : OrdLaw C.ord) : RLaw C ev := by
  subst hC
  exact ⟨h.simp, h.solve, h.back, ho⟩

theorem eliminate_keeps {C : RCtx E} (hR : RLaw C ev) : ∀ (vs : List (String × Ty)), (∀ v ∈ vs, Γ v.1 = v.2) → ∀ {p : Pool E}, Inv2 C.X Γ ev p →
    ∀ {n : ℕ}, (p.node n).isSome → Run (Inv2 C.X Γ ev) Fr2 (eliminate C vs n) p True (fun r q => (q.node r).isSome)
  | [], _, p, hp, n, hn => Run.ret Fr2.refl hp hn
  | (x, ty) :: vs, hΓ, p, hp, n, hn => by
    obtain ⟨T, hT⟩ := hp.core.den hn
    have hx := hΓ (x, ty) (by simp)
    have h1 : Run (Inv2 C.X Γ ev) Fr2 (integrate C n x ty) p True (fun r q => (q.node r).isSome) := by
      cases ty with
      | real => exact (integrate_real hR hx hp hT).imp id fun r q _ _ ⟨R, hR, _⟩ => hR.isSome
      | bool => exact (integrate_bool hR hx hp hT).imp id fun r q _ _ ⟨R, hR, _⟩ => hR.isSome
    exact Run.seq2 h1 id fun n' q hq _ hn' => eliminate_keeps hR vs (fun v hv => hΓ v (by simp [hv])) hq hn'

theorem Run.pure_of {α : Type} {I : Pool E → Prop} {R : Pool E → Pool E → Prop} {m : XM E α} {p : Pool E} (hr : ∀ p, R p p) (hp : I p)
    (h : (m p).2 = p) : Run I R m p False (fun _ _ => True) := by
  refine ⟨by rw [h]; exact hp, by rw [h]; exact hr p, fun _ _ => trivial, fun h => h.elim⟩

theorem terminalValue_pool (n : ℕ) (p : Pool E) : (terminalValue X n p).2 = p := by
  unfold terminalValue
  rw [XM.bind_apply]
  unfold getNode
  cases h : p.node n with
  | none => rfl
  | some x => cases x <;> rfl

theorem volume_keeps {C : RCtx E} (hR : RLaw C ev) {e : EngineObj} (hD : BoxOk e.domain)
    (hΓ : ∀ v ∈ e.domain.vars, e.domain.varTypes.lookup v = some (Γ v)) (hs : supB e.support = true) (hw : ∀ w ∈ e.weight, supW w = true)
    (ab : Bool) {p : Pool E} (hp : Inv2 C.X Γ ev p) : Run (Inv2 C.X Γ ev) Ext (xaddVolume C e ab) p False (fun _ _ => True) := by
  have hsup : ∃ s, xaddSupport e ab = .ok s ∧ supB s = true := by
    cases ab with
    | false => exact ⟨_, rfl, hs⟩
    | true =>
      obtain ⟨b, hb, -⟩ := bounds_ok hD
      exact ⟨.and [e.support, b], by simp [xaddSupport, hb], by simp [supB, supBAll, hs, bounds_supB hD hb]⟩
  obtain ⟨s, hs1, hs2⟩ := hsup
  unfold xaddVolume
  refine Run.bindLift hs1 ?_
  refine Run.seqE (convert_run hR.simp hR.back hp (m := true) (f := s) (Or.inl ⟨rfl, Or.inl hs2⟩)) (fun h => h.elim) ?_
  rintro rs q1 hq1 h01 ⟨hr1, -, -⟩
  obtain ⟨ns, rfl, hns⟩ := hr1 rfl hs2
  cases hwt : e.weight with
  | none => exact Run.fail Ext.refl hq1 id
  | some w =>
    have hsw := hw w (by rw [hwt]; rfl)
    simp only
    refine Run.seqE (convert_run hR.simp hR.back hq1 (m := false) (f := w) (Or.inr ⟨rfl, hsw⟩)) (fun h => h.elim) ?_
    rintro rw q2 hq2 h12 ⟨-, -, hr2⟩
    obtain ⟨nw, rfl, W, hW, -⟩ := hr2 rfl hsw
    obtain ⟨S, hS, -⟩ := hns.mono hq1.core h12
    refine Run.useNode (Run.useNode ?_)
    refine Run.seqE ((apply2 hR.simp (Or.inl rfl) hq2 hS hW).fr2E) (fun h => h.elim) ?_
    rintro n q3 hq3 h23 ⟨T, hT, -⟩
    refine Run.bindLift (symbolsOf_ok e.domain.vars hΓ) ?_
    refine Run.seqE ((eliminate_keeps hR _ (by simp) hq3 hT.isSome).fr2E) (fun h => h.elim) ?_
    intro n5 q5 hq5 _ _
    exact Run.pure_of Ext.refl hq5 (terminalValue_pool n5 q5)

theorem changeOrder_ext (p : Pool E) : Ext p (changeOrder p) := ⟨List.prefix_refl _, List.prefix_refl _, rfl, rfl⟩

theorem changeOrder_inv {p : Pool E} (hp : Inv2 X Γ ev p) : Inv2 X Γ ev (changeOrder p) := by
  have he := changeOrder_ext p
  have c := hp.core
  have hn : ∀ n, (changeOrder p).node n = p.node n := node_congr rfl
  have hcore : Core X (changeOrder p) :=
    ⟨(hn _).trans c.zero, (hn _).trans c.one, fun h => by simp only [hn] at h ⊢; exact c.inner h,
      fun e n => by rw [hn]; exact c.exprs e n, fun i t f n => by simp only [hn]; exact c.inners i t f n, c.nodup⟩
  exact ⟨⟨⟨⟨hcore, fun op a b r h => (hp.app op a b r h).mono he hp.core⟩, fun n r h => by cases h⟩, fun r pr h => by cases h⟩,
    fun key r h => by cases h⟩

/-- Every call keeps the invariant and all nodes. -/
theorem PoolOp.keeps (hX : XLaw X ev) {p : Pool E} (hp : Inv2 X Γ ev p) (o : PoolOp E) (ho : o.Legal X Γ p) :
    Inv2 X Γ ev (o.exec X p) ∧ Ext p (o.exec X p) := by
  have of2 : ∀ {α : Type} {m : XM E α} {s : Prop} {Q : α → Pool E → Prop}, Run (Inv2 X Γ ev) Fr2 m p s Q →
      Inv2 X Γ ev (m p).2 ∧ Ext p (m p).2 := fun h => ⟨h.1, h.2.1.toExt⟩
  cases o with
  | terminal e => exact of2 ((terminal_run hp.core e).core2 hp)
  | terminalFormula => exact of2 ((terminalFNode_run hp.core).core2 hp)
  | internal g t f =>
    obtain ⟨hg, ht, hf⟩ := ho
    obtain ⟨A, hA⟩ := hp.core.den ht
    obtain ⟨B, hB⟩ := hp.core.den hf
    exact of2 ((internal_test hX.simp hp.core hg hA hB).core2 hp)
  | boolTest g =>
    have h := (internal_test hX.simp hp.core ho (.leaf hp.core.one) (.leaf hp.core.zero)).core2 hp
    exact of2 (m := Pywmi.boolTest X ⟨g, none, false⟩) (Run.bindGet h)
  | apply op a b =>
    obtain ⟨T1, h1⟩ := hp.core.den ho.1
    obtain ⟨T2, h2⟩ := hp.core.den ho.2
    exact of2 ((((apply_run hX.simp op hp.toInv0 h1 h2).inv0 hp.toInv1).inv1 hp.toInvP).invI hp)
  | invert n =>
    obtain ⟨T, hT⟩ := hp.core.den ho
    exact of2 ((invert_run hX.simp hX.back hp.toInvP hT).invI hp)
  | mapLeaves g n =>
    obtain ⟨T, hT⟩ := hp.core.den ho
    exact of2 ((transformMap_run hX.simp hX.back hp.toInvP hT g).invI hp)
  | toBinary z n =>
    obtain ⟨T, hT⟩ := hp.core.den ho
    exact of2 ((toBinary_run hX.simp hX.back hp.toInvP hT z).invI hp)
  | changeOrder => exact ⟨changeOrder_inv hp, changeOrder_ext p⟩
  | reduce m n =>
    obtain ⟨T, hT⟩ := hp.core.den ho
    exact of2 (((reduceBy_run hX.simp hX.solve m hp.toInv1 hT).inv1 hp.toInvP).invI hp)
  | integrate C n x ty =>
    obtain ⟨rfl, h2, h3, h4⟩ := ho
    obtain ⟨T, hT⟩ := hp.core.den h3
    have hR := hX.rlaw rfl h2
    cases ty with
    | real => exact of2 (integrate_real hR h4 hp hT)
    | bool => exact of2 (integrate_bool hR h4 hp hT)
  | convert m f =>
    have := convert_run hX.simp hX.back hp (m := m) (f := f) ho
    exact ⟨this.1, this.2.1⟩
  | volume C e ab =>
    obtain ⟨rfl, h2, h3, h4, h5, h6⟩ := ho
    have := volume_keeps (hX.rlaw rfl h2) h3 h4 h5 h6 ab hp
    exact ⟨this.1, this.2.1⟩

theorem Hist.keeps (hX : XLaw X ev) {p q : Pool E} (hp : Inv2 X Γ ev p) (h : Hist X Γ p q) : Inv2 X Γ ev q ∧ Ext p q := by
  induction h with
  | refl => exact ⟨hp, Ext.refl p⟩
  | step o _ ho ih =>
    obtain ⟨i, e⟩ := o.keeps hX ih.1 ho
    exact ⟨i, ih.2.trans e⟩

theorem Reachable.inv (hX : XLaw X ev) {p : Pool E} (h : Reachable X Γ p) : Inv2 X Γ ev p :=
  (Hist.keeps hX (newPool_inv2 hX.back.ne) h).1

end
end Pywmi
