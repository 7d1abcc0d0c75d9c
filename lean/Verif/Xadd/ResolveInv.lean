import Verif.Xadd.Bound
import Verif.Xadd.Invert

set_option linter.unusedSectionVars false
set_option linter.unusedSimpArgs false

/-!
# Invariant of a pool with the cache of integrals, and the two sides of a bound
-/

namespace Pywmi
open Formula MeasureTheory Set

section
variable {E : Type} [DecidableEq E] {X : XCtx E} {ev : E → (String → ℝ) → ℝ} {Γ : String → Ty}

/-- SPEC: the symbols of the tests of a diagram. -/
def SymsIn (V : String × Ty → Prop) (T : XTree E) : Prop := ∀ g ∈ T.tests, ∀ v ∈ syms g, V v

theorem SymsIn.leaf {V : String × Ty → Prop} {e : E} : SymsIn V (.leaf e) := fun g hg => (by cases hg)

/-- SPEC: the second diagram is the integral of the first one over a real variable between the bounds. -/
structure ResSpec (ev : E → (String → ℝ) → ℝ) (x : String) (ub lb : Option Formula) (T R : XTree E) : Prop where
  val : ∀ σ : Env ℝ, (∀ l ∈ lb, ∀ u ∈ ub, value σ l ≤ value σ u) → Vanish (T.slice ev σ x) (region σ ub lb) →
    R.eval ev σ = ∫ t in region σ ub lb, T.slice ev σ x t
  syms : SymsIn (fun v => v ≠ (x, Ty.real) ∧ ((∃ g ∈ T.tests, v ∈ syms g) ∨ (∃ l ∈ lb, v ∈ syms l) ∨ ∃ u ∈ ub, v ∈ syms u)) R

/-- SPEC: the second diagram is the sum of the first one over a Boolean variable. -/
structure SumSpec (ev : E → (String → ℝ) → ℝ) (b : String) (L : List Formula) (T R : XTree E) : Prop where
  val : ∀ σ : Env ℝ, R.eval ev σ = T.eval ev (σ.setB b true) + T.eval ev (σ.setB b false)
  tests : ∀ g ∈ R.tests, g ∈ T.tests ∧ g ≠ .sym b .bool
  ord : R.Ord L

/-- SPEC: an entry of the cache of integrals is right; `Γ` gives the types of the names. -/
def ResOk (Γ : String → Ty) (ev : E → (String → ℝ) → ℝ) (p : Pool E) (key : RKey) (r : ℕ) : Prop :=
  ∃ T R, Den p key.2.1 T ∧ Den p r R ∧
    (Γ key.1 = .real → (∀ u ∈ key.2.2.1, BoundOk key.1 u) → (∀ l ∈ key.2.2.2, BoundOk key.1 l) →
      ResSpec ev key.1 key.2.2.1 key.2.2.2 T R) ∧
    (Γ key.1 = .bool → T.Ord p.tests → SumSpec ev key.1 p.tests T R)

/-- The invariant with the cache of integrals. -/
structure Inv2 (X : XCtx E) (Γ : String → Ty) (ev : E → (String → ℝ) → ℝ) (p : Pool E) : Prop extends InvP X p where
  res : ∀ key r, p.resolveCache.lookup key = some r → ResOk Γ ev p key r

/-- The dictionary of the walker is as before. -/
structure Fr2 (p q : Pool E) : Prop extends Ext p q where
  walkC : q.walk = p.walk

theorem Fr2.refl (p : Pool E) : Fr2 p p := ⟨Ext.refl p, rfl⟩
theorem Fr2.trans {p q r : Pool E} (h : Fr2 p q) (h' : Fr2 q r) : Fr2 p r := ⟨h.toExt.trans h'.toExt, h'.walkC.trans h.walkC⟩
theorem FrI.fr2 {p q : Pool E} (h : FrI p q) : Fr2 p q := ⟨h.toExt, h.walkC⟩

theorem SumSpec.mono {b : String} {L L' : List Formula} (h : L <+: L') {T R : XTree E} (hT : ∀ g ∈ T.tests, g ∈ L)
    (hs : SumSpec ev b L T R) : SumSpec ev b L' T R :=
  ⟨hs.val, hs.tests, (XTree.Ord.mono h fun g hg => hT g (hs.tests g hg).1).mpr hs.ord⟩

theorem ResOk.mono {p q : Pool E} (he : Ext p q) (hp : Core X p) {key : RKey} {r : ℕ} (h : ResOk Γ ev p key r) : ResOk Γ ev q key r := by
  obtain ⟨T, R, h1, h2, h3, h4⟩ := h
  exact ⟨T, R, he.den h1, he.den h2, h3, fun hb ho =>
    (h4 hb ((XTree.Ord.mono he.tests (h1.tests hp)).mp ho)).mono he.tests (h1.tests hp)⟩

theorem Run.invI {α : Type} {m : XM E α} {p : Pool E} {s : Prop} {Q : α → Pool E → Prop} (hp : Inv2 X Γ ev p)
    (h : Run (InvP X) FrI m p s Q) : Run (Inv2 X Γ ev) Fr2 m p s Q :=
  h.weaken (fun _ hq hpq => ⟨hq, fun key r hl => (hp.res key r (hpq.resolveC ▸ hl)).mono hpq.toExt hp.core⟩) fun _ hpq => hpq.fr2

theorem Run.seq2 {α β : Type} {I : Pool E → Prop} {m : XM E α} {f : α → XM E β} {p : Pool E} {s safe : Prop}
    {P : α → Pool E → Prop} {Q : β → Pool E → Prop} (h1 : Run I Fr2 m p s P) (hs : safe → s)
    (h2 : ∀ a q, I q → Fr2 p q → P a q → Run I Fr2 (f a) q safe Q) : Run I Fr2 (m >>= f) p safe Q :=
  Run.bind (R := Fr2) (fun h h' => h.trans h') (h1.imp hs fun _ _ _ _ h => h) h2

theorem Run.core2 {α : Type} {m : XM E α} {p : Pool E} {s : Prop} {Q : α → Pool E → Prop} (hp : Inv2 X Γ ev p)
    (h : Run (Core X) Fr m p s Q) : Run (Inv2 X Γ ev) Fr2 m p s Q := (((h.core hp.toInv0).inv0 hp.toInv1).inv1 hp.toInvP).invI hp

theorem newPool_inv2 (hne : X.back.alg.zero ≠ X.back.alg.one) : Inv2 X Γ ev (newPool X) :=
  ⟨newPool_invP hne, fun key r h => by rw [newPool_eq hne] at h; cases h⟩

/-! ### Steps -/

theorem reduce2 (hs : SimpLaw X.simp) (hl : SolveLaw X.solve) {m : RMethod} (hm : m ≠ .other) {p : Pool E} (hp : Inv2 X Γ ev p) {n : ℕ}
    {T : XTree E} (hT : Den p n T) :
    Run (Inv2 X Γ ev) Fr2 (reduceBy X m n) p True (fun r q => ∃ T', Den q r T' ∧ RedSpec q.tests [] T T') :=
  (((reduceBy_run hs hl m hp.toInv1 hT).inv1 hp.toInvP).invI hp).imp (fun _ => hm) fun _ _ _ _ h => h

theorem apply2 (hs : SimpLaw X.simp) {op : XOp} (hop : op = .mul ∨ op = .add) {p : Pool E} (hp : Inv2 X Γ ev p) {a b : ℕ} {T1 T2 : XTree E}
    (h1 : Den p a T1) (h2 : Den p b T2) :
    Run (Inv2 X Γ ev) Fr2 (apply X op a b) p True (fun r q => ∃ T, Den q r T ∧ AppSpec X q.tests op T1 T2 T) :=
  ((((apply_run hs op hp.toInv0 h1 h2).inv0 hp.toInv1).inv1 hp.toInvP).invI hp).imp
    (fun _ h => by rcases hop with rfl | rfl <;> rcases h with h | h <;> cases h) fun _ _ _ _ h => h

theorem RedSpec.eval {L : List Formula} {T T' : XTree E} (h : RedSpec L [] T T') (σ : Env ℝ) : T'.eval ev σ = T.eval ev σ := by
  unfold XTree.eval; rw [h.leaf σ (by simp)]
theorem RedSpec.symsIn {L st : List Formula} {T T' : XTree E} (h : RedSpec L st T T') {V : String × Ty → Prop} (hT : SymsIn V T) : SymsIn V T' :=
  fun g hg => hT g (h.tests g hg)
theorem AppSpec.eval (hb : BackLaw X.back ev) {L : List Formula} {op : XOp} (hop : op = .mul ∨ op = .add) {T1 T2 T : XTree E}
    (h : AppSpec X L op T1 T2 T) (σ : Env ℝ) : T.eval ev σ = opR op (T1.eval ev σ) (T2.eval ev σ) := by
  unfold XTree.eval
  rw [h.leaf, opE_eval hb]
  rintro (h | h) <;> rcases hop with rfl | rfl <;> cases h
theorem AppSpec.symsIn {L : List Formula} {op : XOp} {T1 T2 T : XTree E} (h : AppSpec X L op T1 T2 T) {V : String × Ty → Prop}
    (h1 : SymsIn V T1) (h2 : SymsIn V T2) : SymsIn V T := fun g hg => (h.tests g hg).elim (h1 g) (h2 g)
theorem TestSpec.eval {g : Formula} {A B T : XTree E} (h : TestSpec g A B T) (σ : Env ℝ) :
    T.eval ev σ = if readTest σ g then A.eval ev σ else B.eval ev σ := by
  unfold XTree.eval; rw [h.1]; split <;> rfl
theorem TestSpec.symsIn {g : Formula} {A B T : XTree E} (h : TestSpec g A B T) {V : String × Ty → Prop} (hg : ∀ v ∈ syms g, V v)
    (hA : SymsIn V A) (hB : SymsIn V B) : SymsIn V T := by
  rcases h.2 with rfl | rfl | ⟨d, hd, hsy⟩
  · exact hA
  · exact hB
  · intro k hk v hv
    rcases hd with rfl | rfl <;> simp only [XTree.tests, List.mem_cons, List.mem_append] at hk <;> rcases hk with rfl | hk | hk
    · exact hg v (hsy v hv)
    · exact hA k hk v hv
    · exact hB k hk v hv
    · exact hg v (hsy v hv)
    · exact hB k hk v hv
    · exact hA k hk v hv
theorem CanSpec.symsIn {d : Decision} {A B T : XTree E} (h : CanSpec d A B T) {V : String × Ty → Prop} (hg : ∀ v ∈ syms d.test, V v)
    (hA : SymsIn V A) (hB : SymsIn V B) : SymsIn V T := by
  rcases h with ⟨rfl, -⟩ | ⟨d', hd, -, rfl⟩
  · exact hA
  · intro k hk v hv
    simp only [XTree.tests, List.mem_cons, List.mem_append, hd] at hk
    rcases hk with rfl | hk | hk
    · exact hg v hv
    · exact hA k hk v hv
    · exact hB k hk v hv
theorem CanSpec.eval {d : Decision} {A B T : XTree E} (h : CanSpec d A B T) (σ : Env ℝ) :
    T.eval ev σ = if truth σ d.test then A.eval ev σ else B.eval ev σ := by
  rcases h with ⟨rfl, rfl⟩ | ⟨d', hd, -, rfl⟩
  · simp
  · rw [XTree.eval_node, hd]

/-! ### Laws of an integrator -/

/-- SPEC: the assumptions on the surroundings of an integrator. -/
structure RLaw (C : RCtx E) (ev : E → (String → ℝ) → ℝ) : Prop where
  simp : SimpLaw C.X.simp
  solve : SolveLaw C.X.solve
  back : BackLaw C.X.back ev
  ord : OrdLaw C.ord

theorem RCtx.method_ne (C : RCtx E) : C.method ≠ .other := by
  unfold RCtx.method; split <;> simp

variable {C : RCtx E}

theorem zeroEval (hb : BackLaw C.X.back ev) (σ : Env ℝ) : (XTree.leaf C.X.back.alg.zero).eval ev σ = 0 := hb.evZero σ.r
theorem oneEval (hb : BackLaw C.X.back ev) (σ : Env ℝ) : (XTree.leaf C.X.back.alg.one).eval ev σ = 1 := hb.evOne σ.r

theorem boolTest2 (hR : RLaw C ev) {p : Pool E} (hp : Inv2 C.X Γ ev p) {g : Formula} (hg : TestForm g) :
    Run (Inv2 C.X Γ ev) Fr2 (boolTest C.X ⟨g, none, false⟩) p True
      (fun r q => ∃ K, Den q r K ∧ TestSpec g (.leaf C.X.back.alg.one) (.leaf C.X.back.alg.zero) K) := by
  unfold boolTest
  refine Run.bindGet ?_
  exact (internal_test hR.simp hp.core hg (.leaf hp.core.one) (.leaf hp.core.zero)).core2 hp

/-- The condition for the part below the new bound. -/
theorem consistUb_run (hR : RLaw C ev) {p : Pool E} (hp : Inv2 C.X Γ ev p) {lb : Option Formula} {nb : Formula}
    (hl : ∀ l ∈ lb, linTerm l = true) (hn : linTerm nb = true) {V : String × Ty → Prop} (hVl : ∀ l ∈ lb, ∀ v ∈ syms l, V v)
    (hVn : ∀ v ∈ syms nb, V v) :
    Run (Inv2 C.X Γ ev) Fr2 (consistUb C.X lb nb) p True (fun r q => ∃ K, Den q r.1 K ∧ SymsIn V K ∧
      ∀ σ : Env ℝ, (K.eval ev σ = 1 ∧ r.2 = false ∧ ∀ l ∈ lb, value σ l ≤ value σ nb) ∨
        (K.eval ev σ = 0 ∧ ∃ l ∈ lb, value σ nb ≤ value σ l)) := by
  unfold consistUb
  refine Run.bindGet ?_
  cases lb with
  | none =>
    exact Run.ret Fr2.refl hp ⟨_, .leaf hp.core.one, SymsIn.leaf, fun σ => Or.inl ⟨oneEval hR.back σ, rfl, by simp⟩⟩
  | some l =>
    obtain ⟨h1, h2, h3⟩ := simp_lt hR.simp (hl l rfl) hn
    simp only
    split
    · rename_i he
      refine Run.ret Fr2.refl hp ⟨_, .leaf hp.core.zero, SymsIn.leaf, fun σ => Or.inr ⟨zeroEval hR.back σ, l, rfl, (h3 σ).2 ?_⟩⟩
      rw [he]; rfl
    · split
      · rename_i he
        refine Run.ret Fr2.refl hp ⟨_, .leaf hp.core.one, SymsIn.leaf, fun σ => Or.inl ⟨oneEval hR.back σ, rfl, fun l' hl' => ?_⟩⟩
        cases hl'
        refine (h3 σ).1 ?_
        rw [he]; rfl
      · refine Run.seq2 (boolTest2 hR hp h1) id ?_
        rintro b q hq hpq ⟨K, hK, hs⟩
        refine Run.ret Fr2.refl hq ⟨K, hK, hs.symsIn (fun v hv => ?_) SymsIn.leaf SymsIn.leaf, fun σ => ?_⟩
        · exact (h2 v hv).elim (hVl l rfl v) (hVn v)
        · rw [hs.eval, zeroEval hR.back, oneEval hR.back]
          cases hr : readTest σ (C.X.simp (.lt l nb)) with
          | true => exact Or.inl ⟨by simp, rfl, fun l' hl' => by cases hl'; exact (h3 σ).1 hr⟩
          | false => exact Or.inr ⟨by simp, l, rfl, (h3 σ).2 hr⟩

/-- The condition for the part above the new bound. -/
theorem consistLb_run (hR : RLaw C ev) {p : Pool E} (hp : Inv2 C.X Γ ev p) {ub : Option Formula} {nb : Formula}
    (hu : ∀ u ∈ ub, linTerm u = true) (hn : linTerm nb = true) {V : String × Ty → Prop} (hVu : ∀ u ∈ ub, ∀ v ∈ syms u, V v)
    (hVn : ∀ v ∈ syms nb, V v) :
    Run (Inv2 C.X Γ ev) Fr2 (consistLb C.X ub nb) p True (fun r q => ∃ K, Den q r.1 K ∧ SymsIn V K ∧
      ∀ σ : Env ℝ, (K.eval ev σ = 1 ∧ r.2 = false ∧ ∀ u ∈ ub, value σ nb ≤ value σ u) ∨
        (K.eval ev σ = 0 ∧ ∃ u ∈ ub, value σ u ≤ value σ nb)) := by
  unfold consistLb
  refine Run.bindGet ?_
  cases ub with
  | none =>
    exact Run.ret Fr2.refl hp ⟨_, .leaf hp.core.one, SymsIn.leaf, fun σ => Or.inl ⟨oneEval hR.back σ, rfl, by simp⟩⟩
  | some l =>
    obtain ⟨h1, h2, h3⟩ := simp_lt hR.simp hn (hu l rfl)
    simp only
    split
    · rename_i he
      refine Run.ret Fr2.refl hp ⟨_, .leaf hp.core.zero, SymsIn.leaf, fun σ => Or.inr ⟨zeroEval hR.back σ, l, rfl, (h3 σ).2 ?_⟩⟩
      rw [he]; rfl
    · refine Run.seq2 (boolTest2 hR hp h1) id ?_
      rintro b q hq hpq ⟨K, hK, hs⟩
      refine Run.ret Fr2.refl hq ⟨K, hK, hs.symsIn (fun v hv => ?_) SymsIn.leaf SymsIn.leaf, fun σ => ?_⟩
      · exact (h2 v hv).elim (hVn v) (hVu l rfl v)
      · rw [hs.eval, zeroEval hR.back, oneEval hR.back]
        cases hr : readTest σ (C.X.simp (.lt nb l)) with
        | true => exact Or.inl ⟨by simp, rfl, fun l' hl' => by cases hl'; exact (h3 σ).1 hr⟩
        | false => exact Or.inr ⟨by simp, l, rfl, (h3 σ).2 hr⟩

/-- SPEC: a computation that yields a diagram with the property from every later pool. -/
def Yields (X : XCtx E) (Γ : String → Ty) (ev : E → (String → ℝ) → ℝ) (p : Pool E) (m : XM E ℕ) (P : XTree E → Prop) : Prop :=
  ∀ q, Inv2 X Γ ev q → Ext p q → Run (Inv2 X Γ ev) Fr2 m q True (fun r q' => ∃ R, Den q' r R ∧ P R)

/-- The choice between the old and the new bound. -/
theorem tighter_run (hR : RLaw C ev) {p : Pool E} (hp : Inv2 C.X Γ ev p) {t : Formula} (ht : TestForm t) {best some' : XM E ℕ}
    {P1 P2 : XTree E → Prop} (h1 : Yields C.X Γ ev p best P1) (h2 : Yields C.X Γ ev p some' P2) {V : String × Ty → Prop}
    (hV : ∀ v ∈ syms t, V v) (hV1 : ∀ R, P1 R → SymsIn V R) (hV2 : ∀ R, P2 R → SymsIn V R) :
    Run (Inv2 C.X Γ ev) Fr2 (tighter C t best some') p True (fun r q => ∃ S, Den q r S ∧ SymsIn V S ∧
      ∃ A B, (t ≠ .boolC false → P1 A) ∧ (t ≠ .boolC true → P2 B) ∧
        ∀ σ : Env ℝ, S.eval ev σ = if readTest σ t then A.eval ev σ else B.eval ev σ) := by
  unfold tighter
  refine Run.bindGet ?_
  have hs : Run (Inv2 C.X Γ ev) Fr2 (if t = .boolC true then pure p.zeroId else some') p True
      (fun r q => ∃ B, Den q r B ∧ (t ≠ .boolC true → P2 B) ∧ SymsIn V B) := by
    split
    · rename_i he
      exact Run.ret Fr2.refl hp ⟨_, .leaf hp.core.zero, fun h => absurd he h, SymsIn.leaf⟩
    · exact (h2 p hp (Ext.refl p)).imp id fun r q _ _ ⟨B, hB, hP⟩ => ⟨B, hB, fun _ => hP, hV2 B hP⟩
  refine Run.seq2 hs id ?_
  rintro s q1 hq1 h01 ⟨B, hB, hPB, hVB⟩
  have hb : Run (Inv2 C.X Γ ev) Fr2 (if t = .boolC false then pure p.zeroId else best) q1 True
      (fun r q => ∃ A, Den q r A ∧ (t ≠ .boolC false → P1 A) ∧ SymsIn V A) := by
    split
    · rename_i he
      exact Run.ret Fr2.refl hq1 ⟨_, h01.den (.leaf hp.core.zero), fun h => absurd he h, SymsIn.leaf⟩
    · exact (h1 q1 hq1 h01.toExt).imp id fun r q _ _ ⟨A, hA, hP⟩ => ⟨A, hA, fun _ => hP, hV1 A hP⟩
  refine Run.seq2 hb id ?_
  rintro b q2 hq2 h12 ⟨A, hA, hPA, hVA⟩
  refine Run.seq2 (reduce2 hR.simp hR.solve C.method_ne hq2 hA) id ?_
  rintro b' q3 hq3 h23 ⟨A', hA', rA⟩
  refine Run.seq2 (reduce2 hR.simp hR.solve C.method_ne hq3 (h23.den (h12.den hB))) id ?_
  rintro s' q4 hq4 h34 ⟨B', hB', rB⟩
  refine ((internal_test hR.simp hq4.core ht (h34.den hA') hB').core2 hq4).imp id fun r q5 _ _ ⟨S, hS, sS⟩ => ?_
  refine ⟨S, hS, sS.symsIn hV (rA.symsIn hVA) (rB.symsIn hVB), A, B, hPA, hPB, fun σ => ?_⟩
  rw [sS.eval, rA.eval, rB.eval]

/-! ### The two sides -/

theorem region_ub_new {σ : Env ℝ} {ub lb : Option Formula} {nb : Formula} (h : ∀ u ∈ ub, value σ nb ≤ value σ u) :
    region σ (some nb) lb = region σ ub lb ∩ Iio (value σ nb) := by
  ext t
  simp only [region, mem_inter_iff, mem_ofPred_eq, mem_Iio, Option.mem_def, Option.some.injEq, forall_eq']
  constructor
  · rintro ⟨h1, h2⟩; exact ⟨⟨h1, fun u hu => lt_of_lt_of_le h2 (h u hu)⟩, h2⟩
  · rintro ⟨⟨h1, _⟩, h2⟩; exact ⟨h1, h2⟩

theorem region_ub_old {σ : Env ℝ} {u : Formula} {lb : Option Formula} {nb : Formula} (h : value σ u ≤ value σ nb) :
    region σ (some u) lb = region σ (some u) lb ∩ Iio (value σ nb) := by
  ext t
  simp only [region, mem_inter_iff, mem_ofPred_eq, mem_Iio, Option.mem_def, Option.some.injEq, forall_eq']
  constructor
  · rintro ⟨h1, h2⟩; exact ⟨⟨h1, h2⟩, lt_of_lt_of_le h2 h⟩
  · rintro ⟨h1, _⟩; exact h1

theorem region_lb_new {σ : Env ℝ} {ub lb : Option Formula} {nb : Formula} (h : ∀ l ∈ lb, value σ l ≤ value σ nb) :
    region σ ub (some nb) = region σ ub lb ∩ Ioi (value σ nb) := by
  ext t
  simp only [region, mem_inter_iff, mem_ofPred_eq, mem_Ioi, Option.mem_def, Option.some.injEq, forall_eq']
  constructor
  · rintro ⟨h1, h2⟩; exact ⟨⟨fun l hl => lt_of_le_of_lt (h l hl) h1, h2⟩, h1⟩
  · rintro ⟨⟨_, h1⟩, h2⟩; exact ⟨h2, h1⟩

theorem region_lb_old {σ : Env ℝ} {l : Formula} {ub : Option Formula} {nb : Formula} (h : value σ nb ≤ value σ l) :
    region σ ub (some l) = region σ ub (some l) ∩ Ioi (value σ nb) := by
  ext t
  simp only [region, mem_inter_iff, mem_ofPred_eq, mem_Ioi, Option.mem_def, Option.some.injEq, forall_eq']
  constructor
  · rintro ⟨h1, h2⟩; exact ⟨⟨h1, h2⟩, lt_of_le_of_lt h h1⟩
  · rintro ⟨h1, _⟩; exact h1

/-- The part below the new bound: right where the lower bound is not above it. -/
theorem branchUb_run (hR : RLaw C ev) {p : Pool E} (hp : Inv2 C.X Γ ev p) {x : String} {ub lb : Option Formula} {nb : Formula}
    (hu : ∀ u ∈ ub, linTerm u = true) (hn : linTerm nb = true) {V : String × Ty → Prop} (hVu : ∀ u ∈ ub, ∀ v ∈ syms u, V v)
    (hVn : ∀ v ∈ syms nb, V v) {A : XTree E} {rec : Option Formula → Option Formula → XM E ℕ}
    (h1 : Yields C.X Γ ev p (rec (some nb) lb) (fun R => ResSpec ev x (some nb) lb A R ∧ SymsIn V R))
    (h2 : ub ≠ none → Yields C.X Γ ev p (rec ub lb) (fun R => ResSpec ev x ub lb A R ∧ SymsIn V R)) (pass : Bool) :
    Run (Inv2 C.X Γ ev) Fr2 (branchUb C rec nb ub lb pass) p True (fun r q => ∃ S, Den q r S ∧ SymsIn V S ∧
      (pass = false → ∀ σ : Env ℝ, (∀ l ∈ lb, value σ l ≤ value σ nb) → (∀ l ∈ lb, ∀ u ∈ ub, value σ l ≤ value σ u) →
        Vanish (A.slice ev σ x) (region σ ub lb ∩ Iio (value σ nb)) →
        S.eval ev σ = ∫ t in region σ ub lb ∩ Iio (value σ nb), A.slice ev σ x t)) := by
  unfold branchUb
  refine Run.bindGet ?_
  cases pass with
  | true => exact Run.ret Fr2.refl hp ⟨_, .leaf hp.core.zero, SymsIn.leaf, fun h => by cases h⟩
  | false =>
    simp only [Bool.false_eq_true, if_false]
    cases ub with
    | none =>
      refine (h1 p hp (Ext.refl p)).imp id fun r q _ _ ⟨R, hD, hr, hv⟩ => ⟨R, hD, hv, fun _ σ hlb _ hvan => ?_⟩
      have he := region_ub_new (σ := σ) (ub := none) (lb := lb) (nb := nb) (by simp)
      rw [← he] at hvan ⊢
      exact hr.val σ (fun l hl u hu => by cases hu; exact hlb l hl) hvan
    | some u =>
      obtain ⟨t1, t2, t3⟩ := simp_lt hR.simp hn (hu u rfl)
      refine (tighter_run hR hp t1 h1 (h2 (by simp)) (V := V) (fun v hv => (t2 v hv).elim (hVn v) (hVu u rfl v)) (fun R h => h.2)
        fun R h => h.2).imp id fun r q _ _ ⟨S, hD, hv, P, Q, hP, hQ, hev⟩ => ⟨S, hD, hv, fun _ σ hlb hlu hvan => ?_⟩
      rw [hev]
      cases hr : readTest σ (C.X.simp (.lt nb u)) with
      | true =>
        have hne : C.X.simp (.lt nb u) ≠ .boolC false := by intro h; rw [h] at hr; cases hr
        have he := region_ub_new (σ := σ) (ub := some u) (lb := lb) (nb := nb) (fun u' hu' => by cases hu'; exact (t3 σ).1 hr)
        rw [← he] at hvan ⊢
        exact (hP hne).1.val σ (fun l hl u hu => by cases hu; exact hlb l hl) hvan
      | false =>
        have hne : C.X.simp (.lt nb u) ≠ .boolC true := by intro h; rw [h] at hr; cases hr
        have he := region_ub_old (σ := σ) (u := u) (lb := lb) (nb := nb) ((t3 σ).2 hr)
        rw [← he] at hvan ⊢
        exact (hQ hne).1.val σ hlu hvan

/-- The part above the new bound: right where the upper bound is not below it. -/
theorem branchLb_run (hR : RLaw C ev) {p : Pool E} (hp : Inv2 C.X Γ ev p) {x : String} {ub lb : Option Formula} {nb : Formula}
    (hl : ∀ l ∈ lb, linTerm l = true) (hn : linTerm nb = true) {V : String × Ty → Prop} (hVl : ∀ l ∈ lb, ∀ v ∈ syms l, V v)
    (hVn : ∀ v ∈ syms nb, V v) {A : XTree E} {rec : Option Formula → Option Formula → XM E ℕ}
    (h1 : Yields C.X Γ ev p (rec ub (some nb)) (fun R => ResSpec ev x ub (some nb) A R ∧ SymsIn V R))
    (h2 : lb ≠ none → Yields C.X Γ ev p (rec ub lb) (fun R => ResSpec ev x ub lb A R ∧ SymsIn V R)) (pass : Bool) :
    Run (Inv2 C.X Γ ev) Fr2 (branchLb C rec nb ub lb pass) p True (fun r q => ∃ S, Den q r S ∧ SymsIn V S ∧
      (pass = false → ∀ σ : Env ℝ, (∀ u ∈ ub, value σ nb ≤ value σ u) → (∀ l ∈ lb, ∀ u ∈ ub, value σ l ≤ value σ u) →
        Vanish (A.slice ev σ x) (region σ ub lb ∩ Ioi (value σ nb)) →
        S.eval ev σ = ∫ t in region σ ub lb ∩ Ioi (value σ nb), A.slice ev σ x t)) := by
  unfold branchLb
  refine Run.bindGet ?_
  cases pass with
  | true => exact Run.ret Fr2.refl hp ⟨_, .leaf hp.core.zero, SymsIn.leaf, fun h => by cases h⟩
  | false =>
    simp only [Bool.false_eq_true, if_false]
    cases lb with
    | none =>
      refine (h1 p hp (Ext.refl p)).imp id fun r q _ _ ⟨R, hD, hr, hv⟩ => ⟨R, hD, hv, fun _ σ hub _ hvan => ?_⟩
      have he := region_lb_new (σ := σ) (ub := ub) (lb := none) (nb := nb) (by simp)
      rw [← he] at hvan ⊢
      exact hr.val σ (fun l hl u hu => by cases hl; exact hub u hu) hvan
    | some l =>
      obtain ⟨t1, t2, t3⟩ := simp_lt hR.simp (hl l rfl) hn
      refine (tighter_run hR hp t1 h1 (h2 (by simp)) (V := V) (fun v hv => (t2 v hv).elim (hVl l rfl v) (hVn v)) (fun R h => h.2)
        fun R h => h.2).imp id fun r q _ _ ⟨S, hD, hv, P, Q, hP, hQ, hev⟩ => ⟨S, hD, hv, fun _ σ hub hlu hvan => ?_⟩
      rw [hev]
      cases hr : readTest σ (C.X.simp (.lt l nb)) with
      | true =>
        have hne : C.X.simp (.lt l nb) ≠ .boolC false := by intro h; rw [h] at hr; cases hr
        have he := region_lb_new (σ := σ) (ub := ub) (lb := some l) (nb := nb) (fun u' hu' => by cases hu'; exact (t3 σ).1 hr)
        rw [← he] at hvan ⊢
        exact (hP hne).1.val σ (fun l hl u hu => by cases hl; exact hub u hu) hvan
      | false =>
        have hne : C.X.simp (.lt l nb) ≠ .boolC true := by intro h; rw [h] at hr; cases hr
        have he := region_lb_old (σ := σ) (l := l) (ub := ub) (nb := nb) ((t3 σ).2 hr)
        rw [← he] at hvan ⊢
        exact (hQ hne).1.val σ hlu hvan

end
end Pywmi
