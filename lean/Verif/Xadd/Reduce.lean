import Verif.Xadd.Apply

set_option linter.unusedSectionVars false
set_option linter.unusedSimpArgs false

/-!
# Reduction of diagrams with an SMT solver

Model of `SmtReduce` and of `Diagram.reduce` (/repo/pywmi/engines/pyxadd/reduce.py:275-359,
/repo/pywmi/engines/pyxadd/core.py:490-516), and the proof that it keeps the invariant and the meaning.
-/

namespace Pywmi
open Formula Prog Decision

section
variable {E : Type} [DecidableEq E]

/-- `SmtReduce._reduce` (/repo/pywmi/engines/pyxadd/reduce.py:307-359) with a bound on the recursion depth.  `st` is the
solver's stack of assertions, `con` the set `consistent`; both are passed on instead of being mutated.  A solver that answers
"unknown" raises in pysmt, which is not modelled. -/
def reduceF (X : XCtx E) (fast : Bool) : ℕ → ℕ → List Formula → List ℕ → XM E (ℕ × List ℕ)
  | 0, _, _, _ => XM.fail .fuel
  | k + 1, n, st, con => do
    let x ← getNode n
    match x with
    | .leaf _ => pure (n, con)
    | .inner d t f =>
      if fast = true ∧ n ∈ con then pure (n, con)
      else do
        let r ← (if isBoolTest d.test = true then do
            let a ← reduceF X fast k t st con
            let b ← reduceF X fast k f st a.2
            let m ← internal X d a.1 b.1
            pure (m, b.2)
          else if X.solve (d.test :: st) = false then reduceF X fast k f (mkNot d.test :: st) con
          else if X.solve (mkNot d.test :: st) = false then reduceF X fast k t (d.test :: st) con
          else do
            let a ← reduceF X fast k t (d.test :: st) con
            let b ← reduceF X fast k f (mkNot d.test :: st) a.2
            let m ← internal X d a.1 b.1
            pure (m, b.2))
        pure (r.1, if fast then r.1 :: r.2 else r.2)

/-- `SmtReduce.reduce` (/repo/pywmi/engines/pyxadd/reduce.py:285-305). -/
def smtReduce (X : XCtx E) (fast : Bool) (n : ℕ) : XM E ℕ := do
  let p ← XM.get
  match p.reduceCache.lookup n with
  | some r => pure r
  | none =>
    let r ← reduceF X fast (n + 1) n [] []
    XM.modify fun p => { p with reduceCache := (n, r.1) :: p.reduceCache }
    pure r.1

/-- The argument `method` of `Diagram.reduce`. -/
inductive RMethod where
  | noReduce | smt | fastSmt | other
deriving DecidableEq, Repr

/-- `Diagram.reduce(method=...).root_id` (/repo/pywmi/engines/pyxadd/core.py:490-516). -/
def reduceBy (X : XCtx E) (m : RMethod) (n : ℕ) : XM E ℕ :=
  match m with
  | .noReduce => pure n
  | .smt => smtReduce X false n
  | .fastSmt => smtReduce X true n
  | .other => XM.fail .runtimeError

/-- Assumption on the solver: conjunctions that it reports unsatisfiable have no solution. -/
def SolveLaw (solve : List Formula → Bool) : Prop :=
  ∀ fs, solve fs = false → ∀ σ : Env ℝ, ¬∀ f ∈ fs, truth σ f = true

/-- SPEC: the second diagram has the meaning of the first one wherever the formulas hold, and no new tests or leaves. -/
structure RedSpec (L : List Formula) (st : List Formula) (T T' : XTree E) : Prop where
  leaf : ∀ σ : Env ℝ, (∀ f ∈ st, truth σ f = true) → T'.leafAt (truth σ ·) = T.leafAt (truth σ ·)
  tests : ∀ g ∈ T'.tests, g ∈ T.tests
  leaves : ∀ e ∈ T'.leaves, e ∈ T.leaves
  ord : T.Ord L → T'.Ord L

theorem RedSpec.refl (L st : List Formula) (T : XTree E) : RedSpec L st T T :=
  ⟨fun _ _ => rfl, fun _ h => h, fun _ h => h, fun h => h⟩

theorem RedSpec.mono {L L' st : List Formula} (h : L <+: L') {T T' : XTree E} (hT : ∀ g ∈ T.tests, g ∈ L)
    (hr : RedSpec L st T T') : RedSpec L' st T T' :=
  ⟨hr.leaf, hr.tests, hr.leaves, fun o => (XTree.Ord.mono h fun g hg => hT g (hr.tests g hg)).mpr
    (hr.ord ((XTree.Ord.mono h hT).mp o))⟩

theorem RedSpec.node {L st st1 st2 : List Formula} {d : Decision} {A B A' B' T : XTree E}
    (h1 : ∀ σ : Env ℝ, (∀ f ∈ st, truth σ f = true) → truth σ d.test = true → ∀ f ∈ st1, truth σ f = true)
    (h2 : ∀ σ : Env ℝ, (∀ f ∈ st, truth σ f = true) → truth σ d.test = false → ∀ f ∈ st2, truth σ f = true)
    (rA : RedSpec L st1 A A') (rB : RedSpec L st2 B B') (hc : CanSpec d A' B' T) : RedSpec L st (.node d A B) T := by
  have hleaf : ∀ c, T.leafAt c = if c d.test then A'.leafAt c else B'.leafAt c := by
    intro c
    rcases hc with ⟨rfl, rfl⟩ | ⟨d', hd', -, rfl⟩
    · simp
    · rw [XTree.leafAt_node, hd']
  refine ⟨fun σ hσ => ?_, fun g hg => ?_, fun e he => ?_, fun o => ?_⟩
  · rw [hleaf, XTree.leafAt_node]
    cases ht : truth σ d.test with
    | true => simpa using rA.leaf σ (h1 σ hσ ht)
    | false => simpa using rB.leaf σ (h2 σ hσ ht)
  · simp only [XTree.tests, List.mem_cons, List.mem_append]
    rcases hc with ⟨rfl, rfl⟩ | ⟨d', hd', -, rfl⟩
    · exact Or.inr (Or.inl (rA.tests g hg))
    · simp only [XTree.tests, List.mem_cons, List.mem_append, hd'] at hg
      exact hg.imp id (Or.imp (rA.tests g) (rB.tests g))
  · simp only [XTree.leaves, List.mem_append]
    rcases hc with ⟨rfl, rfl⟩ | ⟨d', hd', -, rfl⟩
    · exact Or.inl (rA.leaves e he)
    · simp only [XTree.leaves, List.mem_append] at he
      exact he.imp (rA.leaves e) (rB.leaves e)
  · rcases hc with ⟨rfl, rfl⟩ | ⟨d', hd', -, rfl⟩
    · exact rA.ord o.2.1
    · refine ⟨fun g hg => ?_, rA.ord o.2.1, rB.ord o.2.2⟩
      rw [hd']
      exact o.1 g (hg.imp (rA.tests g) (rB.tests g))

theorem RedSpec.side {L st st1 : List Formula} {d : Decision} {A B T : XTree E} {b : Bool}
    (h0 : ∀ σ : Env ℝ, (∀ f ∈ st, truth σ f = true) → truth σ d.test = b)
    (h1 : ∀ σ : Env ℝ, (∀ f ∈ st, truth σ f = true) → truth σ d.test = b → ∀ f ∈ st1, truth σ f = true)
    (r : RedSpec L st1 (if b then A else B) T) : RedSpec L st (.node d A B) T := by
  refine ⟨fun σ hσ => ?_, fun g hg => ?_, fun e he => ?_, fun o => ?_⟩
  · have hb := h0 σ hσ
    rw [XTree.leafAt_node, hb, r.leaf σ (h1 σ hσ hb)]
    cases b <;> rfl
  · have := r.tests g hg
    simp only [XTree.tests, List.mem_cons, List.mem_append]
    cases b <;> simp_all
  · have := r.leaves e he
    simp only [XTree.leaves, List.mem_append]
    cases b <;> simp_all
  · cases b
    · exact r.ord o.2.2
    · exact r.ord o.2.1

theorem reduceF_run {X : XCtx E} (hs : SimpLaw X.simp) (hl : SolveLaw X.solve) (fast : Bool) : ∀ (k : ℕ) {p : Pool E}, Inv0 X p →
    ∀ {n : ℕ} {T : XTree E}, Den p n T → n < k → ∀ (st : List Formula) (con : List ℕ),
    Run (Inv0 X) Fr0 (reduceF X fast k n st con) p True (fun r q => ∃ T', Den q r.1 T' ∧ RedSpec q.tests st T T') := by
  intro k
  induction k with
  | zero => intro p _ n T _ h; omega
  | succ k ih =>
    intro p hp n T hT hk st con
    unfold reduceF
    obtain ⟨x, hx⟩ := Option.isSome_iff_exists.mp hT.isSome
    refine Run.seq0 ((getNode_run hp (n := n)).weaken (fun _ h _ => h) fun _ h => h.fr0) (fun _ => hT.isSome) ?_
    rintro x' q - - ⟨rfl, hx'⟩
    rw [hx] at hx'
    cases hx'
    cases x with
    | leaf e => exact Run.ret Fr0.refl hp ⟨T, hT, RedSpec.refl _ _ _⟩
    | inner d t f =>
      obtain ⟨htn, hfn, -, -, -, hd, hm⟩ := hp.core.inner hx
      simp only
      split
      · exact Run.ret Fr0.refl hp ⟨T, hT, RedSpec.refl _ _ _⟩
      · cases hT with
        | leaf h => rw [hx] at h; simp at h
        | @node _ _ _ _ A B h hA hB =>
          rw [hx] at h
          simp only [Option.some.injEq, XNode.inner.injEq] at h
          obtain ⟨rfl, rfl, rfl⟩ := h
          have both : ∀ (st1 st2 : List Formula),
              (∀ σ : Env ℝ, (∀ f ∈ st, truth σ f = true) → truth σ d.test = true → ∀ f ∈ st1, truth σ f = true) →
              (∀ σ : Env ℝ, (∀ f ∈ st, truth σ f = true) → truth σ d.test = false → ∀ f ∈ st2, truth σ f = true) →
              Run (Inv0 X) Fr0 (do
                let a ← reduceF X fast k t st1 con
                let b ← reduceF X fast k f st2 a.2
                let m ← internal X d a.1 b.1
                pure (m, b.2) : XM E (ℕ × List ℕ)) q True
              (fun r q => ∃ T', Den q r.1 T' ∧ RedSpec q.tests st (.node d A B) T') := by
            intro st1 st2 h1 h2
            refine Run.seq0 (ih hp hA (by omega) st1 con) id ?_
            rintro a q1 hq1 h01 ⟨A', hA', sA⟩
            refine Run.seq0 (ih hq1 (h01.den hB) (by omega) st2 a.2) id ?_
            rintro b q2 hq2 h12 ⟨B', hB', sB⟩
            refine Run.seq0 ((internal_canon hs hq2.core hd (h12.den hA') hB').core hq2) id ?_
            rintro m q3 hq3 h23 ⟨T', hT', hc⟩
            refine Run.ret Fr0.refl hq3 ⟨T', hT', RedSpec.node h1 h2 ?_ ?_ hc⟩
            · exact sA.mono (h12.trans h23).tests ((h01.den hA).tests hq1.core)
            · exact sB.mono h23.tests (((h01.trans h12).den hB).tests hq2.core)
          have fin : ∀ {m : XM E (ℕ × List ℕ)},
              Run (Inv0 X) Fr0 m q True (fun r q => ∃ T', Den q r.1 T' ∧ RedSpec q.tests st (.node d A B) T') →
              Run (Inv0 X) Fr0 (do let r ← m; pure (r.1, if fast then r.1 :: r.2 else r.2)) q True
                (fun r q => ∃ T', Den q r.1 T' ∧ RedSpec q.tests st (.node d A B) T') := by
            intro m hm
            refine Run.seq0 hm id ?_
            rintro r q1 hq1 - ⟨T', hT', sT⟩
            exact Run.ret Fr0.refl hq1 ⟨T', hT', sT⟩
          have tcons : ∀ σ : Env ℝ, (∀ f ∈ st, truth σ f = true) → truth σ d.test = true → ∀ f ∈ d.test :: st, truth σ f = true := by
            intro σ hσ ht f hf
            rcases List.mem_cons.mp hf with rfl | hf
            · exact ht
            · exact hσ f hf
          have fcons : ∀ σ : Env ℝ, (∀ f ∈ st, truth σ f = true) → truth σ d.test = false → ∀ f ∈ mkNot d.test :: st, truth σ f = true := by
            intro σ hσ ht f hf
            rcases List.mem_cons.mp hf with rfl | hf
            · rw [truth_mkNot, ht]; rfl
            · exact hσ f hf
          refine fin ?_
          split
          · exact both st st (fun σ hσ _ => hσ) fun σ hσ _ => hσ
          · split
            · rename_i hun
              refine (ih hp hB (by omega) (mkNot d.test :: st) con).imp id fun r q1 _ _ ⟨T', hT', sT⟩ => ⟨T', hT', ?_⟩
              refine RedSpec.side (b := false) (fun σ hσ => ?_) fcons sT
              cases ht : truth σ d.test with
              | false => rfl
              | true => exact absurd (tcons σ hσ ht) (hl _ hun σ)
            · split
              · rename_i hun
                refine (ih hp hA (by omega) (d.test :: st) con).imp id fun r q1 _ _ ⟨T', hT', sT⟩ => ⟨T', hT', ?_⟩
                refine RedSpec.side (b := true) (fun σ hσ => ?_) tcons sT
                cases ht : truth σ d.test with
                | true => rfl
                | false => exact absurd (fcons σ hσ ht) (hl _ hun σ)
              · exact both _ _ tcons fcons

/-! ### Leaves of reduced diagrams -/

theorem XTree.AllDec.imp {P Q : Decision → Prop} (h : ∀ d, P d → Q d) : ∀ {T : XTree E}, T.AllDec P → T.AllDec Q
  | .leaf _, _ => trivial
  | .node _ _ _, hT => ⟨h _ hT.1, XTree.AllDec.imp h hT.2.1, XTree.AllDec.imp h hT.2.2⟩

/-- Assumption on the solver: conjunctions of literals that it reports satisfiable have a solution. -/
def SolveExact (solve : List Formula → Bool) : Prop :=
  ∀ fs, solve fs = true → ∃ σ : Env ℝ, ∀ f ∈ fs, truth σ f = true

/-- The formulas do not depend on Boolean variables. -/
def RealOnly (st : List Formula) : Prop := ∀ f ∈ st, ∀ σ σ' : Env ℝ, σ.r = σ'.r → truth σ f = truth σ' f

/-- Every assignment that meets the formulas can be changed, without changing the outcomes of the tests of `T`, such that the
whole diagram `R` arrives at the leaf at which `T` arrives. -/
def Lead (R : XTree E) (st : List Formula) (T : XTree E) : Prop :=
  ∀ σ : Env ℝ, (∀ f ∈ st, truth σ f = true) → ∃ σ' : Env ℝ, σ'.r = σ.r ∧ R.leafAt (truth σ' ·) = T.leafAt (truth σ ·)

/-- SPEC: every leaf of the node's diagram is the leaf of `R` at some assignment. -/
def Attains (R : XTree E) (p : Pool E) (n : ℕ) : Prop :=
  ∃ T, Den p n T ∧ ∀ e ∈ T.leaves, ∃ σ : Env ℝ, R.leafAt (truth σ ·) = e

theorem Attains.mono {R : XTree E} {p q : Pool E} (he : Ext p q) {n : ℕ} (h : Attains R p n) : Attains R q n := by
  obtain ⟨T, h1, h2⟩ := h
  exact ⟨T, he.den h1, h2⟩

theorem DecOk.cases_bool {d : Decision} (h : DecOk d) :
    (∃ b, d.test = .sym b .bool ∧ isBoolTest d.test = true) ∨
    (isBoolTest d.test = false ∧ ∀ σ σ' : Env ℝ, σ.r = σ'.r → truth σ d.test = truth σ' d.test) := by
  rcases h.2 with ⟨b, hb⟩ | ⟨q, -, hq, hg⟩
  · exact Or.inl ⟨b, hb, by rw [hb]; rfl⟩
  · refine Or.inr ⟨?_, fun σ σ' hr => ?_⟩
    · rcases linToSmt_form hg with ⟨l, r, h⟩ | ⟨l, r, h⟩ <;> simp [h, isBoolTest]
    · have h1 := (DecOk.truth_lin hq hg).2
      rw [Bool.eq_iff_iff, h1, h1, hr]

/-- Setting a Boolean variable that is not tested does not change the leaf. -/
theorem XTree.leafAt_setB {T : XTree E} (hT : T.AllDec DecOk) {b : String} (hb : Formula.sym b .bool ∉ T.tests) (σ : Env ℝ) (v : Bool) :
    T.leafAt (truth (σ.setB b v) ·) = T.leafAt (truth σ ·) := by
  refine XTree.leafAt_congr fun g hg => ?_
  have : ∃ d : Decision, DecOk d ∧ d.test = g := XTree.AllDec.tests (Q := fun g => ∃ d : Decision, DecOk d ∧ d.test = g)
    (fun d h => ⟨d, h, rfl⟩) hT g hg
  obtain ⟨d, hd, rfl⟩ := this
  rcases hd.cases_bool with ⟨b', hb', -⟩ | ⟨-, h⟩
  · rw [hb'] at hg ⊢
    have hne : b' ≠ b := by rintro rfl; exact hb hg
    simp [truth, Env.setB, hne]
  · exact h _ _ rfl

theorem Lead.bool {R A B : XTree E} {st : List Formula} {d : Decision} {b : String} (hb : d.test = .sym b .bool) (hst : RealOnly st)
    (hA : A.AllDec DecOk) (hB : B.AllDec DecOk) (hA' : d.test ∉ A.tests) (hB' : d.test ∉ B.tests) (h : Lead R st (.node d A B)) :
    Lead R st A ∧ Lead R st B := by
  constructor
  all_goals
    intro σ hσ
    first
    | obtain ⟨σ', h1, h2⟩ := h (σ.setB b true) fun f hf => (hst f hf (σ.setB b true) σ rfl).trans (hσ f hf)
      refine ⟨σ', by simpa using h1, ?_⟩
      rw [h2, XTree.leafAt_node, hb, if_pos (by simp [truth, Env.setB])]
      exact XTree.leafAt_setB hA (hb ▸ hA') σ true
    | obtain ⟨σ', h1, h2⟩ := h (σ.setB b false) fun f hf => (hst f hf (σ.setB b false) σ rfl).trans (hσ f hf)
      refine ⟨σ', by simpa using h1, ?_⟩
      rw [h2, XTree.leafAt_node, hb, if_neg (by simp [truth, Env.setB])]
      exact XTree.leafAt_setB hB (hb ▸ hB') σ false

theorem Lead.pos {R A B : XTree E} {st : List Formula} {d : Decision} (h : Lead R st (.node d A B)) : Lead R (d.test :: st) A := by
  intro σ hσ
  obtain ⟨σ', h1, h2⟩ := h σ fun f hf => hσ f (by simp [hf])
  exact ⟨σ', h1, by rw [h2, XTree.leafAt_node, if_pos (hσ _ (by simp))]⟩

theorem Lead.neg {R A B : XTree E} {st : List Formula} {d : Decision} (h : Lead R st (.node d A B)) : Lead R (mkNot d.test :: st) B := by
  intro σ hσ
  obtain ⟨σ', h1, h2⟩ := h σ fun f hf => hσ f (by simp [hf])
  have hn := hσ (mkNot d.test) (by simp)
  rw [truth_mkNot] at hn
  exact ⟨σ', h1, by rw [h2, XTree.leafAt_node, if_neg (by simpa using hn)]⟩

theorem RealOnly.pos {st : List Formula} (h : RealOnly st) {g : Formula} (hg : ∀ σ σ' : Env ℝ, σ.r = σ'.r → truth σ g = truth σ' g) :
    RealOnly (g :: st) ∧ RealOnly (mkNot g :: st) := by
  constructor
  · intro f hf
    rcases List.mem_cons.mp hf with rfl | hf
    · exact hg
    · exact h f hf
  · intro f hf
    rcases List.mem_cons.mp hf with rfl | hf
    · intro σ σ' hr
      rw [truth_mkNot, truth_mkNot, hg σ σ' hr]
    · exact h f hf

theorem sat_cons {st : List Formula} {g : Formula} (hsat : ∃ σ : Env ℝ, ∀ f ∈ st, truth σ f = true)
    (h : ∀ σ : Env ℝ, ¬∀ f ∈ mkNot g :: st, truth σ f = true) : ∃ σ : Env ℝ, ∀ f ∈ g :: st, truth σ f = true := by
  obtain ⟨σ, hσ⟩ := hsat
  refine ⟨σ, fun f hf => ?_⟩
  rcases List.mem_cons.mp hf with rfl | hf
  · by_contra hn
    refine h σ fun f hf => ?_
    rcases List.mem_cons.mp hf with rfl | hf
    · rw [truth_mkNot]; simpa using hn
    · exact hσ f hf
  · exact hσ f hf

theorem sat_cons_not {st : List Formula} {g : Formula} (hsat : ∃ σ : Env ℝ, ∀ f ∈ st, truth σ f = true)
    (h : ∀ σ : Env ℝ, ¬∀ f ∈ g :: st, truth σ f = true) : ∃ σ : Env ℝ, ∀ f ∈ mkNot g :: st, truth σ f = true := by
  obtain ⟨σ, hσ⟩ := hsat
  refine ⟨σ, fun f hf => ?_⟩
  rcases List.mem_cons.mp hf with rfl | hf
  · rw [truth_mkNot]
    by_contra hn
    refine h σ fun f hf => ?_
    rcases List.mem_cons.mp hf with rfl | hf
    · simpa using hn
    · exact hσ f hf
  · exact hσ f hf

/-- Every leaf of a reduced diagram, in either mode, is a leaf of the whole diagram at some assignment. -/
theorem reduceF_att {X : XCtx E} (hs : SimpLaw X.simp) (hl : SolveLaw X.solve) (hx : SolveExact X.solve) (fast : Bool) (R : XTree E) :
    ∀ (k : ℕ) {p : Pool E}, Inv0 X p → ∀ {n : ℕ} {T : XTree E}, Den p n T → n < k → T.Ord p.tests → ∀ (st : List Formula) (con : List ℕ),
    RealOnly st → (∃ σ : Env ℝ, ∀ f ∈ st, truth σ f = true) → Lead R st T → (∀ m ∈ con, Attains R p m) →
    Run (Inv0 X) Fr0 (reduceF X fast k n st con) p True (fun r q => Attains R q r.1 ∧ ∀ m ∈ r.2, Attains R q m) := by
  intro k
  induction k with
  | zero => intro p _ n T _ h; omega
  | succ k ih =>
    intro p hp n T hT hk ho st con hst hsat hlead hcon
    unfold reduceF
    obtain ⟨x, hxn⟩ := Option.isSome_iff_exists.mp hT.isSome
    refine Run.seq0 ((getNode_run hp (n := n)).weaken (fun _ h _ => h) fun _ h => h.fr0) (fun _ => hT.isSome) ?_
    rintro x' q - - ⟨rfl, hx'⟩
    rw [hxn] at hx'
    cases hx'
    cases x with
    | leaf e =>
      refine Run.ret Fr0.refl hp ⟨⟨T, hT, ?_⟩, hcon⟩
      have hTe : T = .leaf e := hT.unique (.leaf hxn)
      subst hTe
      intro e' he'
      simp only [XTree.leaves, List.mem_singleton] at he'
      subst he'
      obtain ⟨σ, hσ⟩ := hsat
      obtain ⟨σ', -, h2⟩ := hlead σ hσ
      exact ⟨σ', h2⟩
    | inner d t f =>
      obtain ⟨htn, hfn, -, -, -, hd, hm⟩ := hp.core.inner hxn
      simp only
      split
      · rename_i hc
        exact Run.ret Fr0.refl hp ⟨hcon n hc.2, hcon⟩
      · cases hT with
        | leaf h => rw [hxn] at h; simp at h
        | @node _ _ _ _ A B h hA hB =>
          rw [hxn] at h
          simp only [Option.some.injEq, XNode.inner.injEq] at h
          obtain ⟨rfl, rfl, rfl⟩ := h
          have dA : A.AllDec DecOk := XTree.AllDec.imp (fun _ h => h.1) (hA.decs hp.core)
          have dB : B.AllDec DecOk := XTree.AllDec.imp (fun _ h => h.1) (hB.decs hp.core)
          have both : ∀ (st1 st2 : List Formula), RealOnly st1 → RealOnly st2 →
              (∃ σ : Env ℝ, ∀ f ∈ st1, truth σ f = true) → (∃ σ : Env ℝ, ∀ f ∈ st2, truth σ f = true) →
              Lead R st1 A → Lead R st2 B →
              Run (Inv0 X) Fr0 (do
                let a ← reduceF X fast k t st1 con
                let b ← reduceF X fast k f st2 a.2
                let m ← internal X d a.1 b.1
                pure (m, b.2) : XM E (ℕ × List ℕ)) q True
              (fun r q => Attains R q r.1 ∧ ∀ m ∈ r.2, Attains R q m) := by
            intro st1 st2 r1 r2 s1 s2 l1 l2
            refine Run.seq0 (ih hp hA (by omega) ho.2.1 st1 con r1 s1 l1 hcon) id ?_
            rintro a q1 hq1 h01 ⟨⟨A', hA', aA⟩, c1⟩
            refine Run.seq0 (ih hq1 (h01.den hB) (by omega) ((XTree.Ord.mono h01.tests (hB.tests hp.core)).mpr ho.2.2) st2 a.2 r2 s2 l2 c1) id ?_
            rintro b q2 hq2 h12 ⟨⟨B', hB', aB⟩, c2⟩
            refine Run.seq0 ((internal_canon hs hq2.core hd (h12.den hA') hB').core hq2) id ?_
            rintro m q3 hq3 h23 ⟨T', hT', hc⟩
            refine Run.ret Fr0.refl hq3 ⟨⟨T', hT', fun e he => ?_⟩, fun m hm => (c2 m hm).mono h23.toExt⟩
            rcases hc with ⟨rfl, rfl⟩ | ⟨d', hd', -, rfl⟩
            · exact aA e he
            · simp only [XTree.leaves, List.mem_append] at he
              exact he.elim (aA e) (aB e)
          have fin : ∀ {m : XM E (ℕ × List ℕ)},
              Run (Inv0 X) Fr0 m q True (fun r q => Attains R q r.1 ∧ ∀ m ∈ r.2, Attains R q m) →
              Run (Inv0 X) Fr0 (do let r ← m; pure (r.1, if fast then r.1 :: r.2 else r.2)) q True
                (fun r q => Attains R q r.1 ∧ ∀ m ∈ r.2, Attains R q m) := by
            intro m hm
            refine Run.seq0 hm id ?_
            rintro r q1 hq1 - ⟨h1, h2⟩
            refine Run.ret Fr0.refl hq1 ⟨h1, fun m hm => ?_⟩
            cases fast
            · exact h2 m hm
            · rcases List.mem_cons.mp hm with rfl | hm
              · exact h1
              · exact h2 m hm
          refine fin ?_
          rcases hd.cases_bool with ⟨b, hb, hb'⟩ | ⟨hb', hr⟩
          · rw [if_pos hb']
            obtain ⟨l1, l2⟩ := hlead.bool hb hst dA dB (fun h => lt_irrefl _ (ho.1 _ (Or.inl h))) fun h => lt_irrefl _ (ho.1 _ (Or.inr h))
            exact both st st hst hst hsat hsat l1 l2
          · rw [if_neg (by simp [hb'])]
            obtain ⟨rp, rn⟩ := hst.pos hr
            split
            · rename_i hun
              exact ih hp hB (by omega) ho.2.2 _ con rn (sat_cons_not hsat (hl _ hun)) hlead.neg hcon
            · rename_i h1
              split
              · rename_i hun
                exact ih hp hA (by omega) ho.2.1 _ con rp (sat_cons hsat (hl _ hun)) hlead.pos hcon
              · rename_i h2
                exact both _ _ rp rn (hx _ (by simpa using h1)) (hx _ (by simpa using h2)) hlead.pos hlead.neg

/-! ### The cache of reductions -/

/-- SPEC: the node `r` is a reduction of the node `n`. -/
def ReduceOk (X : XCtx E) (p : Pool E) (n r : ℕ) : Prop :=
  ∃ T T', Den p n T ∧ Den p r T' ∧ RedSpec p.tests [] T T' ∧ (SolveExact X.solve → T.Ord p.tests → Attains T p r)

theorem ReduceOk.mono {X : XCtx E} {p q : Pool E} (he : Ext p q) (hp : Core X p) {n r : ℕ} (h : ReduceOk X p n r) : ReduceOk X q n r := by
  obtain ⟨T, T', h1, h2, h3, h4⟩ := h
  exact ⟨T, T', he.den h1, he.den h2, h3.mono he.tests (h1.tests hp), fun hx ho =>
    (h4 hx ((XTree.Ord.mono he.tests (h1.tests hp)).mp ho)).mono he⟩

/-- The invariant with the caches of `apply` and of reductions. -/
structure Inv1 (X : XCtx E) (p : Pool E) : Prop extends Inv0 X p where
  red : ∀ n r, p.reduceCache.lookup n = some r → ReduceOk X p n r

/-- The caches other than those of `apply` and of reductions are as before. -/
structure Fr1 (p q : Pool E) : Prop extends Ext p q where
  resolveC : q.resolveCache = p.resolveCache
  profC : q.profiles = p.profiles
  walkC : q.walk = p.walk

theorem Fr1.refl (p : Pool E) : Fr1 p p := ⟨Ext.refl p, rfl, rfl, rfl⟩
theorem Fr1.trans {p q r : Pool E} (h : Fr1 p q) (h' : Fr1 q r) : Fr1 p r :=
  ⟨h.toExt.trans h'.toExt, h'.resolveC.trans h.resolveC, h'.profC.trans h.profC, h'.walkC.trans h.walkC⟩
theorem Fr0.fr1 {p q : Pool E} (h : Fr0 p q) : Fr1 p q := ⟨h.toExt, h.resolveC, h.profC, h.walkC⟩

theorem Run.inv0 {α : Type} {X : XCtx E} {m : XM E α} {p : Pool E} {s : Prop} {Q : α → Pool E → Prop} (hp : Inv1 X p)
    (h : Run (Inv0 X) Fr0 m p s Q) : Run (Inv1 X) Fr1 m p s Q :=
  h.weaken (fun _ hq hpq => ⟨hq, fun n r hr => (hp.red n r (hpq.reduceC ▸ hr)).mono hpq.toExt hp.core⟩)
    fun _ hpq => hpq.fr1

theorem Run.seq1 {α β : Type} {I : Pool E → Prop} {m : XM E α} {f : α → XM E β} {p : Pool E} {s safe : Prop}
    {P : α → Pool E → Prop} {Q : β → Pool E → Prop} (h1 : Run I Fr1 m p s P) (hs : safe → s)
    (h2 : ∀ a q, I q → Fr1 p q → P a q → Run I Fr1 (f a) q safe Q) : Run I Fr1 (m >>= f) p safe Q :=
  Run.bind (R := Fr1) (fun h h' => h.trans h') (h1.imp hs fun _ _ _ _ h => h) h2

/-- A change of the pool outside of nodes and tests. -/
theorem Core.congr {X : XCtx E} {p q : Pool E} (c : Core X p) (hs : q.slots = p.slots) (ht : q.tests = p.tests)
    (hi : q.internalMap = p.internalMap) (hx : q.expressions = p.expressions) (hz : q.zeroId = p.zeroId) (ho : q.oneId = p.oneId) :
    Core X q := by
  have hn := node_congr hs
  exact ⟨by rw [hn, hz]; exact c.zero, by rw [hn, ho]; exact c.one, fun h => by simp only [hn, ht] at h ⊢; exact c.inner h,
    fun e n => by rw [hn, hx]; exact c.exprs e n, fun i t f n => by simp only [hn, hi, ht]; exact c.inners i t f n, ht ▸ c.nodup⟩

theorem Run.both {α : Type} {I : Pool E → Prop} {R : Pool E → Pool E → Prop} {m : XM E α} {p : Pool E} {s s' : Prop}
    {Q Q' : α → Pool E → Prop} (h : Run I R m p s Q) (h' : Run I R m p s' Q') : Run I R m p s (fun a q => Q a q ∧ Q' a q) :=
  ⟨h.1, h.2.1, fun a ha => ⟨h.2.2.1 a ha, h'.2.2.1 a ha⟩, h.2.2.2⟩

theorem reduceF_root {X : XCtx E} (hs : SimpLaw X.simp) (hl : SolveLaw X.solve) (fast : Bool) {p : Pool E} (hp : Inv0 X p) {n : ℕ}
    {T : XTree E} (hT : Den p n T) :
    Run (Inv0 X) Fr0 (reduceF X fast (n + 1) n [] []) p True
      (fun r q => (∃ T', Den q r.1 T' ∧ RedSpec q.tests [] T T') ∧ (SolveExact X.solve → T.Ord p.tests → Attains T q r.1)) := by
  have h := reduceF_run hs hl fast (n + 1) hp hT (by omega) [] []
  by_cases hx : SolveExact X.solve ∧ T.Ord p.tests
  · refine (Run.both h (reduceF_att hs hl hx.1 fast T (n + 1) hp hT (by omega) hx.2 [] [] (fun _ h => by cases h)
      ⟨⟨fun _ => false, fun _ => 0⟩, by simp⟩ (fun σ _ => ⟨σ, rfl, rfl⟩) (by simp))).imp id ?_
    rintro r q - - ⟨h1, h2, -⟩
    exact ⟨h1, fun _ _ => h2⟩
  · refine h.imp id ?_
    rintro r q - - h1
    exact ⟨h1, fun h2 h3 => absurd ⟨h2, h3⟩ hx⟩

theorem smtReduce_full {X : XCtx E} (hs : SimpLaw X.simp) (hl : SolveLaw X.solve) (fast : Bool) {p : Pool E} (hp : Inv1 X p) {n : ℕ}
    {T : XTree E} (hT : Den p n T) :
    Run (Inv1 X) Fr1 (smtReduce X fast n) p True
      (fun r q => (∃ T', Den q r T' ∧ RedSpec q.tests [] T T') ∧ (SolveExact X.solve → T.Ord p.tests → Attains T q r)) := by
  unfold smtReduce
  refine Run.bindGet ?_
  cases hc : p.reduceCache.lookup n with
  | some r =>
    obtain ⟨U, T', h1, h2, h3, h4⟩ := hp.red n r hc
    rw [h1.unique hT] at h3 h4
    exact Run.ret Fr1.refl hp ⟨⟨T', h2, h3⟩, h4⟩
  | none =>
    simp only
    refine Run.seq1 ((reduceF_root hs hl fast hp.toInv0 hT).inv0 hp) id ?_
    rintro r q hq hpq ⟨⟨T', hT', sT⟩, aT⟩
    have hext : Ext q { q with reduceCache := (n, r.1) :: q.reduceCache } := ⟨List.prefix_refl _, List.prefix_refl _, rfl, rfl⟩
    have hcore : Core X { q with reduceCache := (n, r.1) :: q.reduceCache } := hq.core.congr rfl rfl rfl rfl rfl rfl
    have hok : ReduceOk X q n r.1 := ⟨T, T', hpq.den hT, hT', sT, fun hx ho =>
      aT hx ((XTree.Ord.mono hpq.tests (hT.tests hp.core)).mp ho)⟩
    refine ⟨⟨⟨hcore, fun op a b r' h => (hq.app op a b r' h).mono hext hq.core⟩, ?_⟩, ⟨hext, rfl, rfl, rfl⟩, fun m hm => ?_,
      fun _ => ⟨r.1, rfl⟩⟩
    · intro n' r' h
      simp only [XM.bind_apply, XM.modify, XM.pure_apply, List.lookup_cons] at h
      split at h
      · rename_i hk
        simp only [beq_iff_eq] at hk
        simp only [Option.some.injEq] at h
        subst hk h
        exact ReduceOk.mono hext hq.core hok
      · exact (hq.red _ _ h).mono hext hq.core
    · simp only [XM.bind_apply, XM.modify, XM.pure_apply, Except.ok.injEq] at hm ⊢
      subst hm
      exact ⟨⟨T', hext.den hT', sT⟩, fun hx ho => (aT hx ho).mono hext⟩

theorem smtReduce_run {X : XCtx E} (hs : SimpLaw X.simp) (hl : SolveLaw X.solve) (fast : Bool) {p : Pool E} (hp : Inv1 X p) {n : ℕ}
    {T : XTree E} (hT : Den p n T) :
    Run (Inv1 X) Fr1 (smtReduce X fast n) p True (fun r q => ∃ T', Den q r T' ∧ RedSpec q.tests [] T T') :=
  (smtReduce_full hs hl fast hp hT).imp id fun _ _ _ _ h => h.1

theorem reduceBy_run {X : XCtx E} (hs : SimpLaw X.simp) (hl : SolveLaw X.solve) (m : RMethod) {p : Pool E} (hp : Inv1 X p) {n : ℕ}
    {T : XTree E} (hT : Den p n T) :
    Run (Inv1 X) Fr1 (reduceBy X m n) p (m ≠ .other) (fun r q => ∃ T', Den q r T' ∧ RedSpec q.tests [] T T') := by
  cases m with
  | noReduce => exact Run.ret Fr1.refl hp ⟨T, hT, RedSpec.refl _ _ _⟩
  | smt => exact (smtReduce_run hs hl false hp hT).imp (fun _ => trivial) fun _ _ _ _ h => h
  | fastSmt => exact (smtReduce_run hs hl true hp hT).imp (fun _ => trivial) fun _ _ _ _ h => h
  | other => exact Run.fail Fr1.refl hp fun h => h rfl

end
end Pywmi
