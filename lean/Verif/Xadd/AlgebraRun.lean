import Verif.Xadd.Algebra
import Verif.Xadd.EngineRun

set_option linter.unusedSectionVars false
set_option linter.unusedSimpArgs false

/-!
# What the methods of the algebra of diagrams compute
-/

namespace Pywmi
open Formula MeasureTheory Set

section
variable {E : Type} [DecidableEq E] {ev : E → (String → ℝ) → ℝ} {Γ : String → Ty} {P : PxCtx E}

/-- SPEC: the node stands for the function at the assignments `ok`; its tests are over the variables `V` and, if `ord`, ordered. -/
def Shows (ev : E → (String → ℝ) → ℝ) (V : String × Ty → Prop) (ok : Env ℝ → Prop) (ord : Prop) (q : Pool E) (n : ℕ)
    (φ : Env ℝ → ℝ) : Prop :=
  ∃ T, Den q n T ∧ SymsIn V T ∧ (ord → T.Ord q.tests) ∧ ∀ σ, ok σ → T.eval ev σ = φ σ

variable {V : String × Ty → Prop} {ok : Env ℝ → Prop} {ord : Prop}

theorem Shows.mono {X : XCtx E} {p q : Pool E} (hp : Core X p) (h : Ext p q) {n : ℕ} {φ : Env ℝ → ℝ} (hs : Shows ev V ok ord p n φ) :
    Shows ev V ok ord q n φ := by
  obtain ⟨T, h1, h2, h3, h4⟩ := hs
  exact ⟨T, h.den h1, h2, fun o => (XTree.Ord.mono h.tests (h1.tests hp)).mpr (h3 o), h4⟩

theorem Shows.congr {q : Pool E} {n : ℕ} {φ ψ : Env ℝ → ℝ} (hs : Shows ev V ok ord q n φ) (h : ∀ σ, ok σ → φ σ = ψ σ) :
    Shows ev V ok ord q n ψ := by
  obtain ⟨T, h1, h2, h3, h4⟩ := hs
  exact ⟨T, h1, h2, h3, fun σ hσ => by rw [h4 σ hσ, h σ hσ]⟩

theorem Shows.weaken {V' : String × Ty → Prop} {ok' : Env ℝ → Prop} {ord' : Prop} {q : Pool E} {n : ℕ} {φ : Env ℝ → ℝ}
    (hs : Shows ev V ok ord q n φ) (hV : ∀ v, V v → V' v) (hok : ∀ σ, ok' σ → ok σ) (ho : ord' → ord) : Shows ev V' ok' ord' q n φ := by
  obtain ⟨T, h1, h2, h3, h4⟩ := hs
  exact ⟨T, h1, h2.mono hV, fun o => h3 (ho o), fun σ hσ => h4 σ (hok σ hσ)⟩

variable (hR : RLaw P.C ev)
include hR

theorem PxCtx.leaf_run (e : E) {p : Pool E} (hp : Inv2 P.C.X Γ ev p) : Run (Inv2 P.C.X Γ ev) Fr2 (terminal e) p True
    (fun n q => Shows ev V ok ord q n fun σ => ev e σ.r) :=
  ((terminal_run hp.core e).core2 hp).imp id fun _ _ _ _ h => ⟨.leaf e, .leaf h, .leaf, fun _ => trivial, fun _ _ => rfl⟩

theorem PxCtx.symbol_run (x : String) {p : Pool E} (hp : Inv2 P.C.X Γ ev p) : Run (Inv2 P.C.X Γ ev) Fr2 (P.symbol x) p True
    (fun n q => Shows ev V ok ord q n fun σ => σ.r x) :=
  (PxCtx.leaf_run hR _ hp).imp id fun _ _ _ _ h => h.congr fun σ _ => hR.back.symbol x σ.r

theorem PxCtx.real_run (c : ℚ) {p : Pool E} (hp : Inv2 P.C.X Γ ev p) : Run (Inv2 P.C.X Γ ev) Fr2 (P.real c) p True
    (fun n q => Shows ev V ok ord q n fun _ => (c : ℝ)) :=
  (PxCtx.leaf_run hR _ hp).imp id fun _ _ _ _ h => h.congr fun σ _ => hR.back.real c σ.r

theorem PxCtx.zero_run {p : Pool E} (hp : Inv2 P.C.X Γ ev p) : Run (Inv2 P.C.X Γ ev) Fr2 P.zero p True
    (fun n q => Shows ev V ok ord q n fun _ => 0) :=
  Run.bindGet (Run.ret Fr2.refl hp ⟨_, .leaf hp.core.zero, .leaf, fun _ => trivial, fun σ _ => zeroEval hR.back σ⟩)

theorem PxCtx.one_run {p : Pool E} (hp : Inv2 P.C.X Γ ev p) : Run (Inv2 P.C.X Γ ev) Fr2 P.one p True
    (fun n q => Shows ev V ok ord q n fun _ => 1) :=
  Run.bindGet (Run.ret Fr2.refl hp ⟨_, .leaf hp.core.one, .leaf, fun _ => trivial, fun σ _ => oneEval hR.back σ⟩)

theorem PxCtx.reduced_run {p : Pool E} (hp : Inv2 P.C.X Γ ev p) {n : ℕ} {φ : Env ℝ → ℝ} (hn : Shows ev V ok ord p n φ) :
    Run (Inv2 P.C.X Γ ev) Fr2 (P.reduced n) p True (fun r q => Shows ev V ok ord q r φ) := by
  unfold PxCtx.reduced
  split
  · obtain ⟨T, h1, h2, h3, h4⟩ := hn
    refine (reduce2 hR.simp hR.solve (by simp) hp h1).imp id ?_
    rintro r q hq hpq ⟨T', hT', hs⟩
    exact ⟨T', hT', hs.symsIn h2, fun o => hs.ord ((XTree.Ord.mono hpq.tests (h1.tests hp.core)).mpr (h3 o)),
      fun σ hσ => by rw [hs.eval, h4 σ hσ]⟩
  · exact Run.ret Fr2.refl hp hn

theorem PxCtx.op_run {op : XOp} (hop : op = .mul ∨ op = .add) {p : Pool E} (hp : Inv2 P.C.X Γ ev p) {a b : ℕ} {φ ψ : Env ℝ → ℝ}
    (ha : Shows ev V ok ord p a φ) (hb : Shows ev V ok ord p b ψ) :
    Run (Inv2 P.C.X Γ ev) Fr2 (apply P.C.X op a b >>= P.reduced) p True
      (fun r q => Shows ev V ok ord q r fun σ => opR op (φ σ) (ψ σ)) := by
  obtain ⟨A, a1, a2, a3, a4⟩ := ha
  obtain ⟨B, b1, b2, b3, b4⟩ := hb
  refine Run.seq2 (apply2 hR.simp hop hp a1 b1) id ?_
  rintro n q hq hpq ⟨T, hT, hs⟩
  refine PxCtx.reduced_run hR hq ⟨T, hT, hs.symsIn a2 b2, fun o => hs.ord ?_ ?_, fun σ hσ => by rw [hs.eval hR.back hop, a4 σ hσ, b4 σ hσ]⟩
  · exact (XTree.Ord.mono hpq.tests (a1.tests hp.core)).mpr (a3 o)
  · exact (XTree.Ord.mono hpq.tests (b1.tests hp.core)).mpr (b3 o)

theorem PxCtx.times_run {p : Pool E} (hp : Inv2 P.C.X Γ ev p) {a b : ℕ} {φ ψ : Env ℝ → ℝ}
    (ha : Shows ev V ok ord p a φ) (hb : Shows ev V ok ord p b ψ) :
    Run (Inv2 P.C.X Γ ev) Fr2 (P.times a b) p True (fun r q => Shows ev V ok ord q r fun σ => φ σ * ψ σ) :=
  PxCtx.op_run hR (Or.inl rfl) hp ha hb

theorem PxCtx.plus_run {p : Pool E} (hp : Inv2 P.C.X Γ ev p) {a b : ℕ} {φ ψ : Env ℝ → ℝ}
    (ha : Shows ev V ok ord p a φ) (hb : Shows ev V ok ord p b ψ) :
    Run (Inv2 P.C.X Γ ev) Fr2 (P.plus a b) p True (fun r q => Shows ev V ok ord q r fun σ => φ σ + ψ σ) :=
  PxCtx.op_run hR (Or.inr rfl) hp ha hb

theorem PxCtx.negate_run {p : Pool E} (hp : Inv2 P.C.X Γ ev p) {a : ℕ} {φ : Env ℝ → ℝ} (ha : Shows ev V ok ord p a φ) :
    Run (Inv2 P.C.X Γ ev) Fr2 (P.negate a) p True (fun r q => Shows ev V ok ord q r fun σ => -φ σ) := by
  unfold PxCtx.negate
  refine Run.seq2 (PxCtx.real_run (V := V) (ok := ok) (ord := ord) hR (-1) hp) id fun m q hq hpq hm => ?_
  exact (PxCtx.times_run hR hq (ha.mono hp.core hpq.toExt) hm).imp id fun _ _ _ _ h => h.congr fun σ _ => by push_cast; ring

theorem PxCtx.powLoop_run {a : ℕ} {φ : Env ℝ → ℝ} : ∀ (k : ℕ) {r : ℕ} {ψ : Env ℝ → ℝ} {p : Pool E}, Inv2 P.C.X Γ ev p →
    Shows ev V ok ord p a φ → Shows ev V ok ord p r ψ →
    Run (Inv2 P.C.X Γ ev) Fr2 (P.powLoop a k r) p True (fun r q => Shows ev V ok ord q r fun σ => ψ σ * φ σ ^ k)
  | 0, r, ψ, p, hp, _, hr => Run.ret Fr2.refl hp (hr.congr fun σ _ => by simp)
  | k + 1, r, ψ, p, hp, ha, hr => by
    unfold PxCtx.powLoop
    refine Run.seq2 (PxCtx.times_run hR hp hr ha) id fun m q hq hpq hm => ?_
    exact (PxCtx.powLoop_run k hq (ha.mono hp.core hpq.toExt) hm).imp id fun _ _ _ _ h => h.congr fun σ _ => by ring

theorem PxCtx.power_run (k : ℕ) {p : Pool E} (hp : Inv2 P.C.X Γ ev p) {a : ℕ} {φ : Env ℝ → ℝ} (ha : Shows ev V ok ord p a φ) :
    Run (Inv2 P.C.X Γ ev) Fr2 (P.power a k) p True (fun r q => Shows ev V ok ord q r fun σ => φ σ ^ k) := by
  have e : P.power a k = P.one >>= fun r => P.powLoop a k r := by
    unfold PxCtx.power
    rw [if_neg (by simp), if_neg (by simp)]
    simp
  rw [e]
  refine Run.seq2 (PxCtx.one_run (V := V) (ok := ok) (ord := ord) hR hp) id fun m q hq hpq hm => ?_
  exact (PxCtx.powLoop_run hR k hq (ha.mono hp.core hpq.toExt) hm).imp id fun _ _ _ _ h => h.congr fun σ _ => by ring

theorem PxCtx.parse_run {g : Formula} (hg : TestForm g) (hV : ∀ v ∈ syms g, V v) {p : Pool E} (hp : Inv2 P.C.X Γ ev p) :
    Run (Inv2 P.C.X Γ ev) Fr2 (P.parseCondition g) p True
      (fun r q => Shows ev V ok ord q r fun σ => if readTest σ g then 1 else 0) := by
  refine (boolTest2 hR hp hg).imp id ?_
  rintro r q hq - ⟨K, hK, hs⟩
  refine ⟨K, hK, hs.symsIn hV .leaf .leaf, fun _ => ?_, fun σ _ => by rw [hs.eval, zeroEval hR.back, oneEval hR.back]⟩
  rcases hs.2 with rfl | rfl | ⟨d, hd, -⟩
  · trivial
  · trivial
  · rcases hd with rfl | rfl <;> exact ⟨by simp [XTree.tests], trivial, trivial⟩

/-! ### Integrals -/

omit hR in
theorem PxCtx.integrateLoop_eq {D : Domain} : ∀ (vs : List String) (n : ℕ), (∀ v ∈ vs, D.varTypes.lookup v = some (Γ v)) →
    P.integrateLoop D vs n = eliminate P.C (vs.map fun v => (v, Γ v)) n
  | [], _, _ => rfl
  | v :: vs, n, h => by
    have hv : dictGet D.varTypes v = .ok (Γ v) := by simp [dictGet, h v (by simp)]
    unfold PxCtx.integrateLoop
    rw [hv]
    show Pywmi.integrate P.C n v (Γ v) >>= _ = Pywmi.integrate P.C n v (Γ v) >>= _
    congr 1
    funext m
    exact PxCtx.integrateLoop_eq vs m fun u hu => h u (by simp [hu])

theorem PxCtx.integrate_reals {D : Domain} {rs : List String} (hne : rs ≠ []) (hnd : rs.Nodup) (hΓ : ∀ x ∈ rs, Γ x = .real)
    (hD : ∀ x ∈ rs, D.varTypes.lookup x = some .real) {p : Pool E} (hp : Inv2 P.C.X Γ ev p) {n : ℕ} {φ : Env ℝ → ℝ}
    (hn : Shows ev V ok ord p n φ) (hok : ∀ σ : Env ℝ, ∀ᵐ x : Fin rs.length → ℝ, ok (σ.setReals rs x)) (hB : Boxed rs φ) :
    Run (Inv2 P.C.X Γ ev) Fr2 (P.integrate D n rs) p True
      (fun r q => Shows ev (fun v => V v ∧ ∀ x ∈ rs, v ≠ (x, Ty.real)) (fun _ => True) False q r (intReals rs φ)) := by
  obtain ⟨T, h1, h2, h3, h4⟩ := hn
  have hae : ∀ σ : Env ℝ, ∀ᵐ x : Fin rs.length → ℝ, φ (σ.setReals rs x) = T.eval ev (σ.setReals rs x) := fun σ => by
    filter_upwards [hok σ] with x hx using (h4 _ hx).symm
  unfold PxCtx.integrate
  rw [if_neg hne, PxCtx.integrateLoop_eq (Γ := Γ) rs n fun x hx => by rw [hD x hx, hΓ x hx]]
  have e : (rs.map fun v => (v, Γ v)) = rs.map fun v => (v, Ty.real) := List.map_congr_left fun v hv => by rw [hΓ v hv]
  rw [e]
  refine (eliminate_reals hR rs hnd hΓ hp h1 (hB.congr hae)).imp id ?_
  rintro r q hq - ⟨R, hRd, hRv, hRs⟩
  refine ⟨R, hRd, fun g hg v hv => ?_, False.elim, fun σ _ => ?_⟩
  · obtain ⟨⟨g', hg', hv'⟩, h⟩ := hRs g hg v hv
    exact ⟨h2 g' hg' v hv', h⟩
  · rw [hRv]
    exact intReals_congr ((hae σ).mono fun _ h => h.symm)

theorem PxCtx.integrate_bools {D : Domain} {bs : List String} (hne : bs ≠ []) (hnd : bs.Nodup) (hΓ : ∀ x ∈ bs, Γ x = .bool)
    (hD : ∀ x ∈ bs, D.varTypes.lookup x = some .bool) {p : Pool E} (hp : Inv2 P.C.X Γ ev p) {n : ℕ} {φ : Env ℝ → ℝ}
    (hn : Shows ev V (fun _ => True) True p n φ) :
    Run (Inv2 P.C.X Γ ev) Fr2 (P.integrate D n bs) p True
      (fun r q => Shows ev (fun v => V v ∧ ∀ x ∈ bs, v ≠ (x, Ty.bool)) (fun _ => True) True q r (sumBools bs φ)) := by
  obtain ⟨T, h1, h2, h3, h4⟩ := hn
  unfold PxCtx.integrate
  rw [if_neg hne, PxCtx.integrateLoop_eq (Γ := Γ) bs n fun x hx => by rw [hD x hx, hΓ x hx]]
  have e : (bs.map fun v => (v, Γ v)) = bs.map fun v => (v, Ty.bool) := List.map_congr_left fun v hv => by rw [hΓ v hv]
  rw [e]
  refine (eliminate_bools hR bs hnd hΓ hp h1 (h3 trivial)).imp id ?_
  rintro r q hq - ⟨R, hRd, hRo, hRv, hRt⟩
  refine ⟨R, hRd, fun g hg v hv => ⟨h2 g (hRt g hg).1 v hv, fun x hx hvx => ?_⟩, fun _ => hRo, fun σ _ => ?_⟩
  · subst hvx
    have := XTree.AllDec.tests (Q := fun g => (x, Ty.bool) ∈ syms g ↔ g = .sym x .bool) (fun d h => h.1.bool_iff x) (hRd.decs hq.core) g hg
    exact (hRt g hg).2 x hx (this.mp hv)
  · rw [hRv, show T.eval ev = φ from funext fun σ => h4 σ trivial]

theorem PxCtx.toFloat_run {p : Pool E} (hp : Inv2 P.C.X Γ ev p) {n : ℕ} {c : ℝ}
    (hn : Shows ev (fun _ => False) (fun _ => True) ord p n fun _ => c) :
    Run (Inv2 P.C.X Γ ev) Ext (P.toFloat n) p True (fun v _ => (v : ℝ) = c) := by
  obtain ⟨T, h1, h2, -, h4⟩ := hn
  exact terminalValue_run hR.back hp h1 h2 fun σ => h4 σ trivial

/-! ### Loops -/

omit hR in
theorem XM.foldM_run {α β γ : Type} {I : Pool E → Prop} {f : β → α → XM E β} {g : γ → α → γ} {Q : γ → β → Pool E → Prop} :
    ∀ (as : List α), (∀ a ∈ as, ∀ c b p, I p → Q c b p → Run I Fr2 (f b a) p True (fun b' q => Q (g c a) b' q)) →
    ∀ {c : γ} {b : β} {p : Pool E}, I p → Q c b p → Run I Fr2 (XM.foldM f b as) p True (fun b' q => Q (as.foldl g c) b' q)
  | [], _, c, b, p, hp, hb => Run.ret Fr2.refl hp hb
  | a :: as, h, c, b, p, hp, hb => by
    unfold XM.foldM
    exact Run.seq2 (h a (by simp) c b p hp hb) id fun b' q hq _ hb' =>
      XM.foldM_run as (fun a' ha' => h a' (by simp [ha'])) hq hb'

theorem PxCtx.monomial_run (k : Mono) {p : Pool E} (hp : Inv2 P.C.X Γ ev p) : Run (Inv2 P.C.X Γ ev) Fr2 (P.monomial k) p True
    (fun n q => Shows ev V ok ord q n fun σ => monoEval σ.r k) := by
  unfold PxCtx.monomial
  refine Run.seq2 (PxCtx.one_run (V := V) (ok := ok) (ord := ord) hR hp) id fun m q hq hpq hm => ?_
  refine (XM.foldM_run (g := fun (φ : Env ℝ → ℝ) x => fun σ => φ σ * σ.r x) (Q := fun φ n q => Shows ev V ok ord q n φ) k ?_ hq hm).imp id
    fun _ _ _ _ h => h.congr fun σ _ => ?_
  · intro x _ φ n q' hq' hn
    refine Run.seq2 (PxCtx.symbol_run (V := V) (ok := ok) (ord := ord) hR x hq') id fun s q1 hq1 h1 hs => ?_
    exact PxCtx.times_run hR hq1 (hn.mono hq'.core h1.toExt) hs
  · have key : ∀ (k : Mono) (φ : Env ℝ → ℝ), (k.foldl (fun (φ : Env ℝ → ℝ) x => fun σ => φ σ * σ.r x) φ) σ = φ σ * monoEval σ.r k := by
      intro k
      induction k with
      | nil => intro φ; simp [monoEval]
      | cons x k ih => intro φ; rw [List.foldl_cons, ih]; simp [monoEval]; ring
    rw [key]; simp

theorem PxCtx.sumTerms_run (d : Dict) {p : Pool E} (hp : Inv2 P.C.X Γ ev p) : Run (Inv2 P.C.X Γ ev) Fr2 (P.sumTerms d) p True
    (fun n q => Shows ev V ok ord q n fun σ => polyEval σ.r d) := by
  unfold PxCtx.sumTerms
  refine Run.seq2 (PxCtx.zero_run (V := V) (ok := ok) (ord := ord) hR hp) id fun m q hq hpq hm => ?_
  refine (XM.foldM_run (g := fun (φ : Env ℝ → ℝ) (t : Mono × ℚ) => fun σ => φ σ + monoEval σ.r t.1 * (t.2 : ℝ))
    (Q := fun φ n q => Shows ev V ok ord q n φ) d ?_ hq hm).imp id fun _ _ _ _ h => h.congr fun σ _ => ?_
  · intro t _ φ n q0 hq0 hn
    refine Run.seq2 (PxCtx.monomial_run (V := V) (ok := ok) (ord := ord) hR t.1 hq0) id fun s q1 hq1 h1 hs => ?_
    refine Run.seq2 (PxCtx.real_run (V := V) (ok := ok) (ord := ord) hR t.2 hq1) id fun r q2 hq2 h2 hr => ?_
    refine Run.seq2 (PxCtx.times_run hR hq2 (hs.mono hq1.core h2.toExt) hr) id fun m q3 hq3 h3 hm => ?_
    exact PxCtx.plus_run hR hq3 (hn.mono hq0.core ((h1.trans h2).trans h3).toExt) hm
  · have key : ∀ (d : Dict) (φ : Env ℝ → ℝ),
        (d.foldl (fun (φ : Env ℝ → ℝ) (t : Mono × ℚ) => fun σ => φ σ + monoEval σ.r t.1 * (t.2 : ℝ)) φ) σ = φ σ + polyEval σ.r d := by
      intro d
      induction d with
      | nil => intro φ; simp [polyEval]
      | cons x k ih => intro φ; rw [List.foldl_cons, ih]; simp [polyEval]; ring
    rw [key]; simp

/-- The comparison is not implemented, so the inequality is made a test. -/
theorem PxCtx.linExpr_run {d : Dict} {g : Formula} (hd : linToSmt d = .ok g) (hg : TestForm g) (hV : ∀ v ∈ syms g, V v) {p : Pool E}
    (hp : Inv2 P.C.X Γ ev p) : Run (Inv2 P.C.X Γ ev) Fr2 (P.linExpr d) p True
    (fun n q => Shows ev V ok ord q n fun σ => if readTest σ g then 1 else 0) := by
  have h1 : Run (Inv2 P.C.X Γ ev) Fr2 (do let s ← P.sumTerms (d.filter fun q => q.1 ≠ []); P.real (linB d)) p True (fun _ _ => True) :=
    Run.seq2 (PxCtx.sumTerms_run (V := V) (ok := ok) (ord := ord) hR _ hp) id fun s q1 hq1 _ _ =>
      (PxCtx.real_run hR (V := V) (ok := ok) (ord := ord) (linB d) hq1).imp id fun _ _ _ _ _ => trivial
  have e1 : P.tryLin d = (do let s ← P.sumTerms (d.filter fun q => q.1 ≠ []); P.real (linB d)) >>= fun _ => XM.fail .notImplemented := by
    rw [bind_assoc']
    rfl
  obtain ⟨i, f, -, hs⟩ := h1
  obtain ⟨a, ha⟩ := hs trivial
  generalize hm : ((do let s ← P.sumTerms (d.filter fun q => q.1 ≠ []); P.real (linB d)) : XM E ℕ) = m at i f ha e1
  have e2 : P.linExpr d p = P.parseLin d (m p).2 := by
    unfold PxCtx.linExpr XM.orElse
    rw [e1, XM.bind_apply]
    generalize m p = x at ha
    obtain ⟨y, z⟩ := x
    cases ha
    rfl
  have h2 : Run (Inv2 P.C.X Γ ev) Fr2 (P.parseLin d) (m p).2 True
      (fun n q => Shows ev V ok ord q n fun σ => if readTest σ g then 1 else 0) := by
    unfold PxCtx.parseLin
    exact Run.bindLift hd (PxCtx.parse_run hR hg hV i)
  unfold Run
  rw [e2]
  exact ⟨h2.1, f.trans h2.2.1, h2.2.2⟩

end
end Pywmi
