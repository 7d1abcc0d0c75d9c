import Verif.Xsdd.PoolVolume
import Verif.Props.XaddExamples

set_option linter.unusedSectionVars false
set_option linter.unusedSimpArgs false

/-!
# C65, C66: the algebra of diagrams and the XSDD engine that uses it

`Hist X Γ p q` says that the pool `q` comes from `p` by calls, so that the theorems on pools (C13–C22) apply to it and to later
calls of the algebra.
-/

namespace Pywmi
open Formula MeasureTheory Set Prog

section
variable {E : Type} [DecidableEq E] {ev : E → (String → ℝ) → ℝ} {Γ : String → Ty} {P : PxCtx E}

/-! ### C65: the methods of the algebra -/

section
variable (hX : XLaw P.C.X ev)
include hX

theorem PxCtx.leaf_fun {p : Pool E} (hp : Reachable P.C.X Γ p) (e : E) :
    ∃ r q, terminal e p = (.ok r, q) ∧ Hist P.C.X Γ p q ∧ IsFun ev q r (fun σ => ev e σ.r) ∧ Ordered q r := by
  have hi := hp.inv hX
  obtain ⟨n, q, h1, -, -, h3⟩ := ((terminal_run hi.core e).core2 hi).returns trivial
  refine ⟨n, q, h1, ?_, fun σ => .leaf h3, ?_⟩
  · have : q = (PoolOp.terminal e).exec P.C.X p := by simp only [PoolOp.exec, h1]
    rw [this]
    exact .step _ .refl trivial
  · exact (Den.leaf h3).ordered_iff.mpr trivial

/-- C65: numbers and symbols. -/
theorem poolAlgebra_leaves {p : Pool E} (hp : Reachable P.C.X Γ p) :
    (∀ c : ℚ, ∃ r q, P.real c p = (.ok r, q) ∧ Hist P.C.X Γ p q ∧ IsFun ev q r (fun _ => c)) ∧
    (∀ x, ∃ r q, P.symbol x p = (.ok r, q) ∧ Hist P.C.X Γ p q ∧ IsFun ev q r (fun σ => σ.r x)) ∧
    (∃ r, P.zero p = (.ok r, p) ∧ IsFun ev p r (fun _ => 0)) ∧
    ∃ r, P.one p = (.ok r, p) ∧ IsFun ev p r (fun _ => 1) := by
  have hi := hp.inv hX
  refine ⟨fun c => ?_, fun x => ?_, ⟨_, rfl, fun σ => ?_⟩, ⟨_, rfl, fun σ => ?_⟩⟩
  · obtain ⟨r, q, h1, h2, h3, -⟩ := PxCtx.leaf_fun hX hp (P.C.X.back.alg.real c)
    exact ⟨r, q, h1, h2, fun σ => hX.back.real c σ.r ▸ h3 σ⟩
  · obtain ⟨r, q, h1, h2, h3, -⟩ := PxCtx.leaf_fun hX hp (P.C.X.back.alg.symbol x)
    exact ⟨r, q, h1, h2, fun σ => by
      have := h3 σ
      dsimp only at this
      rwa [hX.back.symbol] at this⟩
  · have := ValAt.leaf (ev := ev) (σ := σ) hi.core.zero
    rwa [hX.back.evZero σ.r] at this
  · have := ValAt.leaf (ev := ev) (σ := σ) hi.core.one
    rwa [hX.back.evOne σ.r] at this

theorem PxCtx.op_fun {op : XOp} (hop : op = .mul ∨ op = .add) {p : Pool E} (hp : Reachable P.C.X Γ p) {a b : ℕ} {φ ψ : Env ℝ → ℝ}
    (ha : IsFun ev p a φ) (hb : IsFun ev p b ψ) :
    ∃ r q, (apply P.C.X op a b >>= P.reduced) p = (.ok r, q) ∧ Hist P.C.X Γ p q ∧ IsFun ev q r (fun σ => opR op (φ σ) (ψ σ)) ∧
      (Ordered p a → Ordered p b → Ordered q r) := by
  obtain ⟨n, q1, h1, h2⟩ := apply_pointwise hX hp (op := op) ha.isSome hb.isSome (by rcases hop with rfl | rfl <;> simp)
  have ho := (apply_shape hX hp ha.isSome hb.isSome h1).2
  have hq1 : Hist P.C.X Γ p q1 := by
    have : q1 = (PoolOp.apply op a b).exec P.C.X p := by simp only [PoolOp.exec, h1]
    rw [this]
    exact .step _ .refl ⟨ha.isSome, hb.isSome⟩
  have hn : IsFun ev q1 n (fun σ => opR op (φ σ) (ψ σ)) := fun σ => h2 σ _ _ (ha σ) (hb σ)
  rw [XM.bind_apply, h1]
  simp only [PxCtx.reduced]
  by_cases hw : P.walk = true
  · rw [if_pos hw]
    obtain ⟨r, q, h3, h4, h5, -⟩ := reduce_same hX (hp.trans hq1) hn.isSome (m := .fastSmt) (Or.inr rfl)
    refine ⟨r, q, h3, hq1.trans ?_, fun σ => h4 σ _ (hn σ), fun x y => h5 (ho x y)⟩
    have : q = (PoolOp.reduce .fastSmt n).exec P.C.X q1 := by simp only [PoolOp.exec, h3]
    rw [this]
    exact .step _ .refl hn.isSome
  · rw [if_neg hw]
    exact ⟨n, q1, rfl, hq1, hn, ho⟩

/-- C65: products and sums, with and without reduction. -/
theorem poolAlgebra_times {p : Pool E} (hp : Reachable P.C.X Γ p) {a b : ℕ} {φ ψ : Env ℝ → ℝ} (ha : IsFun ev p a φ) (hb : IsFun ev p b ψ) :
    (∃ r q, P.times a b p = (.ok r, q) ∧ Hist P.C.X Γ p q ∧ IsFun ev q r (fun σ => φ σ * ψ σ) ∧
      (Ordered p a → Ordered p b → Ordered q r)) ∧
    ∃ r q, P.plus a b p = (.ok r, q) ∧ Hist P.C.X Γ p q ∧ IsFun ev q r (fun σ => φ σ + ψ σ) ∧
      (Ordered p a → Ordered p b → Ordered q r) :=
  ⟨PxCtx.op_fun hX (Or.inl rfl) hp ha hb, PxCtx.op_fun hX (Or.inr rfl) hp ha hb⟩

theorem Hist.keepsFun {p q : Pool E} (hp : Reachable P.C.X Γ p) (h : Hist P.C.X Γ p q) {n : ℕ} {φ : Env ℝ → ℝ} (hn : IsFun ev p n φ) :
    IsFun ev q n φ := by
  obtain ⟨-, he⟩ := h.keeps hX (hp.inv hX)
  obtain ⟨T, hT⟩ := (hp.inv hX).core.den hn.isSome
  exact (he.den hT).isFun.mpr (hT.isFun.mp hn)

/-- C65: `negate`. -/
theorem poolAlgebra_negate {p : Pool E} (hp : Reachable P.C.X Γ p) {a : ℕ} {φ : Env ℝ → ℝ} (ha : IsFun ev p a φ) :
    ∃ r q, P.negate a p = (.ok r, q) ∧ Hist P.C.X Γ p q ∧ IsFun ev q r (fun σ => -φ σ) := by
  obtain ⟨m, q1, h1, h2, h3⟩ := (poolAlgebra_leaves hX hp).1 (-1)
  obtain ⟨r, q, h4, h5, h6, -⟩ := (poolAlgebra_times hX (hp.trans h2) (Hist.keepsFun hX hp h2 ha) h3).1
  refine ⟨r, q, ?_, h2.trans h5, fun σ => ?_⟩
  · unfold PxCtx.negate
    rw [XM.bind_apply, h1]
    exact h4
  · have := h6 σ
    simpa using this

theorem PxCtx.powLoop_fun {a : ℕ} {φ : Env ℝ → ℝ} : ∀ (k : ℕ) {r : ℕ} {ψ : Env ℝ → ℝ} {p : Pool E}, Reachable P.C.X Γ p → IsFun ev p a φ →
    IsFun ev p r ψ → ∃ s q, P.powLoop a k r p = (.ok s, q) ∧ Hist P.C.X Γ p q ∧ IsFun ev q s (fun σ => ψ σ * φ σ ^ k)
  | 0, r, ψ, p, _, _, hr => ⟨r, p, rfl, .refl, fun σ => by simpa using hr σ⟩
  | k + 1, r, ψ, p, hp, ha, hr => by
    obtain ⟨s, q1, h1, h2, h3, -⟩ := (poolAlgebra_times hX hp hr ha).1
    obtain ⟨t, q, h4, h5, h6⟩ := PxCtx.powLoop_fun k (hp.trans h2) (Hist.keepsFun hX hp h2 ha) h3
    refine ⟨t, q, ?_, h2.trans h5, fun σ => ?_⟩
    · unfold PxCtx.powLoop
      rw [XM.bind_apply, h1]
      exact h4
    · have := h6 σ
      dsimp only at this
      rwa [mul_assoc, ← pow_succ'] at this

/-- C65: `power` for the natural numbers; other exponents raise a ValueError and leave the pool alone. -/
theorem poolAlgebra_power {p : Pool E} (hp : Reachable P.C.X Γ p) {a : ℕ} {φ : Env ℝ → ℝ} (ha : IsFun ev p a φ) :
    (∀ k : ℕ, ∃ r q, P.power a k p = (.ok r, q) ∧ Hist P.C.X Γ p q ∧ IsFun ev q r (fun σ => φ σ ^ k)) ∧
    ∀ x : ℚ, (∀ k : ℕ, x ≠ k) → P.power a x p = (.error .valueError, p) := by
  constructor
  · intro k
    obtain ⟨o, h1, h2⟩ := (poolAlgebra_leaves hX hp).2.2.2
    obtain ⟨r, q, h3, h4, h5⟩ := PxCtx.powLoop_fun hX k hp ha h2
    refine ⟨r, q, ?_, h4, fun σ => by simpa using h5 σ⟩
    unfold PxCtx.power
    rw [if_neg (by simp), if_neg (by simp), XM.bind_apply, h1]
    simpa using h3
  · intro x hx
    unfold PxCtx.power
    by_cases h1 : x.den ≠ 1
    · rw [if_pos h1]; rfl
    · rw [if_neg h1]
      push Not at h1
      rw [if_pos ?_]
      · rfl
      by_contra h0
      push Not at h0
      refine hx x.num.toNat ?_
      have h2 : 0 ≤ x.num := Rat.num_nonneg.mpr h0
      have h3 : ((x.num.toNat : ℤ) : ℚ) = (x.num : ℚ) := by rw [Int.toNat_of_nonneg h2]
      have h4 : (x.num : ℚ) = x := Rat.coe_int_num_of_den_eq_one h1
      rw [← h4]
      push_cast at h3
      exact h3.symm

/-- C65: the indicator of a literal or a linear comparison, wherever the sides of the comparison differ. -/
theorem poolAlgebra_condition {p : Pool E} (hp : Reachable P.C.X Γ p) {g : Formula} (hg : TestForm g) :
    ∃ r q φ, P.parseCondition g p = (.ok r, q) ∧ Hist P.C.X Γ p q ∧ IsFun ev q r φ ∧ Ordered q r ∧
      ∀ σ, ¬onBoundary σ g → φ σ = if truth σ g then 1 else 0 := by
  have hi := hp.inv hX
  have hR : RLaw { P.C with ord := id } ev := hX.rlaw rfl fun _ _ => List.Perm.refl _
  obtain ⟨r, q, h1, -, -, T, hT, -, h3, h4⟩ := (PxCtx.parse_run (P := ⟨{ P.C with ord := id }, P.walk⟩) (V := fun _ => True)
    (ok := fun _ => True) (ord := True) hR hg (fun _ _ => trivial) hi).returns trivial
  refine ⟨r, q, _, h1, ?_, hT.isFun.mpr rfl, hT.ordered_iff.mpr (h3 trivial), fun σ hσ => ?_⟩
  · have : q = (PoolOp.boolTest g).exec P.C.X p := by
      have e : Pywmi.boolTest P.C.X ⟨g, none, false⟩ p = (.ok r, q) := h1
      simp only [PoolOp.exec, e]
    rw [this]
    exact .step _ .refl hg
  · rw [h4 σ trivial]
    dsimp only
    rw [readTest_truth hg σ hσ]

/-- C65: comparisons of expressions raise a NotImplementedError and leave the pool alone. -/
theorem poolAlgebra_compare (a b : ℕ) (p : Pool E) : P.compare a b p = (.error .notImplemented, p) := rfl

/-! ### C65: polynomials and inequalities -/

omit hX in
theorem XM.foldM_fun {α : Type} {f : ℕ → α → XM E ℕ} {g : (Env ℝ → ℝ) → α → Env ℝ → ℝ}
    (hf : ∀ (φ : Env ℝ → ℝ) (b : ℕ) (a : α) (p : Pool E), Reachable P.C.X Γ p → IsFun ev p b φ →
      ∃ r q, f b a p = (.ok r, q) ∧ Hist P.C.X Γ p q ∧ IsFun ev q r (g φ a)) :
    ∀ (as : List α) {φ : Env ℝ → ℝ} {b : ℕ} {p : Pool E}, Reachable P.C.X Γ p → IsFun ev p b φ →
      ∃ r q, XM.foldM f b as p = (.ok r, q) ∧ Hist P.C.X Γ p q ∧ IsFun ev q r (as.foldl g φ)
  | [], φ, b, p, _, hb => ⟨b, p, rfl, .refl, hb⟩
  | a :: as, φ, b, p, hp, hb => by
    obtain ⟨r, q, h1, h2, h3⟩ := hf φ b a p hp hb
    obtain ⟨s, q', h4, h5, h6⟩ := XM.foldM_fun hf as (hp.trans h2) h3
    refine ⟨s, q', ?_, h2.trans h5, h6⟩
    unfold XM.foldM
    rw [XM.bind_apply, h1]
    exact h4

theorem PxCtx.monomial_fun (k : Mono) {p : Pool E} (hp : Reachable P.C.X Γ p) :
    ∃ r q, P.monomial k p = (.ok r, q) ∧ Hist P.C.X Γ p q ∧ IsFun ev q r (fun σ => monoEval σ.r k) := by
  obtain ⟨o, h1, h2⟩ := (poolAlgebra_leaves hX hp).2.2.2
  obtain ⟨r, q, h3, h4, h5⟩ := XM.foldM_fun (P := P) (Γ := Γ) (f := fun t x => do let s ← P.symbol x; P.times t s)
    (g := fun (φ : Env ℝ → ℝ) x => fun σ => φ σ * σ.r x) (fun φ b x p' hp' hb => by
      obtain ⟨s, q1, k1, k2, k3⟩ := (poolAlgebra_leaves hX hp').2.1 x
      obtain ⟨r, q2, k4, k5, k6, -⟩ := (poolAlgebra_times hX (hp'.trans k2) (Hist.keepsFun hX hp' k2 hb) k3).1
      refine ⟨r, q2, ?_, k2.trans k5, k6⟩
      rw [XM.bind_apply, k1]
      exact k4) k hp h2
  refine ⟨r, q, ?_, h4, ?_⟩
  · unfold PxCtx.monomial
    rw [XM.bind_apply, h1]
    exact h3
  · intro σ
    have := h5 σ
    have key : ∀ (k : Mono) (φ : Env ℝ → ℝ), (k.foldl (fun (φ : Env ℝ → ℝ) x => fun σ => φ σ * σ.r x) φ) σ = φ σ * monoEval σ.r k := by
      intro k
      induction k with
      | nil => intro φ; simp [monoEval]
      | cons x k ih => intro φ; rw [List.foldl_cons, ih]; simp [monoEval]; ring
    rw [key] at this
    simpa using this

theorem PxCtx.sumTerms_fun (d : Dict) {p : Pool E} (hp : Reachable P.C.X Γ p) :
    ∃ r q, P.sumTerms d p = (.ok r, q) ∧ Hist P.C.X Γ p q ∧ IsFun ev q r (fun σ => polyEval σ.r d) := by
  obtain ⟨o, h1, h2⟩ := (poolAlgebra_leaves hX hp).2.2.1
  obtain ⟨r, q, h3, h4, h5⟩ := XM.foldM_fun (P := P) (Γ := Γ)
    (f := fun acc (t : Mono × ℚ) => do
      let x ← P.monomial t.1
      let y ← P.real t.2
      let m ← P.times x y
      P.plus acc m)
    (g := fun (φ : Env ℝ → ℝ) (t : Mono × ℚ) => fun σ => φ σ + monoEval σ.r t.1 * (t.2 : ℝ)) (fun φ b t p' hp' hb => by
      obtain ⟨x, q1, a1, a2, a3⟩ := PxCtx.monomial_fun hX t.1 hp'
      have r1 := hp'.trans a2
      obtain ⟨y, q2, b1, b2, b3⟩ := (poolAlgebra_leaves hX r1).1 t.2
      have r2 := r1.trans b2
      obtain ⟨m, q3, c1, c2, c3, -⟩ := (poolAlgebra_times hX r2 (Hist.keepsFun hX r1 b2 a3) b3).1
      have h03 := (a2.trans b2).trans c2
      obtain ⟨s, q4, d1, d2, d3, -⟩ := (poolAlgebra_times hX (r2.trans c2) (Hist.keepsFun hX hp' h03 hb) c3).2
      refine ⟨s, q4, ?_, h03.trans d2, d3⟩
      rw [XM.bind_apply, a1]
      dsimp only
      rw [XM.bind_apply, b1]
      dsimp only
      rw [XM.bind_apply, c1]
      exact d1) d hp h2
  refine ⟨r, q, ?_, h4, ?_⟩
  · unfold PxCtx.sumTerms
    rw [XM.bind_apply, h1]
    exact h3
  · intro σ
    have := h5 σ
    have key : ∀ (d : Dict) (φ : Env ℝ → ℝ),
        (d.foldl (fun (φ : Env ℝ → ℝ) (t : Mono × ℚ) => fun σ => φ σ + monoEval σ.r t.1 * (t.2 : ℝ)) φ) σ = φ σ + polyEval σ.r d := by
      intro d
      induction d with
      | nil => intro φ; simp [polyEval]
      | cons x k ih => intro φ; rw [List.foldl_cons, ih]; simp [polyEval]; ring
    rw [key] at this
    simpa using this

/-- C65: `Polynomial.to_expression` over the algebra has the values of the polynomial. -/
theorem poolAlgebra_polynomial (d : Dict) {p : Pool E} (hp : Reachable P.C.X Γ p) :
    ∃ r q, P.polyExpr d p = (.ok r, q) ∧ Hist P.C.X Γ p q ∧ IsFun ev q r (fun σ => polyEval σ.r d) := PxCtx.sumTerms_fun hX d hp

/-- C65: `LinearInequality.to_expression` over the algebra: the comparison of diagrams raises, the handler makes a test of the
inequality, and the result is its indicator wherever its sides differ. -/
theorem poolAlgebra_inequality {d : Dict} {g : Formula} (hd : linToSmt d = .ok g) (hg : TestForm g) {p : Pool E}
    (hp : Reachable P.C.X Γ p) :
    ∃ r q φ, P.linExpr d p = (.ok r, q) ∧ Hist P.C.X Γ p q ∧ IsFun ev q r φ ∧ Ordered q r ∧
      ∀ σ, ¬onBoundary σ g → φ σ = if truth σ g then 1 else 0 := by
  obtain ⟨s, q1, a1, a2, -⟩ := PxCtx.sumTerms_fun hX (d.filter fun q => q.1 ≠ []) hp
  obtain ⟨y, q2, b1, b2, -⟩ := (poolAlgebra_leaves hX (hp.trans a2)).1 (linB d)
  obtain ⟨r, q, φ, c1, c2, c3, c4, c5⟩ := poolAlgebra_condition hX ((hp.trans a2).trans b2) hg
  refine ⟨r, q, φ, ?_, (a2.trans b2).trans c2, c3, c4, c5⟩
  have e : P.tryLin d p = (.error .notImplemented, q2) := by
    unfold PxCtx.tryLin
    rw [XM.bind_apply, a1]
    dsimp only
    rw [XM.bind_apply, b1]
    rfl
  unfold PxCtx.linExpr XM.orElse
  rw [e]
  dsimp only
  unfold PxCtx.parseLin
  rw [XM.bind_apply, hd]
  exact c1

/-! ### C65: integrals -/

section
variable (hor : OrdLaw P.C.ord)
include hor

theorem PxCtx.integrateLoop_hist {D : Domain} : ∀ (vs : List String), (∀ v ∈ vs, D.varTypes.lookup v = some (Γ v)) → ∀ {p : Pool E},
    Reachable P.C.X Γ p → ∀ {n : ℕ}, (p.node n).isSome → Hist P.C.X Γ p (P.integrateLoop D vs n p).2
  | [], _, p, _, n, _ => .refl
  | v :: vs, hD, p, hp, n, hn => by
    have hv : dictGet D.varTypes v = .ok (Γ v) := by simp [dictGet, hD v (by simp)]
    obtain ⟨m, q, h1, -, -, h2⟩ := (eliminate_keeps (hX.rlaw rfl hor) [(v, Γ v)] (by simp) (hp.inv hX) hn).returns trivial
    have h3 : Pywmi.integrate P.C n v (Γ v) p = (.ok m, q) := by
      rw [← h1]
      unfold eliminate
      rw [XM.bind_apply]
      generalize Pywmi.integrate P.C n v (Γ v) p = x
      rcases x with ⟨_ | _, _⟩ <;> rfl
    have hq : Hist P.C.X Γ p q := by
      have : q = (PoolOp.integrate P.C n v (Γ v)).exec P.C.X p := by simp only [PoolOp.exec, h3]
      rw [this]
      exact .step _ .refl ⟨rfl, hor, hn, rfl⟩
    have e : P.integrateLoop D (v :: vs) n p = P.integrateLoop D vs m q := by
      rw [PxCtx.integrateLoop, hv]
      show (Pywmi.integrate P.C n v (Γ v) >>= fun n => P.integrateLoop D vs n) p = _
      rw [XM.bind_apply, h3]
    rw [e]
    exact hq.trans (PxCtx.integrateLoop_hist vs (fun u hu => hD u (by simp [hu])) (hp.trans hq) h2)

/-- C65: the integral over real variables of a diagram that is integrable and vanishes outside a box. -/
theorem poolAlgebra_integrate {D : Domain} {rs : List String} (hne : rs ≠ []) (hnd : rs.Nodup) (hΓ : ∀ x ∈ rs, Γ x = .real)
    (hD : ∀ x ∈ rs, D.varTypes.lookup x = some .real) {p : Pool E} (hp : Reachable P.C.X Γ p) {n : ℕ} {φ : Env ℝ → ℝ}
    (hn : IsFun ev p n φ) {M : ℝ} (hint : ∀ σ : Env ℝ, Integrable fun x : Fin rs.length → ℝ => φ (σ.setReals rs x))
    (hbox : ∀ (σ : Env ℝ) (x : Fin rs.length → ℝ), (∃ i, M < |x i|) → φ (σ.setReals rs x) = 0) :
    ∃ r q, P.integrate D n rs p = (.ok r, q) ∧ Hist P.C.X Γ p q ∧
      IsFun ev q r (fun σ => ∫ x : Fin rs.length → ℝ, φ (σ.setReals rs x)) ∧ ∀ x ∈ rs, TestFree q r (x, .real) := by
  have hi := hp.inv hX
  obtain ⟨T, hT⟩ := hi.core.den hn.isSome
  obtain ⟨r, q, h1, -, -, R, hRd, hRs, -, hRv⟩ := (PxCtx.integrate_reals (V := fun _ => True) (ok := fun _ => True) (ord := False)
    (hX.rlaw rfl hor) hne hnd hΓ hD hi (φ := φ)
    ⟨T, hT, fun _ _ _ _ => trivial, False.elim, fun σ _ => (congrFun (hT.isFun.mp hn) σ).symm⟩ (fun _ => ae_of_all _ fun _ => trivial)
    ⟨M, fun σ => ⟨hint σ, ae_of_all _ fun x hx => hbox σ x hx⟩⟩).returns trivial
  refine ⟨r, q, h1, ?_, hRd.isFun.mpr (funext fun σ => (hRv σ trivial).symm), fun x hx m d t f hm hd hv => ?_⟩
  · have := PxCtx.integrateLoop_hist hX hor (D := D) rs (fun x hx => by rw [hD x hx, hΓ x hx]) hp hn.isSome
    have e : P.integrate D n rs p = P.integrateLoop D rs n p := by unfold PxCtx.integrate; rw [if_neg hne]
    rw [← e, h1] at this
    exact this
  · exact (hRs d.test ((hRd.test_reach _).mpr ⟨m, d, t, f, hm, hd, rfl⟩) _ hv).2 x hx rfl

/-- C65: the sum over the cases of Boolean variables, for ordered diagrams (C21 has the reason for this condition). -/
theorem poolAlgebra_sum_partial {D : Domain} {bs : List String} (hne : bs ≠ []) (hnd : bs.Nodup) (hΓ : ∀ x ∈ bs, Γ x = .bool)
    (hD : ∀ x ∈ bs, D.varTypes.lookup x = some .bool) {p : Pool E} (hp : Reachable P.C.X Γ p) {n : ℕ} {φ : Env ℝ → ℝ}
    (hn : IsFun ev p n φ) (ho : Ordered p n) :
    ∃ r q, P.integrate D n bs p = (.ok r, q) ∧ Hist P.C.X Γ p q ∧ IsFun ev q r (sumBools bs φ) ∧ Ordered q r ∧
      ∀ x ∈ bs, TestFree q r (x, .bool) := by
  have hi := hp.inv hX
  obtain ⟨T, hT⟩ := hi.core.den hn.isSome
  obtain ⟨r, q, h1, -, -, R, hRd, hRs, hRo, hRv⟩ := (PxCtx.integrate_bools (V := fun _ => True)
    (hX.rlaw rfl hor) hne hnd hΓ hD hi (φ := φ)
    ⟨T, hT, fun _ _ _ _ => trivial, fun _ => hT.ordered_iff.mp ho, fun σ _ => (congrFun (hT.isFun.mp hn) σ).symm⟩).returns trivial
  refine ⟨r, q, h1, ?_, hRd.isFun.mpr (funext fun σ => (hRv σ trivial).symm), hRd.ordered_iff.mpr (hRo trivial), fun x hx m d t f hm hd hv => ?_⟩
  · have := PxCtx.integrateLoop_hist hX hor (D := D) bs (fun x hx => by rw [hD x hx, hΓ x hx]) hp hn.isSome
    have e : P.integrate D n bs p = P.integrateLoop D bs n p := by unfold PxCtx.integrate; rw [if_neg hne]
    rw [← e, h1] at this
    exact this
  · exact (hRs d.test ((hRd.test_reach _).mpr ⟨m, d, t, f, hm, hd, rfl⟩) _ hv).2 x hx rfl

omit hor in
/-- C65: `to_float` of a diagram without tests whose value is a number; the pool stays as it is. -/
theorem poolAlgebra_toFloat {p : Pool E} (hp : Reachable P.C.X Γ p) {n : ℕ} {c : ℝ} (hn : IsFun ev p n fun _ => c)
    (hfree : ∀ d t f, p.node n ≠ some (.inner d t f)) : ∃ v : ℚ, P.toFloat n p = (.ok v, p) ∧ (v : ℝ) = c := by
  have hi := hp.inv hX
  obtain ⟨T, hT⟩ := hi.core.den hn.isSome
  have hv := hT.isFun.mp hn
  cases hT with
  | leaf h =>
    rename_i e
    obtain ⟨v, hv1, hv2⟩ := hX.back.toFloat e c fun ρ => (congrFun hv ⟨fun _ => false, ρ⟩).symm
    refine ⟨v, ?_, hv2⟩
    simp [PxCtx.toFloat, terminalValue, getNode, h, hv1, XM.bind_apply, XM.lift]
  | node h _ _ => exact absurd h (hfree _ _ _)

end
end

/-! ### C66: the engine -/

section
variable {q : PoolOpts E}

theorem PoolOpts.volume_run (hq : q.Sound ev) {e : EngineObj} {w : Formula} (hw : e.weight = some w) (hD : BoxOk e.domain)
    (hne : e.domain.reals ≠ []) (hΓ : ∀ x ∈ e.domain.reals, Γ x = .real) (hxw : XWeight q.o e.domain w) (hS : XOk e.domain e.support)
    {p : Pool E} (hp : Inv2 q.P.C.X Γ ev p) :
    (∀ b base, e.domain.getBounds = .ok b → q.o.baseSupport (.and [e.support, b]) w = .ok base → q.o.SmoothRuns base w →
      Run (Inv2 q.P.C.X Γ ev) Ext (q.computeVolume e true) p True (fun v _ => (v : ℝ) = e.domain.volumeOf true (density e.support w))) ∧
    (∀ base, q.o.baseSupport e.support w = .ok base → Bounded e.domain e.support → q.o.SmoothRuns base w →
      Run (Inv2 q.P.C.X Γ ev) Ext (q.computeVolume e false) p True (fun v _ => (v : ℝ) = e.domain.volumeOf false (density e.support w))) := by
  have hxi : XWeight q.ideal e.domain w := ⟨hxw.wt, hxw.vars, hxw.conds, hxw.clash⟩
  constructor
  · intro b base hb hbase hsm
    obtain ⟨b', hb', hxb, htb, _⟩ := bounds_ok hD
    rw [hb] at hb'; cases hb'
    obtain ⟨k1, k2, _⟩ := baseSupport_correct hq.setOrd hq.implies (XOk.two hS hxb).1 hxw.wt hbase
    have e1 : q.computeVolume e true = q.volumeCore (e.withConstraint b) := by
      unfold PoolOpts.computeVolume
      rw [if_pos rfl, hb]
      rfl
    rw [e1]
    refine (PoolOpts.core_run hq (e := e.withConstraint b) (base := base) hw hD.wf hne hΓ hxi hbase k1
      ((bounds_bounded hD hb).of_conjunct ((Conjunct.inside _ b (by simp) .here).trans (baseSupport_conjunct hbase))) hsm hp).imp id
      fun v _ _ _ hv => ?_
    rw [hv]
    show e.domain.volumeOf false (density base w) = _
    rw [Domain.volumeOf, Domain.volumeOf]
    congr 1
    funext σ
    have := k2 σ
    rw [truth_mkAnd_pair] at this
    unfold Domain.restricted
    by_cases hσ : e.domain.inBox σ
    · rw [if_pos (by simp), if_pos fun _ => hσ]
      rw [(htb σ).mpr hσ, Bool.and_true] at this
      simp only [density, this]
    · rw [if_pos (by simp), if_neg fun h => hσ (h rfl)]
      have hf : truth σ b = false := by
        cases h : truth σ b
        · rfl
        · exact absurd ((htb σ).mp h) hσ
      rw [hf, Bool.and_false] at this
      simp only [density, this]
      rfl
  · intro base hbase hbd hsm
    obtain ⟨k1, k2, _⟩ := baseSupport_correct hq.setOrd hq.implies hS hxw.wt hbase
    have e1 : q.computeVolume e false = q.volumeCore e := by
      unfold PoolOpts.computeVolume
      rw [if_neg (by simp)]
    rw [e1]
    refine (PoolOpts.core_run hq hw hD.wf hne hΓ hxi hbase k1 (hbd.of_conjunct (baseSupport_conjunct hbase)) hsm hp).imp id
      fun v _ _ _ hv => ?_
    have hden : density base w = density e.support w := by funext σ; simp only [density, k2]
    rw [hv, hden]

/-- C66: from every pool that can come up, the engine returns the weighted model integral.  Conditions as for C64: there are real
variables, weights without a clash (C46), no equalities and no comparisons of equal terms, smooth diagrams, and, without the
bounds of the domain, bounds among the conjuncts of the support.  The full statement has no such exclusions
(`poolEngine_noReals_wrong` shows that the first one is needed). -/
theorem poolEngine_correct_partial (hq : q.Sound ev) {e : EngineObj} {w : Formula} (hw : e.weight = some w) (hD : BoxOk e.domain)
    (hne : e.domain.reals ≠ []) (hΓ : ∀ x ∈ e.domain.reals, Γ x = .real) (hxw : XWeight q.o e.domain w) (hS : XOk e.domain e.support)
    {p : Pool E} (hp : Reachable q.P.C.X Γ p) :
    (∀ b base, e.domain.getBounds = .ok b → q.o.baseSupport (.and [e.support, b]) w = .ok base → q.o.SmoothRuns base w →
      ∃ v p', q.computeVolume e true p = (.ok v, p') ∧ (v : ℝ) = e.domain.volumeOf true (density e.support w)) ∧
    (∀ base, q.o.baseSupport e.support w = .ok base → Bounded e.domain e.support → q.o.SmoothRuns base w →
      ∃ v p', q.computeVolume e false p = (.ok v, p') ∧ (v : ℝ) = e.domain.volumeOf false (density e.support w)) := by
  obtain ⟨c1, c2⟩ := PoolOpts.volume_run hq hw hD hne hΓ hxw hS (hp.inv ⟨hq.law.simp, hq.law.solve, hq.law.back⟩)
  refine ⟨fun b base hb hbase hsm => ?_, fun base hbase hbd hsm => ?_⟩
  · obtain ⟨v, p', h1, -, -, h2⟩ := (c1 b base hb hbase hsm).returns trivial
    exact ⟨v, p', h1, h2⟩
  · obtain ⟨v, p', h1, -, -, h2⟩ := (c2 base hbase hbd hsm).returns trivial
    exact ⟨v, p', h1, h2⟩

/-- SPEC: a query the engine is right for. -/
structure PoolOpts.Fit (q : PoolOpts E) (Γ : String → Ty) (e : EngineObj) (w : Formula) (addBounds : Bool) : Prop where
  weight : e.weight = some w
  box : BoxOk e.domain
  reals : e.domain.reals ≠ []
  types : ∀ x ∈ e.domain.reals, Γ x = .real
  wok : XWeight q.o e.domain w
  sok : XOk e.domain e.support
  oneBool : e.domain.bools.length ≤ 1
  bounded : addBounds = true ∨ Bounded e.domain e.support
  noPrune : q.o.findConflicts = false

theorem PoolOpts.Fit.run (hq : q.Sound ev) {e : EngineObj} {w : Formula} {ab : Bool} (h : q.Fit Γ e w ab) {p : Pool E}
    (hp : Inv2 q.P.C.X Γ ev p) :
    Run (Inv2 q.P.C.X Γ ev) Ext (q.computeVolume e ab) p True (fun v _ => (v : ℝ) = e.domain.volumeOf ab (density e.support w)) := by
  obtain ⟨c1, c2⟩ := PoolOpts.volume_run hq h.weight h.box h.reals h.types h.wok h.sok hp
  have hxi : XWeight q.ideal e.domain w := ⟨h.wok.wt, h.wok.vars, h.wok.conds, h.wok.clash⟩
  have e1 : ∀ S, q.o.baseSupport S w = .ok S := fun S => by simp [XsddOpts.baseSupport, h.noPrune]
  cases ab with
  | true =>
    obtain ⟨b, hb, hxb, _⟩ := bounds_ok h.box
    obtain ⟨k1, _⟩ := baseSupport_correct hq.setOrd hq.implies (XOk.two h.sok hxb).1 h.wok.wt (e1 _)
    exact c1 b _ hb (e1 _) (XsddOpts.smoothRuns_of_bools hq.ideal hq.vtree hxi k1
      ((bounds_bounded h.box hb).of_conjunct ((Conjunct.inside _ b (by simp) .here).trans (baseSupport_conjunct (e1 _)))) h.oneBool)
  | false =>
    have hbd := h.bounded.resolve_left (by simp)
    exact c2 _ (e1 _) hbd (XsddOpts.smoothRuns_of_bools hq.ideal hq.vtree hxi h.sok hbd h.oneBool)

/-- C66: the answers to any list of queries asked one after the other, on any pool that can come up: every one is the weighted model
integral of its own problem, so that it does not depend on the queries before it.  Domains with at most one Boolean variable need no
condition on the diagrams. -/
theorem poolEngine_queries_partial (hq : q.Sound ev) : ∀ (qs : List (EngineObj × Formula × Bool)), (∀ x ∈ qs, q.Fit Γ x.1 x.2.1 x.2.2) →
    ∀ {p : Pool E}, Reachable q.P.C.X Γ p →
    ∃ vs p', XM.mapM (fun x : EngineObj × Formula × Bool => q.computeVolume x.1 x.2.2) qs p = (.ok vs, p') ∧
      vs.map (fun v : ℚ => (v : ℝ)) = qs.map fun x => x.1.domain.volumeOf x.2.2 (density x.1.support x.2.1) := by
  intro qs h p hp
  have key : ∀ (qs : List (EngineObj × Formula × Bool)), (∀ x ∈ qs, q.Fit Γ x.1 x.2.1 x.2.2) → ∀ {p : Pool E}, Inv2 q.P.C.X Γ ev p →
      ∃ vs p', XM.mapM (fun x : EngineObj × Formula × Bool => q.computeVolume x.1 x.2.2) qs p = (.ok vs, p') ∧
        vs.map (fun v : ℚ => (v : ℝ)) = qs.map fun x => x.1.domain.volumeOf x.2.2 (density x.1.support x.2.1) := by
    intro qs
    induction qs with
    | nil => exact fun _ {p} _ => ⟨[], p, rfl, rfl⟩
    | cons x qs ih =>
      intro h p hp
      obtain ⟨v, p1, h1, h2, -, h3⟩ := ((h x (by simp)).run hq hp).returns trivial
      obtain ⟨vs, p2, h4, h5⟩ := ih (fun y hy => h y (by simp [hy])) h2
      refine ⟨v :: vs, p2, ?_, by simp only [List.map_cons, h3, h5]⟩
      unfold XM.mapM
      rw [XM.bind_apply, h1]
      dsimp only
      rw [XM.bind_apply, h4]
      rfl
  exact key qs h (hp.inv ⟨hq.law.simp, hq.law.solve, hq.law.back⟩)

end
end

/-! ### Concrete cases -/

/-- EXAMPLE: the algebra with and without reduction. -/
def exAlgebra (walk : Bool) : PxCtx Dict := ⟨if walk then exFull else exPlain, walk⟩

/-- EXAMPLE: an engine with reference implementations of the external parts. -/
noncomputable def poolSample (walk : Bool) : PoolOpts Dict where
  P := exAlgebra walk
  o := {
    simp := id
    mgr := fun ex => Sdd.refManager ((Vtree.load ex).getD .empty)
    ord := id
    tie := id
    setOrd := id
    alg := exBack.alg
    realF := fun _ => []
    toFloat := fun _ => .error .notImplemented
    integrate := fun _ _ _ => .error .notImplemented
    backend := none
    vtree := fun L => Bami.bami id id L []
    findConflicts := false
    implies := fun _ _ => .ok false }

theorem exAlgebra_X (walk : Bool) : (exAlgebra walk).C.X = exCtx := by cases walk <;> rfl
theorem exAlgebra_ord (walk : Bool) : OrdLaw (exAlgebra walk).C.ord := by cases walk <;> exact id_ordLaw

theorem poolSample_sound (walk : Bool) : (poolSample walk).Sound exEv where
  law := exLaw.rlaw (exAlgebra_X walk) (exAlgebra_ord walk)
  mgr := (sampleOpts_sound false).mgr
  ord l := List.Perm.refl _
  tie l := List.Perm.refl _
  setOrd l := List.Perm.refl _
  simp := (sampleOpts_sound false).simp
  simpOk := (sampleOpts_sound false).simpOk
  vtree := bami_vtreeOk (fun _ => List.Perm.refl _) (fun _ => List.Perm.refl _) []
  implies a b h := by simp [poolSample] at h

theorem poolSample_fit (walk ab : Bool) : (poolSample walk).Fit exTypes ⟨factDomain, factSupport, some xsddWeight⟩ xsddWeight ab where
  weight := rfl
  box := factDomain_box
  reals := by decide
  types := by decide
  wok := ⟨(factWeight_ok false).wt, (factWeight_ok false).vars, (factWeight_ok false).conds, (factWeight_ok false).clash⟩
  sok := factSupport_ok
  oneBool := by decide
  bounded := Or.inr factSupport_bounded
  noPrune := rfl

/-- The hypotheses of `poolEngine_queries_partial` are met: two queries on a pool that is not new. -/
example (walk : Bool) : ∃ v v' p', XM.mapM (fun x : EngineObj × Formula × Bool => (poolSample walk).computeVolume x.1 x.2.2)
      [(⟨factDomain, factSupport, some xsddWeight⟩, xsddWeight, true), (⟨factDomain, factSupport, some xsddWeight⟩, xsddWeight, false)] exPool =
        (.ok [v, v'], p') ∧ (v : ℝ) = factDomain.volumeOf true (density factSupport xsddWeight) ∧
      (v' : ℝ) = factDomain.volumeOf false (density factSupport xsddWeight) := by
  obtain ⟨vs, p', h1, h2⟩ := poolEngine_queries_partial (Γ := exTypes) (poolSample_sound walk)
    [(⟨factDomain, factSupport, some xsddWeight⟩, xsddWeight, true), (⟨factDomain, factSupport, some xsddWeight⟩, xsddWeight, false)]
    (by simp [poolSample_fit]) (p := exPool) (by
      show Reachable (exAlgebra walk).C.X exTypes exPool
      rw [exAlgebra_X]; exact exPool_reachable)
  obtain _ | ⟨v, _ | ⟨v', _ | ⟨_, _⟩⟩⟩ := vs <;> simp only [List.map_cons, List.map_nil, List.cons.injEq, and_true, reduceCtorEq, and_false] at h2
  exact ⟨v, v', p', h1, h2.1, h2.2⟩

/-- The product, the sum and the square of two diagrams of `exPool`, and the integral of a product over a box. -/
example (walk : Bool) : ∃ φ ψ : Env ℝ → ℝ, ∃ r q s q',
    (exAlgebra walk).times 5 12 exPool = (.ok r, q) ∧ IsFun exEv q r (fun σ => φ σ * ψ σ) ∧
    (exAlgebra walk).power r 2 q = (.ok s, q') ∧ IsFun exEv q' s (fun σ => (φ σ * ψ σ) ^ 2) := by
  have hX : XLaw (exAlgebra walk).C.X exEv := by rw [exAlgebra_X]; exact exLaw
  have hp : Reachable (exAlgebra walk).C.X exTypes exPool := by rw [exAlgebra_X]; exact exPool_reachable
  obtain ⟨φ, hφ⟩ := reachable_fun hX hp (n := 5) (by rw [exPool_nodes.2.2.1]; rfl)
  obtain ⟨ψ, hψ⟩ := reachable_fun hX hp exPool_nodes.2.2.2
  obtain ⟨r, q, h1, h2, h3, -⟩ := (poolAlgebra_times hX hp hφ hψ).1
  obtain ⟨s, q', h4, -, h5⟩ := (poolAlgebra_power hX (hp.trans h2) h3).1 2
  exact ⟨φ, ψ, r, q, s, q', h1, h3, h4, h5⟩

/-! ### C66: a domain without real variables -/

/-- EXAMPLE: one Boolean variable. -/
def oneBoolDomain : Domain := ⟨["a"], [("a", .bool)], []⟩

/-- C66 does not hold for domains without real variables: `integrate(domain, expression, [])` takes the empty list for no list and
sums over the Boolean variables as well, which the engine then counts again.  The support `a` over one Boolean variable has volume 1,
the engine returns 2. -/
theorem poolEngine_noReals_wrong :
    ((poolSample true).computeVolume ⟨oneBoolDomain, exA, some (.realC 1)⟩ true (newPool exCtx)).1 = .ok 2 ∧
    oneBoolDomain.volumeOf true (density exA (.realC 1)) = 1 := by
  constructor
  · decide +kernel
  · have hb : oneBoolDomain.bools = ["a"] := by decide
    have hr : oneBoolDomain.reals = [] := by decide
    have hbox : ∀ σ : Env ℝ, oneBoolDomain.inBox σ := fun σ => by intro v hv; simp [oneBoolDomain] at hv
    rw [Domain.volumeOf, hb, hr]
    simp [wmiOf, sumBools, intReals, Domain.restricted, hbox, density, truth, value, exA, Env.setReals, Env.setB]
    rw [Measure.real, volume_pi, Measure.pi_of_empty]
    simp

end Pywmi
