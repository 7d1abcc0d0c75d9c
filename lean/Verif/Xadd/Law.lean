import Verif.Xadd.Reduce
import Verif.Props.Algebra
import Mathlib.Analysis.SpecialFunctions.Integrals.Basic

set_option linter.unusedSectionVars false
set_option linter.unusedSimpArgs false

/-!
# What a pool assumes of its algebra

SPEC: the laws of a polynomial integration backend, and an implementation by dictionaries of monomials that meets them.
-/

namespace Pywmi
open Formula Prog MeasureTheory

/-- SPEC: the values with one of them replaced. -/
def upd {K : Type} (ρ : String → K) (x : String) (t : K) : String → K := fun y => if y = x then t else ρ y

/-- SPEC: the backend computes with functions of the real variables that are polynomials in each variable, integrates them
exactly, and recognises its own zero and one. -/
structure BackLaw {E : Type} (B : Back E) (ev : E → (String → ℝ) → ℝ) : Prop where
  real : ∀ q ρ, ev (B.alg.real q) ρ = (q : ℝ)
  symbol : ∀ n ρ, ev (B.alg.symbol n) ρ = ρ n
  times : ∀ a b ρ, ev (B.alg.times a b) ρ = ev a ρ * ev b ρ
  plus : ∀ a b ρ, ev (B.alg.plus a b) ρ = ev a ρ + ev b ρ
  flat : ∀ a ρ, ev (B.flat a) ρ = ev a ρ
  oneOne : B.isOne B.alg.one = .ok true
  oneZero : B.isOne B.alg.zero = .ok false
  zeroZero : B.isZero B.alg.zero = .ok true
  isOne : ∀ e, B.isOne e = .ok true → ∀ ρ, ev e ρ = 1
  isZero : ∀ e, B.isZero e = .ok true → ∀ ρ, ev e ρ = 0
  poly : ∀ e x ρ, ∃ P : Polynomial ℝ, ∀ t, ev e (upd ρ x t) = P.eval t
  cont : ∀ e, Continuous (ev e)
  integrate : ∀ e x l u ρ, (∀ t, ev l (upd ρ x t) = ev l ρ) → (∀ t, ev u (upd ρ x t) = ev u ρ) →
    ev (B.integratePoly e x l u) ρ = ∫ t in (ev l ρ)..(ev u ρ), ev e (upd ρ x t)
  toFloat : ∀ e (c : ℝ), (∀ ρ, ev e ρ = c) → ∃ q : ℚ, B.toFloat e = .ok q ∧ (q : ℝ) = c

section
variable {E : Type} [DecidableEq E] {X : XCtx E} {ev : E → (String → ℝ) → ℝ}

theorem BackLaw.evZero (h : BackLaw X.back ev) (ρ : String → ℝ) : ev X.back.alg.zero ρ = 0 := by
  rw [Algebra.zero, h.real]; simp
theorem BackLaw.evOne (h : BackLaw X.back ev) (ρ : String → ℝ) : ev X.back.alg.one ρ = 1 := by
  rw [Algebra.one, h.real]; simp
theorem BackLaw.ne (h : BackLaw X.back ev) : X.back.alg.zero ≠ X.back.alg.one := by
  intro e
  have h0 := h.evZero (fun _ => 0)
  rw [e, h.evOne] at h0
  exact one_ne_zero h0

/-- `monoExpr` and `polyToExpr` for an algebra without comparisons. -/
theorem BackLaw.poly_eval (h : BackLaw X.back ev) (d : Dict) (ρ : String → ℝ) : ev (polyToExpr X.back.alg d) ρ = polyEval ρ d := by
  have hm : ∀ k : Mono, ev (monoExpr X.back.alg k) ρ = monoEval ρ k := by
    intro k
    unfold monoExpr
    have : ∀ e, ev (k.foldl (fun t n => X.back.alg.times t (X.back.alg.symbol n)) e) ρ = ev e ρ * monoEval ρ k := by
      induction k with
      | nil => intro e; simp [monoEval]
      | cons n k ih =>
        intro e
        rw [List.foldl_cons, ih, h.times, h.symbol]
        simp [monoEval, mul_assoc]
    rw [this, h.evOne]; simp
  unfold polyToExpr
  have : ∀ e, ev (d.foldl (fun acc p => X.back.alg.plus acc (X.back.alg.times (monoExpr X.back.alg p.1) (X.back.alg.real p.2))) e) ρ =
      ev e ρ + polyEval ρ d := by
    induction d with
    | nil => intro e; simp [polyEval]
    | cons p d ih =>
      intro e
      rw [List.foldl_cons, ih, h.plus, h.times, h.real, hm]
      simp only [polyEval, List.map_cons, List.sum_cons]; ring
  rw [this, h.evZero]; simp

/-- SPEC: the operations on numbers. -/
noncomputable def opR : XOp → ℝ → ℝ → ℝ
  | .mul, a, b => a * b
  | .add, a, b => a + b
  | .or, a, b => max a b
  | .and, a, b => min a b

/-- The operations of leaves are those of numbers; disjunction and conjunction on zero and one. -/
theorem opE_eval (h : BackLaw X.back ev) (op : XOp) (e e' : E)
    (hb : op = .or ∨ op = .and → (e = X.back.alg.zero ∨ e = X.back.alg.one) ∧ (e' = X.back.alg.zero ∨ e' = X.back.alg.one)) (ρ : String → ℝ) :
    ev (opE X op e e') ρ = opR op (ev e ρ) (ev e' ρ) := by
  have hz := h.evZero ρ
  have ho := h.evOne ρ
  have hne := h.ne
  cases op with
  | mul =>
    simp only [opE, opR]
    split
    · rename_i h1
      rcases h1 with rfl | rfl <;> simp [hz]
    · split
      · rename_i h1; subst h1; simp [ho]
      · split
        · rename_i h1; subst h1; simp [ho]
        · rw [h.flat, h.times]
  | add =>
    simp only [opE, opR]
    split
    · rename_i h1; subst h1; simp [hz]
    · split
      · rename_i h1; subst h1; simp [hz]
      · rw [h.flat, h.plus]
  | or =>
    obtain ⟨h1, h2⟩ := hb (by simp)
    simp only [opE, opR]
    rcases h1 with rfl | rfl <;> rcases h2 with rfl | rfl <;> simp [hne, hne.symm, hz, ho]
  | and =>
    obtain ⟨h1, h2⟩ := hb (by simp)
    simp only [opE, opR]
    rcases h1 with rfl | rfl <;> rcases h2 with rfl | rfl <;> simp [hne, hne.symm, hz, ho]

/-! ### A new pool -/

theorem newPool_eq (hne : X.back.alg.zero ≠ X.back.alg.one) : newPool X =
    ⟨[some (.leaf X.back.alg.zero), some (.leaf X.back.alg.one)], [], [], [(X.back.alg.one, 2), (X.back.alg.zero, 1)], [], [], [], [], [], 1, 2⟩ := by
  have h1 : (X.back.alg.one == X.back.alg.zero) = false := by simpa using hne.symm
  simp [newPool, terminal, List.lookup, h1]

theorem newPool_core (hne : X.back.alg.zero ≠ X.back.alg.one) : Core X (newPool X) := by
  rw [newPool_eq hne]
  have hnode : ∀ n : ℕ, Pool.node (⟨[some (.leaf X.back.alg.zero), some (.leaf X.back.alg.one)], [], [],
      [(X.back.alg.one, 2), (X.back.alg.zero, 1)], [], [], [], [], [], 1, 2⟩ : Pool E) n =
      if n = 1 then some (.leaf X.back.alg.zero) else if n = 2 then some (.leaf X.back.alg.one) else none := by
    intro n
    match n with
    | 0 => rfl
    | 1 => rfl
    | 2 => rfl
    | n + 3 => simp [Pool.node]
  refine ⟨rfl, rfl, fun {n d t f} h => ?_, fun e n => ?_, fun i t f n => ?_, List.nodup_nil⟩
  · rw [hnode] at h
    split at h
    · simp at h
    · split at h <;> simp at h
  · rw [hnode]
    simp only [List.lookup_cons, List.lookup_nil]
    by_cases h1 : e = X.back.alg.one
    · subst h1
      simp only [beq_self_eq_true, if_true, Option.some.injEq]
      constructor
      · rintro rfl; simp
      · intro h
        split at h
        · simp only [Option.some.injEq, XNode.leaf.injEq] at h; exact absurd h hne
        · split at h
          · rename_i h2; exact h2.symm
          · cases h
    · have h1' : (e == X.back.alg.one) = false := by simpa using h1
      rw [h1']
      by_cases h2 : e = X.back.alg.zero
      · subst h2
        simp only [beq_self_eq_true, Option.some.injEq]
        constructor
        · rintro rfl; simp
        · intro h
          split at h
          · rename_i h2; exact h2.symm
          · split at h
            · simp only [Option.some.injEq, XNode.leaf.injEq] at h; exact absurd h.symm hne
            · cases h
      · have h2' : (e == X.back.alg.zero) = false := by simpa using h2
        rw [h2']
        constructor
        · intro h; cases h
        · intro h
          split at h
          · simp only [Option.some.injEq, XNode.leaf.injEq] at h; exact absurd h.symm h2
          · split at h
            · simp only [Option.some.injEq, XNode.leaf.injEq] at h; exact absurd h.symm h1
            · cases h
  · constructor
    · intro h; cases h
    · rintro ⟨d, h, -⟩
      rw [hnode] at h
      split at h
      · simp at h
      · split at h <;> simp at h

theorem newPool_inv (hne : X.back.alg.zero ≠ X.back.alg.one) : Inv1 X (newPool X) := by
  refine ⟨⟨newPool_core hne, ?_⟩, ?_⟩ <;> rw [newPool_eq hne]
  · intro op a b r h; cases h
  · intro n r h; cases h

end

/-! ### An implementation by dictionaries -/

section
variable {K : Type} [Field K] [LinearOrder K] [IsStrictOrderedRing K]

/-- EXAMPLE: product of dictionaries. -/
def exTimes (a b : Dict) : Dict :=
  match dictTimes false a b with
  | .ok d => linMk d
  | .error _ => []

theorem exTimes_eval (a b : Dict) (ρ : String → K) : polyEval ρ (exTimes a b) = polyEval ρ a * polyEval ρ b := by
  obtain ⟨d, hd⟩ := dictTimes_false a b
  unfold exTimes
  rw [hd]
  simp only
  rw [polyEval_linMk, polyEval_dictTimes ρ hd]

/-- EXAMPLE: sum of dictionaries. -/
def exPlus (a b : Dict) : Dict := linMk (dictPlus a b)

theorem exPlus_eval (a b : Dict) (ρ : String → K) : polyEval ρ (exPlus a b) = polyEval ρ a + polyEval ρ b := by
  rw [exPlus, polyEval_linMk, polyEval_dictPlus]

/-- EXAMPLE: a constant. -/
def exReal (q : ℚ) : Dict := if q = 0 then [] else [([], q)]

theorem exReal_eval (q : ℚ) (ρ : String → K) : polyEval ρ (exReal q) = (q : K) := by
  unfold exReal
  split
  · rename_i h; subst h; simp
  · simp [polyEval, monoEval]

/-- EXAMPLE: a power. -/
def exPow (a : Dict) : ℕ → Dict
  | 0 => exReal 1
  | n + 1 => exTimes (exPow a n) a

theorem exPow_eval (a : Dict) (n : ℕ) (ρ : String → K) : polyEval ρ (exPow a n) = polyEval ρ a ^ n := by
  induction n with
  | zero => rw [exPow, exReal_eval]; simp
  | succ n ih => rw [exPow, exTimes_eval, ih, pow_succ]

/-- EXAMPLE: the integral of one monomial. -/
def exIntMono (p : Mono × ℚ) (x : String) (l u : Dict) : Dict :=
  exTimes [(p.1.filter (· ≠ x), p.2 / ((p.1.count x : ℚ) + 1))]
    (exPlus (exPow u (p.1.count x + 1)) (exTimes (exReal (-1)) (exPow l (p.1.count x + 1))))

/-- EXAMPLE: the integral of a dictionary. -/
def exInt (d : Dict) (x : String) (l u : Dict) : Dict :=
  match d with
  | [] => []
  | p :: d => exPlus (exIntMono p x l u) (exInt d x l u)

theorem monoEval_upd (k : Mono) (x : String) (ρ : String → K) (t : K) :
    monoEval (upd ρ x t) k = t ^ k.count x * monoEval ρ (k.filter (· ≠ x)) := by
  induction k with
  | nil => simp [monoEval]
  | cons y k ih =>
    simp only [monoEval, List.map_cons, List.prod_cons] at ih ⊢
    rw [ih]
    by_cases h : y = x
    · subst h
      simp [upd, pow_succ]; ring
    · have : (y == x) = false := by simpa using h
      simp [upd, h, List.count_cons, this]; ring

end

/-- EXAMPLE: dictionaries as the algebra of a pool. -/
def exBack : Back Dict where
  alg := ⟨exReal, fun x => [([x], 1)], exTimes, exPlus, fun a => exTimes (exReal (-1)) a, fun a _ => a, fun a _ => a⟩
  flat := linMk
  isOne e := .ok (decide (e = [([], 1)]))
  isZero e := .ok (decide (e = []))
  integratePoly := exInt
  toFloat e := .ok (polyEval (fun _ => 0) e)

theorem polyEval_poly (d : Dict) (x : String) (ρ : String → ℝ) : ∃ P : Polynomial ℝ, ∀ t, polyEval (upd ρ x t) d = P.eval t := by
  induction d with
  | nil => exact ⟨0, fun t => by simp⟩
  | cons p d ih =>
    obtain ⟨P, hP⟩ := ih
    refine ⟨Polynomial.C ((p.2 : ℝ) * monoEval ρ (p.1.filter (· ≠ x))) * Polynomial.X ^ p.1.count x + P, fun t => ?_⟩
    rw [polyEval_cons, hP, monoEval_upd]
    simp; ring

theorem polyEval_cont (d : Dict) : Continuous fun ρ : String → ℝ => polyEval ρ d := by
  have hm : ∀ k : Mono, Continuous fun ρ : String → ℝ => monoEval ρ k := by
    intro k
    induction k with
    | nil => simp only [monoEval, List.map_nil, List.prod_nil]; exact continuous_const
    | cons y k ih =>
      simp only [monoEval, List.map_cons, List.prod_cons] at ih ⊢
      exact (continuous_apply y).mul ih
  induction d with
  | nil => simp only [polyEval_nil]; exact continuous_const
  | cons p d ih =>
    simp only [polyEval_cons]
    exact (continuous_const.mul (hm p.1)).add ih

theorem exInt_eval (d : Dict) (x : String) (l u : Dict) (ρ : String → ℝ) :
    polyEval ρ (exInt d x l u) = ∫ t in (polyEval ρ l)..(polyEval ρ u), polyEval (upd ρ x t) d := by
  induction d with
  | nil => simp [exInt]
  | cons p d ih =>
    have hc : Continuous fun t : ℝ => upd ρ x t := by
      refine continuous_pi fun y => ?_
      by_cases h : y = x
      · simp only [upd, h, if_true]; exact continuous_id
      · simp only [upd, h, if_false]; exact continuous_const
    have h1 : IntervalIntegrable (fun t : ℝ => polyEval (upd ρ x t) d) volume (polyEval ρ l) (polyEval ρ u) :=
      ((polyEval_cont d).comp hc).intervalIntegrable _ _
    have h2 : ∀ t : ℝ, (p.2 : ℝ) * monoEval (upd ρ x t) p.1 =
        ((p.2 : ℝ) * monoEval ρ (p.1.filter (· ≠ x))) * t ^ p.1.count x := by
      intro t; rw [monoEval_upd]; ring
    have h3 : IntervalIntegrable (fun t : ℝ => (p.2 : ℝ) * monoEval (upd ρ x t) p.1) volume (polyEval ρ l) (polyEval ρ u) := by
      simp only [h2]
      exact (continuous_const.mul (continuous_pow _)).intervalIntegrable _ _
    simp only [polyEval_cons]
    rw [intervalIntegral.integral_add h3 h1, exInt, exPlus_eval, ih]
    congr 1
    simp only [h2]
    rw [intervalIntegral.integral_const_mul, integral_pow, exIntMono, exTimes_eval, exPlus_eval, exTimes_eval, exPow_eval, exPow_eval,
      exReal_eval]
    simp only [polyEval_cons, polyEval_nil, add_zero]
    push_cast
    ring

theorem polyEval_rat (d : Dict) : ((polyEval (fun _ => (0 : ℚ)) d : ℚ) : ℝ) = polyEval (fun _ => (0 : ℝ)) d := by
  have hm : ∀ k : Mono, ((monoEval (fun _ => (0 : ℚ)) k : ℚ) : ℝ) = monoEval (fun _ => (0 : ℝ)) k := by
    intro k
    induction k with
    | nil => simp [monoEval]
    | cons y k ih => simp [monoEval]
  induction d with
  | nil => simp
  | cons p d ih => rw [polyEval_cons, polyEval_cons, ← ih, ← hm]; push_cast; ring

/-- The laws have a model: the dictionaries meet them. -/
theorem exBack_law : BackLaw exBack (fun e ρ => polyEval ρ e) where
  real q ρ := exReal_eval q ρ
  symbol n ρ := by simp [exBack, polyEval, monoEval]
  times a b ρ := exTimes_eval a b ρ
  plus a b ρ := exPlus_eval a b ρ
  flat a ρ := polyEval_linMk ρ a
  oneOne := by decide +kernel
  oneZero := by decide +kernel
  zeroZero := by decide +kernel
  isOne e h ρ := by
    simp only [exBack, Except.ok.injEq, decide_eq_true_eq] at h
    subst h; simp [polyEval, monoEval]
  isZero e h ρ := by
    simp only [exBack, Except.ok.injEq, decide_eq_true_eq] at h
    subst h; simp
  poly := polyEval_poly
  cont := polyEval_cont
  integrate e x l u ρ _ _ := exInt_eval e x l u ρ
  toFloat e c h := ⟨_, rfl, by rw [polyEval_rat]; exact h _⟩

/-! ### A simplifier and a solver that meet the laws -/

/-- EXAMPLE: no symbols. -/
def exClosed (l : Formula) : Bool := linTerm l && (syms l).isEmpty

/-- EXAMPLE: a linear term without symbols is replaced by its value. -/
def exSimpTerm (l : Formula) : Formula :=
  if exClosed l then .realC (value (K := ℚ) ⟨fun _ => false, fun _ => 0⟩ l) else l

/-- EXAMPLE: simplification by evaluating closed linear terms and comparisons of them. -/
def exSimp : Formula → Formula
  | .le l r => if exClosed l && exClosed r then .boolC (decide (value (K := ℚ) ⟨fun _ => false, fun _ => 0⟩ l ≤ value (K := ℚ) ⟨fun _ => false, fun _ => 0⟩ r))
    else .le (exSimpTerm l) (exSimpTerm r)
  | .lt l r => if exClosed l && exClosed r then .boolC (decide (value (K := ℚ) ⟨fun _ => false, fun _ => 0⟩ l < value (K := ℚ) ⟨fun _ => false, fun _ => 0⟩ r))
    else .lt (exSimpTerm l) (exSimpTerm r)
  | f => exSimpTerm f

theorem exClosed_value {l : Formula} (h : exClosed l = true) (σ : Env ℝ) :
    value σ l = ((value (K := ℚ) ⟨fun _ => false, fun _ => 0⟩ l : ℚ) : ℝ) := by
  simp only [exClosed, Bool.and_eq_true, List.isEmpty_iff] at h
  obtain ⟨hl, hs⟩ := h
  obtain ⟨d, hd⟩ := mathDict_lin_ok l hl
  have hw := lin_wt hl
  have h1 := (mathDict_sound (K := ℝ) true l hw (Or.inl rfl) d hd).eval ⟨fun _ => false, fun _ => 0⟩
  have h2 := (mathDict_sound (K := ℚ) true l hw (Or.inl rfl) d hd).eval ⟨fun _ => false, fun _ => 0⟩
  have h3 : value σ l = value (⟨fun _ => false, fun _ => 0⟩ : Env ℝ) l := value_congr hw (by rw [hs]; simp)
  rw [h3, ← h1, ← h2, polyEval_rat]

theorem exSimpTerm_value (l : Formula) (σ : Env ℝ) : value σ (exSimpTerm l) = value σ l := by
  unfold exSimpTerm
  split
  · rename_i h; rw [exClosed_value h σ, value]
  · rfl

theorem exSimpTerm_syms (l : Formula) : ∀ p ∈ syms (exSimpTerm l), p ∈ syms l := by
  unfold exSimpTerm
  split
  · intro p hp; simp [syms] at hp
  · exact fun _ h => h

theorem exSimp_law : SimpLaw exSimp := by
  refine ⟨?_, ?_, ?_, ?_, ?_, ?_, ?_, ?_⟩
  · intro f hw σ
    have hterm : ∀ f, wt .bool f = true → truth σ (exSimpTerm f) = truth σ f := by
      intro f hw
      unfold exSimpTerm
      split
      · rename_i h
        simp only [exClosed, Bool.and_eq_true] at h
        cases f <;> simp [linTerm, wt] at h hw
        rename_i n t
        cases t <;> simp [linTerm] at h hw
      · rfl
    unfold exSimp
    split
    · split
      · rename_i h
        simp only [Bool.and_eq_true] at h
        rw [truth, truth, exClosed_value h.1 σ, exClosed_value h.2 σ]
        simp
      · rw [truth, truth, exSimpTerm_value, exSimpTerm_value]
    · split
      · rename_i h
        simp only [Bool.and_eq_true] at h
        rw [truth, truth, exClosed_value h.1 σ, exClosed_value h.2 σ]
        simp
      · rw [truth, truth, exSimpTerm_value, exSimpTerm_value]
    · exact hterm _ hw
  · intro f hw σ
    unfold exSimp
    split
    · simp [wt] at hw
    · simp [wt] at hw
    · exact exSimpTerm_value _ σ
  · intro f p hp
    unfold exSimp at hp
    split at hp
    · split at hp
      · simp [syms] at hp
      · simp only [syms, List.mem_append] at hp ⊢
        exact hp.imp (exSimpTerm_syms _ p) (exSimpTerm_syms _ p)
    · split at hp
      · simp [syms] at hp
      · simp only [syms, List.mem_append] at hp ⊢
        exact hp.imp (exSimpTerm_syms _ p) (exSimpTerm_syms _ p)
    · exact exSimpTerm_syms _ p hp
  · intro b; simp [exSimp, exSimpTerm, exClosed, linTerm]
  · intro b; simp [exSimp, exSimpTerm, exClosed, linTerm]
  · intro a b; simp only [exSimp, exClosed, linTerm, syms, value]; rfl
  · intro l hl
    have : exSimp l = exSimpTerm l := by
      cases l <;> first | rfl | simp [linTerm] at hl
    rw [this]
    unfold exSimpTerm
    split
    · rfl
    · exact hl
  · intro l r hl hr
    have h1 : ∀ l, linTerm l = true → exSimp l = exSimpTerm l := by
      intro l hl
      cases l <;> first | rfl | simp [linTerm] at hl
    rw [h1 l hl, h1 r hr]
    simp only [exSimp]
    split
    · exact Or.inl ⟨_, rfl⟩
    · exact Or.inr rfl

/-- EXAMPLE: a solver that notices a formula and its negation. -/
def exSolve (fs : List Formula) : Bool := !(fs.any fun f => decide (f = .boolC false) || fs.any fun g => decide (g = mkNot f))

theorem exSolve_law : SolveLaw exSolve := by
  intro fs h σ hall
  simp only [exSolve, Bool.not_eq_false', List.any_eq_true, Bool.or_eq_true, decide_eq_true_eq] at h
  obtain ⟨f, hf, h | ⟨g, hg, rfl⟩⟩ := h
  · have := hall f hf
    rw [h, truth] at this; cases this
  · have h1 := hall f hf
    have h2 := hall _ hg
    rw [truth_mkNot, h1] at h2; cases h2

/-- EXAMPLE: a pool's surroundings that meet all laws. -/
def exCtx : XCtx Dict := ⟨exBack, exSimp, exSolve⟩

end Pywmi
