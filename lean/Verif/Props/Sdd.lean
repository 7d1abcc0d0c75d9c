import Verif.Xsdd.Sdd
import Mathlib.Algebra.BigOperators.Ring.Finset
import Mathlib.Algebra.BigOperators.Group.Finset.Powerset
import Mathlib.Algebra.Ring.BooleanRing
import Mathlib.Tactic.Ring
import Mathlib.Tactic.LinearCombination
import Mathlib.Data.Rat.Cast.CharZero

set_option linter.unusedSectionVars false
set_option linter.unusedSimpArgs false

/-!
# SDD traversal (C39)
-/

namespace Pywmi

/-! ### Specification -/

namespace Sdd

mutual
/-- SPEC: the truth value of an SDD under an assignment of the variable numbers. -/
def eval (β : ℕ → Bool) : Sdd → Bool
  | .tt => true
  | .ff => false
  | .lit l => if l < 0 then !β l.natAbs else β l.natAbs
  | .dec es => evalAny β es
/-- SPEC: some element holds. -/
def evalAny (β : ℕ → Bool) : List (Sdd × Sdd) → Bool
  | [] => false
  | (p, s) :: es => (eval β p && eval β s) || evalAny β es
end

theorem evalAny_eq (β : ℕ → Bool) (es : List (Sdd × Sdd)) : evalAny β es = es.any fun e => eval β e.1 && eval β e.2 := by
  induction es with
  | nil => rfl
  | cons e es ih => obtain ⟨p, s⟩ := e; simp [evalAny, ih]

mutual
/-- SPEC: the variables of an SDD. -/
def vars : Sdd → Finset ℕ
  | .tt => ∅
  | .ff => ∅
  | .lit l => {l.natAbs}
  | .dec es => varsList es
/-- SPEC: the variables of the elements. -/
def varsList : List (Sdd × Sdd) → Finset ℕ
  | [] => ∅
  | (p, s) :: es => vars p ∪ vars s ∪ varsList es
end

theorem mem_varsList {n : ℕ} {es : List (Sdd × Sdd)} : n ∈ varsList es ↔ ∃ e ∈ es, n ∈ e.1.vars ∨ n ∈ e.2.vars := by
  induction es with
  | nil => simp [varsList]
  | cons e es ih => obtain ⟨p, s⟩ := e; simp [varsList, ih, or_assoc]

theorem vars_mem {es : List (Sdd × Sdd)} {e : Sdd × Sdd} (h : e ∈ es) :
    e.1.vars ⊆ (dec es).vars ∧ e.2.vars ⊆ (dec es).vars := by
  constructor
  · intro n hn; exact mem_varsList.mpr ⟨e, h, .inl hn⟩
  · intro n hn; exact mem_varsList.mpr ⟨e, h, .inr hn⟩

/-- SPEC: the structural properties of an SDD over some vtree that the traversal relies on: literals are non-zero, in
every element prime and sub share no variable, and distinct primes exclude each other. -/
inductive WF : Sdd → Prop where
  | tt : WF .tt
  | ff : WF .ff
  | lit (l : ℤ) : l ≠ 0 → WF (.lit l)
  | dec (es : List (Sdd × Sdd)) : (∀ e ∈ es, WF e.1) → (∀ e ∈ es, WF e.2) → (∀ e ∈ es, Disjoint e.1.vars e.2.vars) →
      (es.Pairwise fun e f => ∀ β, ¬(e.1.eval β = true ∧ f.1.eval β = true)) → WF (.dec es)

theorem eval_congr {β γ : ℕ → Bool} (s : Sdd) : (∀ n ∈ s.vars, β n = γ n) → s.eval β = s.eval γ := by
  induction s using Sdd.induct with
  | tt => intro _; rfl
  | ff => intro _; rfl
  | lit l => intro h; simp [eval, h l.natAbs (by simp [vars])]
  | dec es ih =>
    intro h
    simp only [eval, evalAny_eq]
    have : ∀ e ∈ es, (eval β e.1 && eval β e.2) = (eval γ e.1 && eval γ e.2) := fun e he => by
      rw [(ih e he).1 fun n hn => h n ((vars_mem he).1 hn), (ih e he).2 fun n hn => h n ((vars_mem he).2 hn)]
    exact Bool.eq_iff_iff.mpr (by
      simp only [List.any_eq_true]
      exact ⟨fun ⟨e, he, h⟩ => ⟨e, he, this e he ▸ h⟩, fun ⟨e, he, h⟩ => ⟨e, he, (this e he).symm ▸ h⟩⟩)

end Sdd

/-! ### The traversal without the dictionary -/

namespace SddWalker
variable {R : Type}

/-- Left-to-right results of all pairs. -/
def pairsE (g : Sdd → Except PyErr R) : List (Sdd × Sdd) → Except PyErr (List (R × R))
  | [] => .ok []
  | (p, s) :: es =>
    match g p with
    | .error e => .error e
    | .ok a =>
      match g s with
      | .error e => .error e
      | .ok b =>
        match pairsE g es with
        | .error e => .error e
        | .ok rs => .ok ((a, b) :: rs)

theorem interp_callPairs (g : Sdd → Except PyErr R) (es : List (Sdd × Sdd)) (k : List (R × R) → Prog Sdd R) :
    (callPairs es k).interp g = match pairsE g es with | .ok rs => (k rs).interp g | .error e => .error e := by
  induction es generalizing k with
  | nil => rfl
  | cons e es ih =>
    obtain ⟨p, s⟩ := e
    simp only [callPairs, Prog.interp, pairsE]
    cases g p with
    | error e => rfl
    | ok a =>
      cases g s with
      | error e => rfl
      | ok b =>
        simp only [ih]
        cases pairsE g es <;> rfl

theorem callsBelow_callPairs {n : ℕ} {es : List (Sdd × Sdd)} {k : List (R × R) → Prog Sdd R}
    (h : ∀ e ∈ es, e.1.size < n ∧ e.2.size < n) (hk : ∀ rs, (k rs).CallsBelow Sdd.size n) :
    (callPairs es k).CallsBelow Sdd.size n := by
  induction es generalizing k with
  | nil => exact hk []
  | cons e es ih =>
    obtain ⟨p, s⟩ := e
    exact ⟨(h (p, s) (by simp)).1, fun a => ⟨(h (p, s) (by simp)).2, fun b =>
      ih (fun x hx => h x (by simp [hx])) fun rs => hk _⟩⟩

theorem body_decr (w : SddWalker R) : Decreasing w.body Sdd.size := by
  intro s
  cases s with
  | tt => exact Prog.callsBelow_ofExcept ..
  | ff => exact Prog.callsBelow_ofExcept ..
  | lit l => exact Prog.callsBelow_ofExcept ..
  | dec es => exact callsBelow_callPairs (fun e he => Sdd.size_mem he) fun rs => Prog.callsBelow_ofExcept ..

/-- The dictionary of node results changes nothing: the traversal is the plain recursion over the diagram. -/
theorem walk_eq (w : SddWalker R) (s : Sdd) : w.walk s = (w.body s).interp w.walk := by
  have key : ∀ s, w.walk s = walkOn w.body Sdd.size s := fun s =>
    (crun_sound (body_decr w) (key := id) (fun i j h => by rw [show i = j from h]) _ s [] (Nat.lt_succ_self _)
      (fun i r h => by simp [List.lookup] at h)).1
  rw [key, walkOn_eq (body_decr w), show w.walk = walkOn w.body Sdd.size from funext key]

@[simp] theorem walk_tt (w : SddWalker R) : w.walk .tt = w.onTrue := by rw [walk_eq]; simp [body]
@[simp] theorem walk_ff (w : SddWalker R) : w.walk .ff = w.onFalse := by rw [walk_eq]; simp [body]
@[simp] theorem walk_lit (w : SddWalker R) (l : ℤ) : w.walk (.lit l) = w.onLit l := by rw [walk_eq]; simp [body]

theorem walk_dec (w : SddWalker R) (es : List (Sdd × Sdd)) :
    w.walk (.dec es) = match pairsE w.walk es with | .ok rs => w.combine rs | .error e => .error e := by
  rw [walk_eq]
  simp only [body, interp_callPairs]
  cases pairsE w.walk es <;> simp

theorem pairsE_rel {g : Sdd → Except PyErr R} {P : Sdd → R → Prop} {es : List (Sdd × Sdd)}
    (h : ∀ e ∈ es, (∃ r, g e.1 = .ok r ∧ P e.1 r) ∧ ∃ r, g e.2 = .ok r ∧ P e.2 r) :
    ∃ rs, pairsE g es = .ok rs ∧ List.Forall₂ (fun e r => P e.1 r.1 ∧ P e.2 r.2) es rs := by
  induction es with
  | nil => exact ⟨[], rfl, .nil⟩
  | cons e es ih =>
    obtain ⟨p, s⟩ := e
    obtain ⟨⟨a, ha, pa⟩, b, hb, pb⟩ := h (p, s) (by simp)
    obtain ⟨rs, hrs, hf⟩ := ih fun x hx => h x (by simp [hx])
    simp only at ha hb
    exact ⟨(a, b) :: rs, by simp [pairsE, ha, hb, hrs], .cons ⟨pa, pb⟩ hf⟩

/-- Induction principle: a relation between nodes and results that every method preserves holds for the traversal. -/
theorem walk_rel {w : SddWalker R} {P : Sdd → R → Prop} (X : ℕ → Prop)
    (htt : ∃ r, w.onTrue = .ok r ∧ P .tt r) (hff : ∃ r, w.onFalse = .ok r ∧ P .ff r)
    (hlit : ∀ l : ℤ, l ≠ 0 → X l.natAbs → ∃ r, w.onLit l = .ok r ∧ P (.lit l) r)
    (hdec : ∀ es rs, Sdd.WF (.dec es) → (∀ n ∈ (Sdd.dec es).vars, X n) →
      List.Forall₂ (fun e r => P e.1 r.1 ∧ P e.2 r.2) es rs →
      ∃ r, w.combine rs = .ok r ∧ P (.dec es) r) {s : Sdd} (hs : s.WF) (hX : ∀ n ∈ s.vars, X n) :
    ∃ r, w.walk s = .ok r ∧ P s r := by
  induction s using Sdd.induct with
  | tt => simpa using htt
  | ff => simpa using hff
  | lit l => cases hs with | lit _ h => simpa using hlit l h (hX _ (by simp [Sdd.vars]))
  | dec es ih =>
    have hs' := hs
    cases hs with
    | dec _ h1 h2 h3 h4 =>
      obtain ⟨rs, hrs, hf⟩ := pairsE_rel (g := w.walk) (P := P) fun e he =>
        ⟨(ih e he).1 (h1 e he) fun n hn => hX n ((Sdd.vars_mem he).1 hn),
          (ih e he).2 (h2 e he) fun n hn => hX n ((Sdd.vars_mem he).2 hn)⟩
      obtain ⟨r, hr, hp⟩ := hdec es rs hs' hX hf
      exact ⟨r, by rw [walk_dec, hrs]; exact hr, hp⟩

end SddWalker

/-! ### Sums over assignments -/

section Expect
variable {K : Type} [CommRing K] {ι : Type} [DecidableEq ι]

/-- SPEC: the sum over all assignments of the variables in `V` of the product of the weights of the literals (`w i` for
true, `1 - w i` for false) times the value of `φ`. -/
def expect (V : Finset ι) (w : ι → K) (φ : (ι → Bool) → K) : K :=
  ∑ S ∈ V.powerset, ((∏ i ∈ S, w i) * ∏ i ∈ V \ S, (1 - w i)) * φ fun i => decide (i ∈ S)

theorem expect_insert {V : Finset ι} {v : ι} (hv : v ∉ V) (w : ι → K) (φ : (ι → Bool) → K) :
    expect (insert v V) w φ = w v * expect V w (fun β => φ (Function.update β v true)) +
      (1 - w v) * expect V w (fun β => φ (Function.update β v false)) := by
  unfold expect
  rw [Finset.sum_powerset_insert hv, Finset.mul_sum, Finset.mul_sum, add_comm]
  congr 1
  · refine Finset.sum_congr rfl fun S hS => ?_
    have hvS : v ∉ S := fun h => hv (Finset.mem_powerset.mp hS h)
    rw [Finset.prod_insert hvS, show insert v V \ insert v S = V \ S by ext i; simp; grind]
    have : (fun i => decide (i ∈ insert v S)) = Function.update (fun i => decide (i ∈ S)) v true := by
      funext i
      by_cases hi : i = v
      · subst hi; simp
      · simp [hi]
    rw [this]; ring
  · refine Finset.sum_congr rfl fun S hS => ?_
    have hvS : v ∉ S := fun h => hv (Finset.mem_powerset.mp hS h)
    rw [show insert v V \ S = insert v (V \ S) by ext i; simp; grind,
      Finset.prod_insert (by simp [hv])]
    have : (fun i => decide (i ∈ S)) = Function.update (fun i => decide (i ∈ S)) v false := by
      funext i
      by_cases hi : i = v
      · subst hi; simp [hvS]
      · simp [hi]
    conv_lhs => rw [this]
    ring

theorem expect_empty (w : ι → K) (φ : (ι → Bool) → K) : expect ∅ w φ = φ fun _ => false := by simp [expect]

theorem expect_add (V : Finset ι) (w : ι → K) (φ ψ : (ι → Bool) → K) :
    expect V w (fun β => φ β + ψ β) = expect V w φ + expect V w ψ := by
  unfold expect; rw [← Finset.sum_add_distrib]; exact Finset.sum_congr rfl fun S _ => by ring

theorem expect_const (V : Finset ι) (w : ι → K) (c : K) : expect V w (fun _ => c) = c := by
  induction V using Finset.induction_on with
  | empty => rw [expect_empty]
  | insert v V hv ih => rw [expect_insert hv, ih]; ring

theorem expect_sub (V : Finset ι) (w : ι → K) (φ ψ : (ι → Bool) → K) :
    expect V w (fun β => φ β - ψ β) = expect V w φ - expect V w ψ := by
  unfold expect; rw [← Finset.sum_sub_distrib]; exact Finset.sum_congr rfl fun S _ => by ring

/-- SPEC: the function looks only at the variables in `A`. -/
def DependsOn' {M : Type} (φ : (ι → Bool) → M) (A : Finset ι) : Prop := ∀ β γ, (∀ i ∈ A, β i = γ i) → φ β = φ γ

theorem DependsOn'.update {M : Type} {φ : (ι → Bool) → M} {A : Finset ι} (h : DependsOn' φ A) (v : ι) (b : Bool) :
    DependsOn' (fun β => φ (Function.update β v b)) A := fun β γ e => h _ _ fun i hi => by
  by_cases hv : i = v
  · subst hv; simp
  · simp [hv, e i hi]

theorem DependsOn'.update_eq {M : Type} {φ : (ι → Bool) → M} {A : Finset ι} (h : DependsOn' φ A) {v : ι} (hv : v ∉ A)
    (b : Bool) : (fun β => φ (Function.update β v b)) = φ := by
  funext β
  refine h _ _ fun i hi => ?_
  have : i ≠ v := fun e => hv (e ▸ hi)
  simp [this]

/-- Functions of disjoint variables are independent. -/
theorem expect_mul {A B : Finset ι} (hd : Disjoint A B) (V : Finset ι) (w : ι → K) : ∀ (φ ψ : (ι → Bool) → K),
    DependsOn' φ A → DependsOn' ψ B → expect V w (fun β => φ β * ψ β) = expect V w φ * expect V w ψ := by
  induction V using Finset.induction_on with
  | empty => intro φ ψ _ _; simp [expect_empty]
  | insert v V hv ih =>
    intro φ ψ hA hB
    rw [expect_insert hv, expect_insert hv w φ, expect_insert hv w ψ, ih _ _ (hA.update v true) (hB.update v true),
      ih _ _ (hA.update v false) (hB.update v false)]
    by_cases hvA : v ∈ A
    · have hvB : v ∉ B := Finset.disjoint_left.mp hd hvA
      rw [hB.update_eq hvB, hB.update_eq hvB]; ring
    · rw [hA.update_eq hvA, hA.update_eq hvA]; ring

/-- SPEC: 1 for true and 0 for false. -/
def ind (b : Bool) : K := if b then 1 else 0

@[simp] theorem ind_true : (ind true : K) = 1 := rfl
@[simp] theorem ind_false : (ind false : K) = 0 := rfl
theorem ind_and (a b : Bool) : (ind (a && b) : K) = ind a * ind b := by cases a <;> cases b <;> simp
theorem ind_not (a : Bool) : (ind (!a) : K) = 1 - ind a := by cases a <;> simp

end Expect

namespace Sdd
variable {K : Type} [CommRing K]

mutual
/-- The value of the diagram as an arithmetic circuit. -/
def circuit (w : ℕ → K) : Sdd → K
  | .tt => 1
  | .ff => 0
  | .lit l => if l < 0 then 1 - w l.natAbs else w l.natAbs
  | .dec es => circuitSum w es
/-- The sum over the elements. -/
def circuitSum (w : ℕ → K) : List (Sdd × Sdd) → K
  | [] => 0
  | (p, s) :: es => circuit w p * circuit w s + circuitSum w es
end

theorem circuitSum_eq (w : ℕ → K) (es : List (Sdd × Sdd)) :
    circuitSum w es = (es.map fun e => circuit w e.1 * circuit w e.2).sum := by
  induction es with
  | nil => rfl
  | cons e es ih => obtain ⟨p, s⟩ := e; simp [circuitSum, ih]

theorem circuit_congr {v w : ℕ → K} (s : Sdd) : (∀ n ∈ s.vars, v n = w n) → s.circuit v = s.circuit w := by
  induction s using Sdd.induct with
  | tt => intro _; rfl
  | ff => intro _; rfl
  | lit l => intro h; simp [circuit, h l.natAbs (by simp [vars])]
  | dec es ih =>
    intro h
    simp only [circuit, circuitSum_eq]
    refine congrArg _ (List.map_congr_left fun e he => ?_)
    rw [(ih e he).1 fun n hn => h n ((vars_mem he).1 hn), (ih e he).2 fun n hn => h n ((vars_mem he).2 hn)]

theorem ind_evalAny {β : ℕ → Bool} {es : List (Sdd × Sdd)}
    (h : es.Pairwise fun e f => ∀ β, ¬(e.1.eval β = true ∧ f.1.eval β = true)) :
    (ind (evalAny β es) : K) = (es.map fun e => ind (e.1.eval β) * ind (e.2.eval β)).sum := by
  induction es with
  | nil => rfl
  | cons e es ih =>
    obtain ⟨p, s⟩ := e
    obtain ⟨h1, h2⟩ := List.pairwise_cons.mp h
    simp only [evalAny, List.map_cons, List.sum_cons, ← ih h2]
    by_cases hp : p.eval β = true
    · have : evalAny β es = false := by
        rw [evalAny_eq, List.any_eq_false]
        intro f hf
        have := h1 f hf β
        simp only [hp, true_and, Bool.not_eq_true] at this
        simp [this]
      simp [hp, this]
    · simp [hp]

section
variable {ι : Type} [DecidableEq ι]

theorem eval_dependsOn {γ : (ι → Bool) → ℕ → Bool} {dep : ℕ → Finset ι} (hdep : ∀ n, DependsOn' (fun β => γ β n) (dep n))
    (s : Sdd) : DependsOn' (fun β => (ind (s.eval (γ β)) : K)) (s.vars.biUnion dep) := by
  intro β β' h
  show (ind (s.eval (γ β)) : K) = ind (s.eval (γ β'))
  rw [eval_congr s fun n hn => hdep n β β' fun i hi => h i (Finset.mem_biUnion.mpr ⟨n, hn, hi⟩)]

/-- The sum over all assignments of the indicator of an SDD is the value of its circuit at the sums of the indicators of
its variables, when the variables depend on disjoint parts of the assignment. -/
theorem expect_eval {V : Finset ι} {w : ι → K} {γ : (ι → Bool) → ℕ → Bool} {dep : ℕ → Finset ι}
    (hdep : ∀ n, DependsOn' (fun β => γ β n) (dep n)) (hdis : ∀ m n, m ≠ n → Disjoint (dep m) (dep n)) {s : Sdd}
    (hs : s.WF) : expect V w (fun β => ind (s.eval (γ β))) = s.circuit fun n => expect V w fun β => ind (γ β n) := by
  induction s using Sdd.induct with
  | tt => simp only [eval, circuit, ind_true, expect_const]
  | ff => simp only [eval, circuit, ind_false, expect_const]
  | lit l =>
    simp only [eval, circuit]
    split
    · simp only [ind_not, expect_sub, expect_const]
    · rfl
  | dec es ih =>
    cases hs with
    | dec _ h1 h2 h3 h4 =>
      simp only [eval, circuit, circuitSum_eq, ind_evalAny h4]
      clear h4
      induction es with
      | nil => simp [expect_const]
      | cons e es ih' =>
        simp only [List.map_cons, List.sum_cons, expect_add]
        rw [ih' (fun x hx => ih x (by simp [hx])) (fun x hx => h1 x (by simp [hx])) (fun x hx => h2 x (by simp [hx]))
          (fun x hx => h3 x (by simp [hx]))]
        congr 1
        rw [expect_mul (A := e.1.vars.biUnion dep) (B := e.2.vars.biUnion dep) ?_ V w _ _ (eval_dependsOn hdep _)
          (eval_dependsOn hdep _), (ih e (by simp)).1 (h1 e (by simp)), (ih e (by simp)).2 (h2 e (by simp))]
        rw [Finset.disjoint_biUnion_left]
        intro m hm
        rw [Finset.disjoint_biUnion_right]
        intro n hn
        refine hdis m n ?_
        rintro rfl
        exact Finset.disjoint_left.mp (h3 e (by simp)) hm hn

end
end Sdd

/-! ### Weighted model counting -/

section
variable {K : Type} [CommRing K]

theorem wmcSemi_sumFrom (weights : ℕ → Option K) (r : K) (xs : List K) :
    (wmcSemi weights).sumFrom r xs = .ok (r + xs.sum) := by
  induction xs generalizing r with
  | nil => simp [Semi.sumFrom]
  | cons x xs ih => simp only [Semi.sumFrom, wmcSemi] at ih ⊢; rw [ih]; simp [add_assoc]

theorem wmcSemi_onOr (weights : ℕ → Option K) (xs : List K) : (wmcSemi weights).walker.onOr xs = .ok xs.sum := by
  match xs with
  | [] => rfl
  | [r] => simp [Semi.walker]
  | r :: s :: xs => simp only [Semi.walker, wmcSemi_sumFrom]; simp

theorem wmcSemi_combine (weights : ℕ → Option K) (rs : List (K × K)) :
    (wmcSemi weights).walker.combine rs = .ok (rs.map fun p => p.1 * p.2).sum := by
  have : Prog.mapE (fun p : K × K => (wmcSemi weights).walker.onAnd p.1 p.2) rs = .ok (rs.map fun p => p.1 * p.2) :=
    Prog.mapE_ok fun p _ => rfl
  unfold SddWalker.combine
  rw [this]
  exact wmcSemi_onOr weights _

theorem circuit_dec {w : ℕ → K} {es : List (Sdd × Sdd)} {rs : List (K × K)}
    (h : List.Forall₂ (fun e r => r.1 = e.1.circuit w ∧ r.2 = e.2.circuit w) es rs) :
    (rs.map fun p => p.1 * p.2).sum = (Sdd.dec es).circuit w := by
  simp only [Sdd.circuit, Sdd.circuitSum_eq]
  induction h with
  | nil => rfl
  | cons h _ ih => simp [h.1, h.2, ih]

/-- Singleton weights: the sum of the indicator of one variable is its weight. -/
theorem expect_var {ι : Type} [DecidableEq ι] {V : Finset ι} (w : ι → K) {i : ι} (hi : i ∈ V) :
    expect V w (fun β => ind (β i)) = w i := by
  rw [← Finset.insert_erase hi, expect_insert (Finset.notMem_erase i V)]
  simp [expect_const]

/-- **C39**: traversing an SDD with the weighted-model-counting semiring gives the sum over all assignments that satisfy
the SDD of the product of the literal weights, for every set `V` of variables containing those of the SDD, smooth or
not. -/
theorem amc_wmc (weights : ℕ → Option K) (w : ℕ → K) {s : Sdd} (hs : s.WF) {V : Finset ℕ} (hV : s.vars ⊆ V)
    (hw : ∀ n ∈ s.vars, weights n = some (w n)) :
    (wmcSemi weights).amc s = .ok (∑ S ∈ V.powerset,
      if s.eval (fun n => decide (n ∈ S)) then (∏ n ∈ S, w n) * ∏ n ∈ V \ S, (1 - w n) else 0) := by
  obtain ⟨r, hr, he⟩ := SddWalker.walk_rel (w := (wmcSemi weights).walker) (P := fun s r => r = s.circuit w)
    (fun n => weights n = some (w n)) ⟨1, rfl, rfl⟩ ⟨0, rfl, rfl⟩
    (fun l _ h => by
      simp only [Semi.walker, wmcSemi, Semi.signed, h, Sdd.circuit]
      split <;> simp)
    (fun es rs _ _ hf => ⟨_, wmcSemi_combine weights rs, circuit_dec hf⟩) hs hw
  rw [Semi.amc, hr, he]
  congr 1
  have h1 := Sdd.expect_eval (K := K) (V := V) (w := w) (γ := fun β n => β n && decide (n ∈ V)) (dep := fun n => {n})
    (fun n β γ h => by simp [h n (by simp)]) (fun m n h => by simpa using h) hs
  have h2 : s.circuit w = s.circuit fun n => expect V w fun β => ind (β n && decide (n ∈ V)) := by
    refine Sdd.circuit_congr s fun n hn => ?_
    simp only [hV hn, decide_true, Bool.and_true]
    exact (expect_var w (hV hn)).symm
  rw [h2, ← h1, expect]
  refine Finset.sum_congr rfl fun S hS => ?_
  have : s.eval (fun n => decide (n ∈ S) && decide (n ∈ V)) = s.eval fun n => decide (n ∈ S) :=
    Sdd.eval_congr s fun n hn => by simp [hV hn]
  rw [this]
  by_cases h : s.eval (fun n => decide (n ∈ S)) = true <;> simp [h]

end

/-- A diagram that is not smooth: `(1 ∧ 2) ∨ (¬1 ∧ 3)`. -/
def sampleSdd : Sdd := .dec [(.lit 1, .lit 2), (.lit (-1), .lit 3)]

theorem sampleSdd_wf : sampleSdd.WF := by
  refine .dec _ ?_ ?_ ?_ ?_
  · simp only [List.mem_cons, List.not_mem_nil, or_false, forall_eq_or_imp, forall_eq]
    exact ⟨.lit _ (by decide), .lit _ (by decide)⟩
  · simp only [List.mem_cons, List.not_mem_nil, or_false, forall_eq_or_imp, forall_eq]
    exact ⟨.lit _ (by decide), .lit _ (by decide)⟩
  · decide
  · refine List.pairwise_pair.mpr fun β => ?_
    simp [Sdd.eval]

/-- The theorem applies to it, with missing variables in some branches. -/
example : (wmcSemi (K := ℚ) fun _ => some (1 / 3)).amc sampleSdd = .ok (1 / 3) := by decide +kernel

end Pywmi
