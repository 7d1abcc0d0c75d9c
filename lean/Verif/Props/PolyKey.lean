import Mathlib.Data.Set.Semiring
import Mathlib.Algebra.MvPolynomial.Eval
import Verif.Math.PolyKey
import Verif.Props.Piecewise

set_option linter.unusedSectionVars false
set_option linter.unusedSimpArgs false

/-!
# C99: polynomials as keys
-/

namespace Pywmi
open Prog Formula
open scoped Pointwise

/-! ## Helper lemmas -/

theorem mem_keys_plus {d1 d2 : Dict} {k : Mono} : k ∈ (dictPlus d1 d2).map (·.1) ↔ k ∈ d1.map (·.1) ∨ k ∈ d2.map (·.1) := by
  unfold dictPlus
  induction d2 generalizing d1 with
  | nil => simp
  | cons e d2 ih =>
    rw [List.foldl_cons, ih, dictAdd_keys_mem]
    simp only [List.map_cons, List.mem_cons]
    tauto

theorem mem_keys_row {k1 : Mono} {v1 : ℚ} {k : Mono} : ∀ {d2 acc out : Dict}, dictTimesRow false k1 v1 d2 acc = .ok out →
    (k ∈ out.map (·.1) ↔ k ∈ acc.map (·.1) ∨ ∃ k2 ∈ d2.map (·.1), k = sortNames (k1 ++ k2)) := by
  intro d2
  induction d2 with
  | nil => intro acc out h; simp only [dictTimesRow] at h; cases h; simp
  | cons e d2 ih =>
    intro acc out h
    obtain ⟨k2, v2⟩ := e
    simp only [dictTimesRow] at h
    rw [if_neg (by simp)] at h
    rw [ih h, dictAdd_keys_mem]
    simp only [List.map_cons, List.mem_cons, exists_eq_or_imp]
    tauto

theorem mem_keys_aux {d2 : Dict} {k : Mono} : ∀ {d1 acc out : Dict}, dictTimesAux false d1 d2 acc = .ok out →
    (k ∈ out.map (·.1) ↔ k ∈ acc.map (·.1) ∨ ∃ k1 ∈ d1.map (·.1), ∃ k2 ∈ d2.map (·.1), k = sortNames (k1 ++ k2)) := by
  intro d1
  induction d1 with
  | nil => intro acc out h; simp only [dictTimesAux] at h; cases h; simp
  | cons e d1 ih =>
    intro acc out h
    obtain ⟨k1, v1⟩ := e
    simp only [dictTimesAux] at h
    split at h
    · rename_i acc' ha
      rw [ih h, mem_keys_row ha]
      simp only [List.map_cons, List.mem_cons, exists_eq_or_imp, or_assoc]
    · cases h

theorem mem_keys_times {d1 d2 out : Dict} (h : polyMul d1 d2 = .ok out) {k : Mono} :
    k ∈ out.map (·.1) ↔ ∃ k1 ∈ d1.map (·.1), ∃ k2 ∈ d2.map (·.1), k = sortNames (k1 ++ k2) := by
  rw [mem_keys_aux h]; simp

/-- Equality of polynomials: the same coefficients and the same keys. -/
theorem polyEq_keys {p q : Dict} (hp : KeysNodup p) (hq : KeysNodup q) :
    polyEq p q = true ↔ SameCoeffs p q ∧ ∀ k, k ∈ p.map (·.1) ↔ k ∈ q.map (·.1) := by
  have lk : ∀ {a : Dict}, KeysNodup a → ∀ k, k ∈ a.map (·.1) → ∃ v, (k, v) ∈ a ∧ a.lookup k = some v := by
    intro a ha k hk
    obtain ⟨⟨k', v⟩, he, rfl⟩ := List.mem_map.mp hk
    exact ⟨v, he, lookup_of_mem ha he⟩
  have nk : ∀ {a : Dict} {k v}, a.lookup k = some v → k ∈ a.map (·.1) := fun h =>
    List.mem_map.mpr ⟨_, mem_of_lookup h, rfl⟩
  constructor
  · intro h
    have hperm := (polyEq_perm hp hq).mp h
    refine ⟨fun k => ?_, fun k => (hperm.map _).mem_iff⟩
    cases h1 : p.lookup k with
    | some v => rw [lookup_of_mem hq (hperm.mem_iff.mp (mem_of_lookup h1))]
    | none =>
      cases h2 : q.lookup k with
      | none => rfl
      | some v => rw [lookup_of_mem hp (hperm.mem_iff.mpr (mem_of_lookup h2))] at h1; cases h1
  · rintro ⟨hs, hk⟩
    simp only [polyEq, Bool.and_eq_true, List.all_eq_true, decide_eq_true_eq]
    have half : ∀ {a b : Dict}, KeysNodup a → KeysNodup b → SameCoeffs a b → (∀ k, k ∈ a.map (·.1) → k ∈ b.map (·.1)) →
        ∀ e ∈ a, b.lookup e.1 = some e.2 := by
      intro a b ha hb hs hk e he
      obtain ⟨v, _, hv⟩ := lk hb e.1 (hk _ (List.mem_map.mpr ⟨e, he, rfl⟩))
      have h1 := hs e.1
      rw [lookup_of_mem (k := e.1) (v := e.2) ha he, hv] at h1
      simp only [Option.getD_some] at h1
      rw [hv, h1]
    exact ⟨half hp hq hs fun k => (hk k).mp, half hq hp (fun k => (hs k).symm) fun k => (hk k).mpr⟩

/-- The monomials of a dictionary, as multisets of names. -/
def monos (d : Dict) : Set (Multiplicative (Multiset String)) := {m | ∃ k : Mono, k ∈ d.map (·.1) ∧ m = Multiplicative.ofAdd (k : Multiset String)}

theorem monos_keys {p q : Dict} (hp : WFPoly p) (hq : WFPoly q) (h : monos p = monos q) : ∀ k, k ∈ p.map (·.1) ↔ k ∈ q.map (·.1) := by
  have half : ∀ {a b : Dict}, WFPoly a → WFPoly b → monos a = monos b → ∀ k, k ∈ a.map (·.1) → k ∈ b.map (·.1) := by
    intro a b ha hb h k hk
    have : Multiplicative.ofAdd (k : Multiset String) ∈ monos b := h ▸ ⟨k, hk, rfl⟩
    obtain ⟨k', hk', e⟩ := this
    have e' : (k : Multiset String) = k' := Multiplicative.ofAdd.injective e
    have hs : ∀ {c : Dict}, WFPoly c → ∀ k ∈ c.map (·.1), k.Pairwise (· ≤ ·) := by
      intro c hc k hk
      obtain ⟨e, he, rfl⟩ := List.mem_map.mp hk
      exact hc.2 e he
    rw [(Multiset.coe_eq_coe.mp e').eq_of_pairwise' (hs ha k hk) (hs hb k' hk')]
    exact hk'
  exact fun k => ⟨half hp hq h k, half hq hp h.symm k⟩

theorem monos_plus (d1 d2 : Dict) : monos (polyAdd d1 d2) = monos d1 ∪ monos d2 := by
  ext m
  simp only [monos, polyAdd, Set.mem_ofPred_eq, Set.mem_union, mem_keys_plus]
  constructor
  · rintro ⟨k, h | h, e⟩
    · exact .inl ⟨k, h, e⟩
    · exact .inr ⟨k, h, e⟩
  · rintro (⟨k, h, e⟩ | ⟨k, h, e⟩)
    · exact ⟨k, .inl h, e⟩
    · exact ⟨k, .inr h, e⟩

theorem monos_times {d1 d2 out : Dict} (h : polyMul d1 d2 = .ok out) : monos out = monos d1 * monos d2 := by
  have hsort : ∀ k1 k2 : Mono, Multiplicative.ofAdd ((sortNames (k1 ++ k2) : Mono) : Multiset String) =
      Multiplicative.ofAdd (k1 : Multiset String) * Multiplicative.ofAdd (k2 : Multiset String) := by
    intro k1 k2
    rw [← ofAdd_add, Multiset.coe_add]
    congr 1
    exact Multiset.coe_eq_coe.mpr (List.perm_insertionSort _ _)
  ext m
  simp only [monos, Set.mem_mul, Set.mem_ofPred_eq, mem_keys_times h]
  constructor
  · rintro ⟨k, ⟨k1, h1, k2, h2, rfl⟩, rfl⟩
    exact ⟨_, ⟨k1, h1, rfl⟩, _, ⟨k2, h2, rfl⟩, (hsort k1 k2).symm⟩
  · rintro ⟨_, ⟨k1, h1, rfl⟩, _, ⟨k2, h2, rfl⟩, rfl⟩
    exact ⟨_, ⟨k1, h1, k2, h2, rfl⟩, (hsort k1 k2).symm⟩

theorem monos_one : monos (polyConst 1) = 1 := by
  ext m
  simp [monos, polyConst, Set.mem_one]

/-! ## Identities -/

/-- SPEC: expressions that users write with `+` and `*` over polynomials (numbered) and the number 1. -/
inductive RingExpr where
  | var (i : ℕ)
  | one
  | add (a b : RingExpr)
  | mul (a b : RingExpr)

/-- SPEC: the expression as an element of the free commutative semiring: two expressions are mapped to the same element exactly if the laws of
commutative semirings make them equal. -/
noncomputable def RingExpr.formal : RingExpr → MvPolynomial ℕ ℕ
  | .var i => .X i
  | .one => 1
  | .add a b => a.formal + b.formal
  | .mul a b => a.formal * b.formal

/-- What the operators of the library return for the expression. -/
def RingExpr.run (P : ℕ → Dict) : RingExpr → Except PyErr Dict
  | .var i => .ok (P i)
  | .one => .ok (polyConst 1)
  | .add a b =>
    match a.run P with
    | .error e => .error e
    | .ok x => match b.run P with
      | .error e => .error e
      | .ok y => polyPlus x (.poly y)
  | .mul a b =>
    match a.run P with
    | .error e => .error e
    | .ok x => match b.run P with
      | .error e => .error e
      | .ok y => polyTimes x (.poly y)

theorem RingExpr.run_ok {P : ℕ → Dict} (hP : ∀ i, WFPoly (P i)) : ∀ e : RingExpr, ∃ d, e.run P = .ok d ∧ WFPoly d ∧
    (∀ ρ : String → ℚ, polyEval ρ d = e.formal.eval₂ (Nat.castRingHom ℚ) fun i => polyEval ρ (P i)) ∧
    (monos d).up = e.formal.eval₂ (Nat.castRingHom (SetSemiring (Multiplicative (Multiset String)))) fun i => (monos (P i)).up
  | .var i => ⟨P i, rfl, hP i, by simp [RingExpr.formal], by simp [RingExpr.formal]⟩
  | .one => ⟨polyConst 1, rfl, wf_const 1, by simp [RingExpr.formal, polyConst], by simp [RingExpr.formal, monos_one]⟩
  | .add a b => by
    obtain ⟨x, hx, wx, vx, mx⟩ := RingExpr.run_ok hP a
    obtain ⟨y, hy, wy, vy, my⟩ := RingExpr.run_ok hP b
    refine ⟨polyAdd x y, by simp [RingExpr.run, hx, hy, polyPlus], (poly_wf wx wy).1, fun ρ => ?_, ?_⟩
    · rw [polyAdd_eval, vx, vy, RingExpr.formal, MvPolynomial.eval₂_add]
    · rw [monos_plus, Set.up_union, mx, my, RingExpr.formal, MvPolynomial.eval₂_add]
  | .mul a b => by
    obtain ⟨x, hx, wx, vx, mx⟩ := RingExpr.run_ok hP a
    obtain ⟨y, hy, wy, vy, my⟩ := RingExpr.run_ok hP b
    obtain ⟨z, hz, ez⟩ := polyMul_eval (K := ℚ) x y
    refine ⟨z, by simp [RingExpr.run, hx, hy, polyTimes, hz], (poly_wf wx wy).2 z hz, fun ρ => ?_, ?_⟩
    · rw [ez, vx, vy, RingExpr.formal, MvPolynomial.eval₂_mul]
    · rw [monos_times hz, Set.up_mul, mx, my, RingExpr.formal, MvPolynomial.eval₂_mul]

/-- **C99**: expressions in `+`, `*` and 1 never raise, and two of them that are equal by the laws of commutative semirings give polynomials
that are `==`, zero coefficients included. Missing: laws with 0 (`polyPlus_zero`, `poly_cancel`). -/
theorem poly_laws_partial {e1 e2 : RingExpr} (h : e1.formal = e2.formal) {P : ℕ → Dict} (hP : ∀ i, WFPoly (P i)) :
    ∃ d1 d2, e1.run P = .ok d1 ∧ e2.run P = .ok d2 ∧ polyEq d1 d2 = true := by
  obtain ⟨d1, h1, w1, v1, m1⟩ := e1.run_ok hP
  obtain ⟨d2, h2, w2, v2, m2⟩ := e2.run_ok hP
  refine ⟨d1, d2, h1, h2, (polyEq_keys w1.1 w2.1).mpr ⟨sameCoeffs_of_eval w1 w2 fun ρ => by rw [v1, v2, h], ?_⟩⟩
  refine monos_keys w1 w2 (Set.up.injective ?_)
  rw [m1, m2, h]

/-! ## Equality -/

/-- **C99**: `==` is an equivalence relation. -/
theorem polyEq_equivalence {p q r : Dict} (hp : WFPoly p) (hq : WFPoly q) (hr : WFPoly r) :
    polyEq p p = true ∧ (polyEq p q = true → polyEq q p = true) ∧ (polyEq p q = true → polyEq q r = true → polyEq p r = true) := by
  rw [polyEq_perm hp.1 hp.1, polyEq_perm hp.1 hq.1, polyEq_perm hq.1 hp.1, polyEq_perm hq.1 hr.1, polyEq_perm hp.1 hr.1]
  exact ⟨List.Perm.refl _, List.Perm.symm, List.Perm.trans⟩

/-- **C99**: equal polynomials are the same function. -/
theorem polyEq_sound {p q : Dict} (hp : WFPoly p) (hq : WFPoly q) (h : polyEq p q = true) (ρ : String → ℚ) : polyEval ρ p = polyEval ρ q := by
  have := (polyEq_perm hp.1 hq.1).mp h
  unfold polyEval
  exact (this.map _).sum_eq

/-- **C99**: polynomials that are the same function are `==` exactly if they list the same monomials. -/
theorem polyEq_monomials {p q : Dict} (hp : WFPoly p) (hq : WFPoly q) (h : ∀ ρ : String → ℚ, polyEval ρ p = polyEval ρ q) :
    polyEq p q = true ↔ ∀ k, k ∈ p.map (·.1) ↔ k ∈ q.map (·.1) := by
  rw [polyEq_keys hp.1 hq.1]
  exact ⟨fun h => h.2, fun hk => ⟨sameCoeffs_of_eval hp hq h, hk⟩⟩

/-- What `from_smt` returns: sorted keys that occur once, and no zero coefficient. -/
theorem polyFromSmt_shape {f : Formula} (h : polyTerm f = true) (hz : zeroPowFree f = true) {d : Dict} (hd : polyFromSmt f = .ok d) :
    WFPoly d ∧ (∀ e ∈ d, e.2 ≠ 0) ∧ ∀ σ : Env ℚ, polyEval σ.r d = value σ f := by
  obtain ⟨d', hd'⟩ := mathDict_poly_ok f h
  have hs := mathDict_sound (K := ℚ) false f (polyTerm_wt f h) (.inr hz) d' hd'
  simp only [polyFromSmt, hd'] at hd
  cases hd
  refine ⟨⟨hs.nodup.filter _, fun p hp => (hs.keys p (List.mem_of_mem_filter hp)).1⟩, fun p hp => ?_, fun σ => ?_⟩
  · simpa using (List.mem_filter.mp hp).2
  · rw [polyEval_filter, hs.eval]

/-- **C99**: two terms are read as polynomials that are `==` exactly if the terms have the same value everywhere.
Missing: terms with exponent 0 (C06). -/
theorem polyFromSmt_eq_partial {f g : Formula} (hf : polyTerm f = true) (zf : zeroPowFree f = true) (hg : polyTerm g = true) (zg : zeroPowFree g = true) :
    ∃ p q, polyFromSmt f = .ok p ∧ polyFromSmt g = .ok q ∧ (polyEq p q = true ↔ ∀ σ : Env ℚ, value σ f = value σ g) := by
  obtain ⟨p, hp, _⟩ := polyFromSmt_correct_partial (K := ℚ) hf zf
  obtain ⟨q, hq, _⟩ := polyFromSmt_correct_partial (K := ℚ) hg zg
  obtain ⟨wp, np, vp⟩ := polyFromSmt_shape hf zf hp
  obtain ⟨wq, nq, vq⟩ := polyFromSmt_shape hg zg hq
  refine ⟨p, q, hp, hq, (polyEq_iff wp wq np nq).trans ⟨fun h σ => by rw [← vp, ← vq, h], fun h ρ => ?_⟩⟩
  have := h ⟨fun _ => false, ρ⟩
  rw [← vp, ← vq] at this
  exact this

/-- **C99**: `==` is respected by the operators. -/
theorem polyEq_congr {p p' q q' : Dict} (hp : WFPoly p) (hp' : WFPoly p') (hq : WFPoly q) (hq' : WFPoly q') (h1 : polyEq p p' = true)
    (h2 : polyEq q q' = true) : polyEq (polyAdd p q) (polyAdd p' q') = true ∧
      ∃ r r', polyMul p q = .ok r ∧ polyMul p' q' = .ok r' ∧ polyEq r r' = true := by
  have k1 := ((polyEq_keys hp.1 hp'.1).mp h1).2
  have k2 := ((polyEq_keys hq.1 hq'.1).mp h2).2
  have v1 := polyEq_sound hp hp' h1
  have v2 := polyEq_sound hq hq' h2
  constructor
  · refine (polyEq_monomials (poly_wf hp hq).1 (poly_wf hp' hq').1 fun ρ => by rw [polyAdd_eval, polyAdd_eval, v1, v2]).mpr fun k => ?_
    simp only [polyAdd, mem_keys_plus, k1, k2]
  · obtain ⟨r, hr, e⟩ := polyMul_eval (K := ℚ) p q
    obtain ⟨r', hr', e'⟩ := polyMul_eval (K := ℚ) p' q'
    refine ⟨r, r', hr, hr', (polyEq_monomials ((poly_wf hp hq).2 r hr) ((poly_wf hp' hq').2 r' hr') fun ρ => by rw [e, e', v1, v2]).mpr
      fun k => ?_⟩
    simp only [mem_keys_times hr, mem_keys_times hr', k1, k2]

/-- **C99, finding**: adding the number 0 gives a polynomial that is `==` to the old one exactly if the old one lists a constant term. -/
theorem polyPlus_zero {p : Dict} (hp : WFPoly p) : ∃ r, polyPlus p (.num 0) = .ok r ∧ (∀ ρ : String → ℚ, polyEval ρ r = polyEval ρ p) ∧
    (polyEq r p = true ↔ [] ∈ p.map (·.1)) := by
  have hv : ∀ ρ : String → ℚ, polyEval ρ (polyAdd p (polyConst 0)) = polyEval ρ p := fun ρ => by rw [polyAdd_eval]; simp [polyConst]
  refine ⟨_, rfl, hv, (polyEq_monomials (poly_wf hp (wf_const 0)).1 hp hv).trans ?_⟩
  simp only [polyAdd, mem_keys_plus]
  constructor
  · intro h; exact (h []).mp (.inr (by simp [polyConst]))
  · intro h k
    refine ⟨?_, .inl⟩
    rintro (hk | hk)
    · exact hk
    · simp [polyConst] at hk; rw [hk]; exact h

/-- **C99, finding**: `sum` of Python starts with the number 0: the sum of one polynomial is `==` to it exactly if it lists a constant term. -/
theorem polySum_single {p : Dict} (hp : WFPoly p) : ∃ r, polySum [p] = some (.ok r) ∧ (∀ ρ : String → ℚ, polyEval ρ r = polyEval ρ p) ∧
    (polyEq r p = true ↔ [] ∈ p.map (·.1)) := by
  obtain ⟨r, hr, h⟩ := polyPlus_zero hp
  exact ⟨r, by simp [polySum, polyRPlus, hr], h⟩

/-- **C99, finding**: a polynomial and its multiple by -1 add up to the zero function, but the sum lists all monomials of the polynomial, with
coefficient 0: it is never `==` to what `from_smt` returns for a term that is 0 everywhere, unless the polynomial is empty. -/
theorem poly_cancel {p : Dict} (hp : WFPoly p) : ∃ n r, polyRTimes p (.num (-1)) = .ok n ∧ polyPlus p (.poly n) = .ok r ∧
    (∀ ρ : String → ℚ, polyEval ρ r = 0) ∧ (∀ k, k ∈ p.map (·.1) ↔ k ∈ r.map (·.1)) ∧ (polyEq r [] = true ↔ p = []) := by
  obtain ⟨n, hn, e⟩ := polyMul_eval (K := ℚ) p (polyConst (-1))
  have hsorted : ∀ k ∈ p.map (·.1), sortNames (k ++ []) = k := by
    intro k hk
    obtain ⟨e, he, rfl⟩ := List.mem_map.mp hk
    rw [List.append_nil]
    exact List.Pairwise.insertionSort_eq (hp.2 e he)
  have hk : ∀ k, k ∈ n.map (·.1) ↔ k ∈ p.map (·.1) := by
    intro k
    rw [mem_keys_times hn]
    constructor
    · rintro ⟨k1, h1, k2, h2, rfl⟩
      have : k2 = [] := by simpa [polyConst] using h2
      rw [this, hsorted k1 h1]; exact h1
    · intro h
      exact ⟨k, h, [], by simp [polyConst], (hsorted k h).symm⟩
  have hk2 : ∀ k, k ∈ p.map (·.1) ↔ k ∈ (polyAdd p n).map (·.1) := fun k => by
    simp only [polyAdd, mem_keys_plus, hk, or_self]
  have hv : ∀ ρ : String → ℚ, polyEval ρ (polyAdd p n) = 0 := fun ρ => by rw [polyAdd_eval, e]; simp [polyConst]
  refine ⟨n, polyAdd p n, hn, rfl, hv, hk2, ?_⟩
  have hw := (poly_wf hp ((poly_wf hp (wf_const (-1))).2 n hn)).1
  rw [polyEq_monomials hw (q := []) ⟨by simp [KeysNodup], by simp⟩ (fun ρ => by rw [hv]; rfl)]
  simp only [← hk2]
  constructor
  · intro h
    cases p with
    | nil => rfl
    | cons a p => exact absurd ((h a.1).mp (by simp)) (by simp)
  · rintro rfl; simp

/-- **C99**: operands of other types raise NotImplementedError, on either side. -/
theorem poly_other (p : Dict) : polyPlus p .other = .error .notImplemented ∧ polyTimes p .other = .error .notImplemented ∧
    polyRPlus p .other = .error .notImplemented ∧ polyRTimes p .other = .error .notImplemented := ⟨rfl, rfl, rfl, rfl⟩

/-- **C99**: numbers on the left do what numbers on the right do. -/
theorem poly_number_left (p : Dict) (c : ℚ) : ∃ s t, polyRPlus p (.num c) = .ok s ∧ polyRTimes p (.num c) = .ok t ∧
    ∀ ρ : String → ℚ, polyEval ρ s = c + polyEval ρ p ∧ polyEval ρ t = c * polyEval ρ p := by
  obtain ⟨h1, t, ht, h2⟩ := polyNumber_eval (K := ℚ) p c
  refine ⟨_, t, rfl, ht, fun ρ => ⟨?_, ?_⟩⟩
  · rw [h1]; push_cast; ring
  · rw [h2]; push_cast; ring

/-! ## Hashing -/

/-- SPEC: the hash of a frozen set does not depend on the order of the entries. -/
def FrozenHash (h : Dict → ℤ) : Prop := ∀ p q : Dict, p.Perm q → h p = h q

/-- The stored hash is the hash of the dictionary. -/
theorem PolyObj.hash_spec (h : Dict → ℤ) {p : PolyObj} (hp : ∀ v, p.stored = some v → v = h p.dict) :
    (p.hash h).1 = h p.dict ∧ (p.hash h).2.dict = p.dict ∧ ∀ v, (p.hash h).2.stored = some v → v = h p.dict := by
  unfold PolyObj.hash
  cases hs : p.stored with
  | none => simp [eq_comm]
  | some v =>
    by_cases hv : v = 0
    · simp [hv, eq_comm]
    · simp only [if_neg hv]
      exact ⟨hp v hs, trivial, fun w hw => hp w hw⟩

theorem PolyObj.hashes_spec (h : Dict → ℤ) : ∀ n {p : PolyObj}, (∀ v, p.stored = some v → v = h p.dict) →
    (∀ x ∈ (p.hashes h n).1, x = h p.dict) ∧ (p.hashes h n).1.length = n ∧ (p.hashes h n).2.dict = p.dict ∧
      ∀ v, (p.hashes h n).2.stored = some v → v = h p.dict
  | 0, p, hp => by simp [PolyObj.hashes]; exact hp
  | n + 1, p, hp => by
    obtain ⟨h1, h2, h3⟩ := PolyObj.hash_spec h hp
    obtain ⟨i1, i2, i3, i4⟩ := PolyObj.hashes_spec h n (p := (p.hash h).2) (by rw [h2]; exact h3)
    rw [h2] at i1 i3 i4
    refine ⟨fun x hx => ?_, by simp [PolyObj.hashes, i2], by simp [PolyObj.hashes, i3], by simpa [PolyObj.hashes] using i4⟩
    simp only [PolyObj.hashes, List.mem_cons] at hx
    rcases hx with rfl | hx
    · exact h1
    · exact i1 x hx

/-- **C99**: polynomials that are `==` answer `hash` with the same number, however often either was asked before. -/
theorem poly_hash {h : Dict → ℤ} (hh : FrozenHash h) {p q : Dict} (hp : WFPoly p) (hq : WFPoly q) (he : polyEq p q = true) (m n : ℕ) :
    ∀ x ∈ ((PolyObj.new p).hashes h m).1, ∀ y ∈ ((PolyObj.new q).hashes h n).1, x = y := by
  intro x hx y hy
  have h0 : ∀ d : Dict, ∀ v, (PolyObj.new d).stored = some v → v = h (PolyObj.new d).dict := fun d v hv => by simp [PolyObj.new] at hv
  rw [(PolyObj.hashes_spec h m (h0 p)).1 x hx, (PolyObj.hashes_spec h n (h0 q)).1 y hy]
  exact hh p q ((polyEq_perm hp.1 hq.1).mp he)

/-- **C99**: a dictionary with polynomials as keys that were asked for their hash any number of times returns the value of the first key that is
`==` to the polynomial that is looked up, and nothing if there is none. -/
theorem poly_get {V : Type} {h : Dict → ℤ} (hh : FrozenHash h) {T : List (Dict × ℕ × V)} (hT : ∀ e ∈ T, WFPoly e.1) {p : Dict} (hp : WFPoly p)
    (n : ℕ) : polyGet h (T.map fun e => (((PolyObj.new e.1).hashes h e.2.1).2, e.2.2)) ((PolyObj.new p).hashes h n).2 =
      (T.find? fun e => polyEq e.1 p).map (·.2.2) := by
  have h0 : ∀ d : Dict, ∀ v, (PolyObj.new d).stored = some v → v = h (PolyObj.new d).dict := fun d v hv => by simp [PolyObj.new] at hv
  have hd : ∀ (d : Dict) (n : ℕ), (((PolyObj.new d).hashes h n).2.hash h).1 = h d ∧ ((PolyObj.new d).hashes h n).2.dict = d := by
    intro d n
    obtain ⟨_, _, i3, i4⟩ := PolyObj.hashes_spec h n (h0 d)
    exact ⟨by rw [(PolyObj.hash_spec h (by rw [i3]; exact i4)).1, i3]; rfl, i3⟩
  induction T with
  | nil => rfl
  | cons e T ih =>
    have iht := ih fun e he => hT e (by simp [he])
    simp only [List.map_cons, polyGet, (hd _ _).1, (hd _ _).2, List.find?_cons]
    by_cases he : polyEq e.1 p = true
    · rw [if_pos ⟨hh _ _ ((polyEq_perm (hT e (by simp)).1 hp.1).mp he), he⟩, he]; rfl
    · rw [if_neg (fun hc => he hc.2), iht]
      simp only [Bool.not_eq_true] at he
      rw [he]

/-! ## A case -/

/-- A hash of frozen sets: a sum over the entries. -/
def exHash (d : Dict) : ℤ := (d.map fun e => e.2.num + (e.1.length : ℤ)).sum

theorem exHash_frozen : FrozenHash exHash := fun _ _ h => (h.map _).sum_eq

/-- `(x + y)*(x + y)` and `x*x + (y*x + x*y) + y*y` are `==`; `x + (-1)*x` is not `==` to what `from_smt` returns for `x - x`; the hypotheses
of the theorems are met. -/
theorem poly_key_concrete :
    (∀ i, WFPoly ((fun i : ℕ => if i = 0 then [(["x"], (1 : ℚ))] else [(["y"], 1)]) i)) ∧
    (RingExpr.mul (.add (.var 0) (.var 1)) (.add (.var 0) (.var 1))).formal =
      (RingExpr.add (.add (.mul (.var 0) (.var 0)) (.add (.mul (.var 1) (.var 0)) (.mul (.var 0) (.var 1)))) (.mul (.var 1) (.var 1))).formal ∧
    (RingExpr.mul (.add (.var 0) (.var 1)) (.add (.var 0) (.var 1))).run (fun i : ℕ => if i = 0 then [(["x"], (1 : ℚ))] else [(["y"], 1)]) =
      .ok [(["x", "x"], 1), (["x", "y"], 2), (["y", "y"], 1)] ∧
    polyFromSmt (.minus (.sym "x" .real) (.sym "x" .real)) = .ok [] ∧
    polyPlus [(["x"], 1)] (.poly [(["x"], -1)]) = .ok [(["x"], 0)] ∧ polyEq [(["x"], 0)] [] = false ∧ FrozenHash exHash := by
  refine ⟨fun i => ?_, ?_, ?_, ?_, by decide +kernel, by decide +kernel, exHash_frozen⟩
  · by_cases h : i = 0 <;> simp [h, WFPoly, KeysNodup]
  · simp only [RingExpr.formal]; ring
  · decide +kernel
  · simp [polyFromSmt, mathDict_minus, mathDict_sym, dictPlus, dictNeg, dictAdd]

end Pywmi
