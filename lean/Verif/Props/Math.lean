import Verif.Math.Unique
import Verif.Math.LinLemmas

set_option linter.unusedSectionVars false
set_option linter.unusedSimpArgs false

/-!
# Properties of polynomials and linear inequalities (C06 - C10)

Specification vocabulary: `Formula.value`, `Formula.truth` (mathematical meaning of formulas) and
`polyEval ρ d`, the sum of coefficient times product of variable values.
-/

namespace Pywmi
open Formula Prog

section
variable {K : Type} [Field K] [LinearOrder K] [IsStrictOrderedRing K]

/-! ## C06 -/

/-- **C06 (partial)**: on every polynomial term without zero exponents, `Polynomial.from_smt` succeeds and the
polynomial takes the value of the term at every point.  Missing: exponent zero, where the claim is false
(`polyFromSmt_zero_exponent_wrong`). -/
theorem polyFromSmt_correct_partial {f : Formula} (h : polyTerm f = true) (hz : zeroPowFree f = true) :
    ∃ d, polyFromSmt f = .ok d ∧ ∀ σ : Env K, polyEval σ.r d = value σ f := by
  obtain ⟨d, hd⟩ := mathDict_poly_ok f h
  have hs := mathDict_sound (K := K) false f (polyTerm_wt f h) (.inr hz) d hd
  exact ⟨_, by simp only [polyFromSmt, hd]; rfl, fun σ => by rw [polyEval_filter, hs.eval]⟩

/-- **C06 (the defect)**: `Polynomial.from_smt(Pow(x, 0))` is the polynomial `x`, not `1`. -/
theorem polyFromSmt_zero_exponent_wrong :
    polyTerm (.pow (.sym "x" .real) (.realC 0)) = true ∧
    polyFromSmt (.pow (.sym "x" .real) (.realC 0)) = .ok [(["x"], 1)] ∧
    ∃ σ : Env ℚ, polyEval σ.r [(["x"], 1)] ≠ value σ (.pow (.sym "x" .real) (.realC 0)) := by
  refine ⟨by decide +kernel, ?_, ⟨fun _ => false, fun _ => 5⟩, ?_⟩
  · simp [polyFromSmt, mathDict_pow, mathDict_sym, powLoop]
  · simp [value]

/-- **C06 (no wrong answers)**: whatever real-typed term is given, if `Polynomial.from_smt` raises it raises
ValueError, and it only raises on terms that are not polynomial terms. -/
theorem polyFromSmt_error {f : Formula} (h : wt .real f = true) {e : PyErr} (he : polyFromSmt f = .error e) :
    e = .valueError ∧ polyTerm f = false := by
  unfold polyFromSmt at he
  split at he
  · cases he
  · rename_i e' he'
    cases he
    refine ⟨mathDict_error false f h _ he', ?_⟩
    rw [← Bool.not_eq_true]
    intro hp
    obtain ⟨d, hd⟩ := mathDict_poly_ok f hp
    rw [hd] at he'; cases he'

/-! ## C07 -/

/-- Polynomials as built by the library: distinct keys (a dictionary) and sorted key tuples. -/
def WFPoly (d : Dict) : Prop := KeysNodup d ∧ ∀ p ∈ d, p.1.Pairwise (· ≤ ·)

/-- SPEC: same coefficient for every monomial (a missing monomial has coefficient zero). -/
def SameCoeffs (p q : Dict) : Prop := ∀ k, (p.lookup k).getD 0 = (q.lookup k).getD 0

/-- **C07**: addition is pointwise. -/
theorem polyAdd_eval (p q : Dict) (ρ : String → K) : polyEval ρ (polyAdd p q) = polyEval ρ p + polyEval ρ q :=
  polyEval_dictPlus ρ p q

/-- **C07**: multiplication succeeds and is pointwise. -/
theorem polyMul_eval (p q : Dict) :
    ∃ r, polyMul p q = .ok r ∧ ∀ ρ : String → K, polyEval ρ r = polyEval ρ p * polyEval ρ q := by
  obtain ⟨r, hr⟩ := dictTimes_false p q
  exact ⟨r, hr, fun ρ => polyEval_dictTimes ρ hr⟩

/-- **C07**: operations with a number. -/
theorem polyNumber_eval (p : Dict) (c : ℚ) : (∀ ρ : String → K, polyEval ρ (polyAdd p (polyConst c)) = polyEval ρ p + c) ∧
    ∃ r, polyMul p (polyConst c) = .ok r ∧ ∀ ρ : String → K, polyEval ρ r = polyEval ρ p * c := by
  refine ⟨fun ρ => by rw [polyAdd_eval]; simp [polyConst], ?_⟩
  obtain ⟨r, hr, h⟩ := polyMul_eval (K := K) p (polyConst c)
  exact ⟨r, hr, fun ρ => by rw [h]; simp [polyConst]⟩
end

/-- **C07**: the operations keep the dictionary well formed. -/
theorem poly_wf {p q : Dict} (hp : WFPoly p) (hq : WFPoly q) :
    WFPoly (polyAdd p q) ∧ ∀ r, polyMul p q = .ok r → WFPoly r := by
  refine ⟨⟨hp.1.dictPlus q, KeysIn.dictPlus (P := fun k => k.Pairwise (· ≤ ·)) hp.2 hq.2⟩, fun r hr => ?_⟩
  exact ⟨dictTimes_nodup hr, dictTimes_keys (P := fun k => k.Pairwise (· ≤ ·)) (P1 := fun _ => True)
    (P2 := fun _ => True) (fun _ _ _ _ _ => sortNames_sorted _) (fun _ _ => trivial) (fun _ _ => trivial) hr⟩

/-- Polynomials with equal values have equal coefficients. -/
theorem sameCoeffs_of_eval {p q : Dict} (hp : WFPoly p) (hq : WFPoly q)
    (h : ∀ ρ : String → ℚ, polyEval ρ p = polyEval ρ q) : SameCoeffs p q :=
  lookup_eq_of_eval hp.2 hp.1 hq.2 hq.1 h

/-- **C07**: addition is commutative and associative. -/
theorem polyAdd_comm_assoc {p q r : Dict} (hp : WFPoly p) (hq : WFPoly q) (hr : WFPoly r) :
    SameCoeffs (polyAdd p q) (polyAdd q p) ∧
    SameCoeffs (polyAdd (polyAdd p q) r) (polyAdd p (polyAdd q r)) := by
  constructor
  · refine sameCoeffs_of_eval (poly_wf hp hq).1 (poly_wf hq hp).1 fun ρ => ?_
    rw [polyAdd_eval, polyAdd_eval]; ring
  · refine sameCoeffs_of_eval (poly_wf (poly_wf hp hq).1 hr).1 (poly_wf hp (poly_wf hq hr).1).1 fun ρ => ?_
    simp only [polyAdd_eval]; ring

/-- **C07**: multiplication is commutative and associative, and distributes over addition. -/
theorem polyMul_comm_assoc {p q r : Dict} (hp : WFPoly p) (hq : WFPoly q) (hr : WFPoly r) :
    ∃ pq qp qr pq_r p_qr pr p_qplusr, polyMul p q = .ok pq ∧ polyMul q p = .ok qp ∧ polyMul q r = .ok qr ∧
      polyMul pq r = .ok pq_r ∧ polyMul p qr = .ok p_qr ∧ polyMul p r = .ok pr ∧
      polyMul p (polyAdd q r) = .ok p_qplusr ∧
      SameCoeffs pq qp ∧ SameCoeffs pq_r p_qr ∧ SameCoeffs p_qplusr (polyAdd pq pr) := by
  obtain ⟨pq, h1, e1⟩ := polyMul_eval (K := ℚ) p q
  obtain ⟨qp, h2, e2⟩ := polyMul_eval (K := ℚ) q p
  obtain ⟨qr, h3, e3⟩ := polyMul_eval (K := ℚ) q r
  obtain ⟨pq_r, h4, e4⟩ := polyMul_eval (K := ℚ) pq r
  obtain ⟨p_qr, h5, e5⟩ := polyMul_eval (K := ℚ) p qr
  obtain ⟨pr, h6, e6⟩ := polyMul_eval (K := ℚ) p r
  obtain ⟨s, h7, e7⟩ := polyMul_eval (K := ℚ) p (polyAdd q r)
  have w1 := (poly_wf hp hq).2 _ h1
  have w3 := (poly_wf hq hr).2 _ h3
  have w6 := (poly_wf hp hr).2 _ h6
  refine ⟨pq, qp, qr, pq_r, p_qr, pr, s, h1, h2, h3, h4, h5, h6, h7, ?_, ?_, ?_⟩
  · exact sameCoeffs_of_eval w1 ((poly_wf hq hp).2 _ h2) fun ρ => by rw [e1, e2]; ring
  · exact sameCoeffs_of_eval ((poly_wf w1 hr).2 _ h4) ((poly_wf hp w3).2 _ h5)
      fun ρ => by rw [e4, e5, e1, e3]; ring
  · exact sameCoeffs_of_eval ((poly_wf hp (poly_wf hq hr).1).2 _ h7) (poly_wf w1 w6).1
      fun ρ => by rw [e7, polyAdd_eval, polyAdd_eval, e1, e6]; ring

/-- **C07 (equality)**: for polynomials without zero coefficients (as returned by `from_smt`), `==` holds
exactly when the two polynomials are the same function. -/
theorem polyEq_iff {p q : Dict} (hp : WFPoly p) (hq : WFPoly q) (zp : ∀ e ∈ p, e.2 ≠ 0) (zq : ∀ e ∈ q, e.2 ≠ 0) :
    polyEq p q = true ↔ ∀ ρ : String → ℚ, polyEval ρ p = polyEval ρ q := by
  have key : ∀ {a b : Dict}, SameCoeffs a b → KeysNodup a → (∀ e ∈ a, e.2 ≠ 0) →
      ∀ e ∈ a, b.lookup e.1 = some e.2 := by
    intro a b hs ha za e he
    have h1 := lookup_of_mem (k := e.1) (v := e.2) ha he
    have h2 := hs e.1
    rw [h1] at h2
    simp only [Option.getD_some] at h2
    cases hb : b.lookup e.1 with
    | none => rw [hb] at h2; exact absurd h2 (za e he)
    | some w => rw [hb] at h2; simp at h2; rw [h2]
  constructor
  · intro h ρ
    simp only [polyEq, Bool.and_eq_true, List.all_eq_true, decide_eq_true_eq] at h
    have hperm : p.Perm q := by
      apply (List.perm_ext_iff_of_nodup (List.Nodup.of_map _ hp.1) (List.Nodup.of_map _ hq.1)).mpr
      intro e
      constructor
      · intro he; exact mem_of_lookup (h.1 e he)
      · intro he; exact mem_of_lookup (h.2 e he)
    unfold polyEval
    exact (hperm.map _).sum_eq
  · intro h
    simp only [polyEq, Bool.and_eq_true, List.all_eq_true, decide_eq_true_eq]
    have hs := sameCoeffs_of_eval hp hq h
    exact ⟨key hs hp.1 zp, key (fun k => (hs k).symm) hq.1 zq⟩

section
variable {K : Type} [Field K] [LinearOrder K] [IsStrictOrderedRing K]

/-! ## C08 -/

/-- **C08**: exporting a non-empty polynomial to a formula succeeds and keeps its value at every point. -/
theorem polyToSmt_correct {d : Dict} (hne : d ≠ []) :
    ∃ f, polyToSmt d = .ok f ∧ polyTerm f = true ∧ zeroPowFree f = true ∧
      ∀ σ : Env K, value σ f = polyEval σ.r d := by
  obtain ⟨ts, hts, hs⟩ := mapE_terms (K := K) (g := polyTermSmt) (d := d) fun p _ => polyTermSmt_spec p
  have hl := terms_poly hs
  have hts' : ts ≠ [] := by
    rintro rfl
    exact hne (List.eq_nil_of_length_eq_zero (by simpa using hl.2.symm))
  obtain ⟨f, hf⟩ := mkPlus_ok hts'
  have hp := mkPlus_poly hf hl.1
  exact ⟨f, by simp [polyToSmt, hts, hf], hp.1, hp.2, fun σ => by rw [value_mkPlus hf, terms_sum hs]⟩

/-- **C08**: `from_smt(to_smt(p))` has the non-zero coefficients of `p`. -/
theorem polyFromSmt_toSmt {d : Dict} (hne : d ≠ []) (hwf : WFPoly d) :
    ∃ f e, polyToSmt d = .ok f ∧ polyFromSmt f = .ok e ∧ WFPoly e ∧ (∀ p ∈ e, p.2 ≠ 0) ∧ SameCoeffs e d := by
  obtain ⟨f, hf, h1, h2, h3⟩ := polyToSmt_correct (K := ℚ) hne
  obtain ⟨d', hd'⟩ := mathDict_poly_ok f h1
  have hs := mathDict_sound (K := ℚ) false f (polyTerm_wt f h1) (.inr h2) d' hd'
  have hw : WFPoly (d'.filter fun p => p.2 ≠ 0) :=
    ⟨hs.nodup.filter _, fun p hp => (hs.keys p (List.mem_of_mem_filter hp)).1⟩
  refine ⟨f, _, hf, by simp only [polyFromSmt, hd'], hw, fun p hp => ?_, ?_⟩
  · simpa using (List.mem_filter.mp hp).2
  · refine sameCoeffs_of_eval hw hwf fun ρ => ?_
    rw [polyEval_filter]
    have := hs.eval ⟨fun _ => false, ρ⟩
    rw [h3] at this
    exact this

/-- **C08**: the terms of a polynomial add up to it. -/
theorem polyTerms_sum (d : Dict) (ρ : String → K) : ((polyTerms d).map (polyEval ρ)).sum = polyEval ρ d := by
  induction d with
  | nil => rfl
  | cons p d ih =>
    simp only [polyTerms, List.map_cons, List.sum_cons] at ih ⊢
    rw [ih]; simp

/-! ## C09 -/

/-- SPEC: `q` has, at every point, the sign of `l - r`. -/
def SignOf (q : Dict) (l r : Formula) (K : Type) [Field K] [LinearOrder K] : Prop :=
  ∀ σ : Env K, (polyEval σ.r q < 0 ↔ value σ l < value σ r) ∧ (0 < polyEval σ.r q ↔ value σ r < value σ l)

/-- SPEC: the difference of two terms is an affine function of the real variables. -/
def AffineDiff (l r : Formula) (K : Type) [Field K] [LinearOrder K] : Prop :=
  ∃ (c : ℚ) (cs : List (String × ℚ)), ∀ σ : Env K,
    value σ l - value σ r = (c : K) + (cs.map fun p => (p.2 : K) * σ.r p.1).sum

theorem sign_of_scale {q : Dict} {l r : Formula} {c : ℚ} (hc : 0 < c)
    (h : ∀ σ : Env K, polyEval σ.r q = (value σ l - value σ r) * (c : K)) : SignOf q l r K := by
  intro σ
  have hc' : (0 : K) < c := by exact_mod_cast hc
  rw [h σ]
  constructor
  · rw [← sub_neg (a := value σ l), mul_neg_iff]
    constructor
    · rintro (⟨_, h2⟩ | ⟨h1, _⟩)
      · exact absurd h2 (not_lt.mpr hc'.le)
      · exact h1
    · exact fun h => Or.inr ⟨h, hc'⟩
  · rw [← sub_pos (a := value σ l)]
    exact mul_pos_iff_of_pos_right hc'

theorem affine_of_dict {q : Dict} {l r : Formula} {c : ℚ} (hc : 0 < c)
    (hk : ∀ p ∈ q, p.1.length ≤ 1)
    (h : ∀ σ : Env K, polyEval σ.r q = (value σ l - value σ r) * (c : K)) : AffineDiff l r K := by
  have hc' : (c : K) ≠ 0 := by exact_mod_cast hc.ne'
  have haff : ∃ (a : ℚ) (cs : List (String × ℚ)), ∀ σ : Env K,
      polyEval σ.r q = (a : K) + (cs.map fun p => (p.2 : K) * σ.r p.1).sum := by
    clear h
    induction q with
    | nil => exact ⟨0, [], fun σ => by simp⟩
    | cons p q ih =>
      obtain ⟨a, cs, hacs⟩ := ih fun x hx => hk x (by simp [hx])
      obtain ⟨k, v⟩ := p
      cases k with
      | nil => exact ⟨v + a, cs, fun σ => by simp [hacs σ]; ring⟩
      | cons n k =>
        have : k = [] := by
          have := hk (n :: k, v) (by simp)
          simpa using this
        subst this
        exact ⟨a, (n, v) :: cs, fun σ => by simp [hacs σ]; ring⟩
  obtain ⟨a, cs, hacs⟩ := haff
  refine ⟨a / c, cs.map fun p => (p.1, p.2 / c), fun σ => ?_⟩
  have := h σ
  rw [hacs σ] at this
  have h2 : value σ l - value σ r = ((a : K) + (cs.map fun p => (p.2 : K) * σ.r p.1).sum) / c := by
    rw [this]; field_simp
  rw [h2, add_div]
  congr 1
  · push_cast; rfl
  · clear h2 this hacs
    induction cs with
    | nil => simp
    | cons x cs ih =>
      simp only [List.map_cons, List.sum_cons]
      rw [← ih]; push_cast; field_simp

/-- The dictionary computed for a comparison of two real terms. -/
theorem linFromSmt_cmp {l r : Formula} (hl : wt .real l = true) (hr : wt .real r = true) {g : Formula}
    (hg : g = .le l r ∨ g = .lt l r) {q : Dict} (h : linFromSmt g = .ok q) :
    ∃ c : ℚ, 0 < c ∧ (∀ σ : Env K, polyEval σ.r q = (value σ l - value σ r) * (c : K)) ∧
      (∀ p ∈ q, p.1.length ≤ 1) ∧ KeysNodup q ∧ (∀ p ∈ q, p.2 ≠ 0) := by
  have hcmp : mathDict true g =
      match mathDict true l with
      | .ok a => match mathDict true r with
        | .ok b => .ok (lteDict a b)
        | .error e => .error e
      | .error e => .error e := by
    rcases hg with rfl | rfl
    · exact mathDict_le true l r
    · exact mathDict_lt true l r
  unfold linFromSmt at h
  rw [hcmp] at h
  cases ha : mathDict true l with
  | error e => rw [ha] at h; cases h
  | ok a =>
    cases hb : mathDict true r with
    | error e => rw [ha, hb] at h; cases h
    | ok b =>
      rw [ha, hb] at h
      simp only [Except.ok.injEq] at h
      subst h
      have sa := mathDict_sound (K := K) true l hl (.inl rfl) a ha
      have sb := mathDict_sound (K := K) true r hr (.inl rfl) b hb
      obtain ⟨c, hc, he⟩ := lteDict_eval (K := K) (r := b) sa.nodup
      refine ⟨c, hc, fun σ => by rw [polyEval_linMk, he, sa.eval, sb.eval], ?_, ?_, ?_⟩
      · have : KeysIn (fun k => k.length ≤ 1) (lteDict a b) :=
          lteDict_keys (by simp) (fun p hp => (sa.keys p hp).2.1 rfl) (fun p hp => (sb.keys p hp).2.1 rfl)
        exact fun p hp => this p (List.mem_of_mem_filter hp)
      · exact (lteDict_nodup sa.nodup).filter _
      · intro p hp; simpa using (List.mem_filter.mp hp).2

/-- **C09**: on a comparison with linear sides `LinearInequality.from_smt` succeeds and its linear form has the
sign of `l - r` at every point. -/
theorem linFromSmt_linear {l r g : Formula} (hl : linTerm l = true) (hr : linTerm r = true)
    (hg : g = .le l r ∨ g = .lt l r) : ∃ q, linFromSmt g = .ok q ∧ SignOf q l r K := by
  obtain ⟨a, ha⟩ := mathDict_lin_ok l hl
  obtain ⟨b, hb⟩ := mathDict_lin_ok r hr
  have hok : ∃ q, linFromSmt g = .ok q := by
    rcases hg with rfl | rfl
    · exact ⟨_, by simp only [linFromSmt, mathDict_le, ha, hb]; rfl⟩
    · exact ⟨_, by simp only [linFromSmt, mathDict_lt, ha, hb]; rfl⟩
  obtain ⟨q, hq⟩ := hok
  obtain ⟨c, hc, he, _⟩ := linFromSmt_cmp (K := K) (polyTerm_wt l (linTerm_polyTerm l hl))
    (polyTerm_wt r (linTerm_polyTerm r hr)) hg hq
  exact ⟨q, hq, sign_of_scale hc he⟩

/-- **C09 (negation)**: on a negated comparison the sign is reversed. -/
theorem linFromSmt_negated {l r g : Formula} (hl : linTerm l = true) (hr : linTerm r = true)
    (hg : g = .le l r ∨ g = .lt l r) : ∃ q, linFromSmt (.not g) = .ok q ∧ SignOf q r l K := by
  obtain ⟨q, hq, hs⟩ := linFromSmt_linear (K := K) hl hr hg
  unfold linFromSmt at hq ⊢
  rw [mathDict_not]
  cases hm : mathDict true g with
  | error e => rw [hm] at hq; cases hq
  | ok d =>
    rw [hm] at hq
    simp only [Except.ok.injEq] at hq
    subst hq
    refine ⟨_, rfl, fun σ => ?_⟩
    have := hs σ
    rw [polyEval_linMk] at this
    rw [polyEval_linMk, polyEval_dictNeg]
    constructor
    · rw [neg_lt_zero]; exact this.2
    · rw [neg_pos]; exact this.1

/-- **C09 (rejection)**: for arbitrary real terms, if the difference of the sides is not affine, the conversion
raises ValueError; it never returns a wrong linear form. -/
theorem linFromSmt_nonlinear {l r g : Formula} (hl : wt .real l = true) (hr : wt .real r = true)
    (hg : g = .le l r ∨ g = .lt l r) (hna : ¬AffineDiff l r K) : linFromSmt g = .error .valueError := by
  cases h : linFromSmt g with
  | ok q =>
    obtain ⟨c, hc, he, hk, _⟩ := linFromSmt_cmp (K := K) hl hr hg h
    exact absurd (affine_of_dict hc hk he) hna
  | error e =>
    have : e = .valueError := by
      unfold linFromSmt at h
      have hle : mathDict true g = .error e := by
        cases hm : mathDict true g with
        | ok d => rw [hm] at h; cases h
        | error e' => rw [hm] at h; simpa using h
      rcases hg with rfl | rfl
      · rw [mathDict_le] at hle
        split at hle
        · split at hle
          · cases hle
          · rename_i he'; cases hle; exact mathDict_error true r hr _ he'
        · rename_i he'; cases hle; exact mathDict_error true l hl _ he'
      · rw [mathDict_lt] at hle
        split at hle
        · split at hle
          · cases hle
          · rename_i he'; cases hle; exact mathDict_error true r hr _ he'
        · rename_i he'; cases hle; exact mathDict_error true l hl _ he'
    rw [this]

/-- **C09 (soundness)**: for arbitrary real terms, whenever the conversion returns, the form has the right
sign. -/
theorem linFromSmt_sound {l r g : Formula} (hl : wt .real l = true) (hr : wt .real r = true)
    (hg : g = .le l r ∨ g = .lt l r) {q : Dict} (h : linFromSmt g = .ok q) : SignOf q l r K := by
  obtain ⟨c, hc, he, _⟩ := linFromSmt_cmp (K := K) hl hr hg h
  exact sign_of_scale hc he

/-! ## C10 -/

/-- `LinearInequality` objects: dictionaries without zero coefficients. -/
def WFLin (d : Dict) : Prop := KeysNodup d ∧ ∀ p ∈ d, p.2 ≠ 0

/-- SPEC: the open half-space of a linear inequality (`form < 0`). -/
def halfSpace (d : Dict) (K : Type) [Field K] [LinearOrder K] : Set (String → K) := {ρ | polyEval ρ d < 0}

/-- **C10**: the exported formula describes the half-space. -/
theorem linToSmt_halfSpace {d : Dict} (h : WFLin d) (hne : d ≠ []) :
    ∃ f, linToSmt d = .ok f ∧ ∀ σ : Env K, truth σ f = true ↔ σ.r ∈ halfSpace d K := by
  obtain ⟨f, hf, _, ht⟩ := linToSmt_spec (K := K) h.1 h.2 hne
  exact ⟨f, hf, ht⟩

/-- **C10**: `normalize` keeps the half-space and makes the largest absolute coefficient one. -/
theorem linNormalize_correct {d : Dict} (h : WFLin d) (hne : d ≠ []) :
    WFLin (linNormalize d) ∧ halfSpace (linNormalize d) K = halfSpace d K ∧
      (∀ p ∈ linNormalize d, |p.2| ≤ 1) ∧ ∃ p ∈ linNormalize d, |p.2| = 1 := by
  obtain ⟨h1, h2, p, hp, h3⟩ := linNormalize_factor h.2 hne
  set f := (d.map fun p => |p.2|).foldl max 0 with hf
  have heq : linNormalize d = d.map fun p => (p.1, p.2 * f⁻¹) := by
    unfold linNormalize
    rw [if_neg (by simpa using hne)]
    simp only [← hf]
    rw [if_neg h1.ne', linMk_of_nonzero]
    · simp [div_eq_mul_inv]
    · intro q hq
      obtain ⟨r, hr, rfl⟩ := List.mem_map.mp hq
      exact div_ne_zero (h.2 r hr) h1.ne'
  have hfp : (0 : ℚ) < f⁻¹ := inv_pos.mpr h1
  rw [heq]
  refine ⟨⟨h.1.mapVal _, ?_⟩, ?_, ?_, ⟨_, List.mem_map.mpr ⟨p, hp, rfl⟩, ?_⟩⟩
  · intro q hq
    obtain ⟨r, hr, rfl⟩ := List.mem_map.mp hq
    exact mul_ne_zero (h.2 r hr) hfp.ne'
  · ext ρ
    simp only [halfSpace, Set.mem_ofPred_eq]
    rw [polyEval_scale, mul_neg_iff]
    have hfk : (0 : K) < ((f⁻¹ : ℚ) : K) := by exact_mod_cast hfp
    constructor
    · rintro (⟨_, h'⟩ | ⟨h', _⟩)
      · exact absurd h' (not_lt.mpr hfk.le)
      · exact h'
    · exact fun h' => Or.inr ⟨h', hfk⟩
  · intro q hq
    obtain ⟨r, hr, rfl⟩ := List.mem_map.mp hq
    rw [abs_mul, abs_of_pos hfp]
    rw [← div_eq_mul_inv, div_le_one h1]; exact h2 r hr
  · rw [abs_mul, abs_of_pos hfp, h3, mul_inv_cancel₀ h1.ne']

/-- **C10**: `inverted` describes the complement up to the boundary. -/
theorem linInverted_correct {d : Dict} (h : WFLin d) :
    WFLin (linInverted d) ∧ halfSpace (linInverted d) K = {ρ | 0 < polyEval ρ d} := by
  have hz : ∀ p ∈ d.map (fun p => (p.1, -p.2)), p.2 ≠ 0 := by
    intro q hq
    obtain ⟨r, hr, rfl⟩ := List.mem_map.mp hq
    exact neg_ne_zero.mpr (h.2 r hr)
  have heq : linInverted d = d.map fun p => (p.1, -p.2) := linMk_of_nonzero hz
  refine ⟨heq ▸ ⟨h.1.mapVal _, hz⟩, ?_⟩
  ext ρ
  simp only [halfSpace, Set.mem_ofPred_eq, heq]
  rw [show (d.map fun p => (p.1, -p.2)) = dictNeg d from rfl, polyEval_dictNeg, neg_lt_zero]

/-- **C10**: `scale_to_integer` succeeds on every inequality with a coefficient, keeps the half-space, gives
integer coefficients, and no integer greater than one divides all of them. -/
theorem linScaleToInteger_correct {d : Dict} (h : WFLin d) (hne : d ≠ []) :
    ∃ e, linScaleToInteger d = .ok e ∧ WFLin e ∧ halfSpace e K = halfSpace d K ∧
      (∀ p ∈ e, ∃ z : ℤ, p.2 = z) ∧
      ∀ c : ℕ, (∀ p ∈ e, ∃ z : ℤ, p.2 = c * z) → c = 1 := by
  obtain ⟨L, g, hL, hg, h1, h2, h3⟩ := scale_spec h.2 hne
  have hs : (0 : ℚ) < (L : ℚ) / g := div_pos (by exact_mod_cast hL) (by exact_mod_cast hg)
  refine ⟨_, h1, ⟨h.1.mapVal _, ?_⟩, ?_, ?_, ?_⟩
  · intro q hq
    obtain ⟨r, hr, rfl⟩ := List.mem_map.mp hq
    exact mul_ne_zero (h.2 r hr) hs.ne'
  · ext ρ
    simp only [halfSpace, Set.mem_ofPred_eq]
    rw [polyEval_scale, mul_neg_iff]
    have hfk : (0 : K) < (((L : ℚ) / g : ℚ) : K) := by exact_mod_cast hs
    constructor
    · rintro (⟨_, h'⟩ | ⟨h', _⟩)
      · exact absurd h' (not_lt.mpr hfk.le)
      · exact h'
    · exact fun h' => Or.inr ⟨h', hfk⟩
  · intro q hq
    obtain ⟨r, hr, rfl⟩ := List.mem_map.mp hq
    exact h2 r hr
  · intro c hc
    exact h3 c fun p hp => hc _ (List.mem_map.mpr ⟨p, hp, rfl⟩)

end

/-- `LinearInequality.from_smt` only returns well-formed inequalities. -/
theorem linFromSmt_wf {l r g : Formula} (hl : wt .real l = true) (hr : wt .real r = true)
    (hg : g = .le l r ∨ g = .lt l r) {q : Dict} (h : linFromSmt g = .ok q) : WFLin q := by
  obtain ⟨c, hc, he, hk, hn, hz⟩ := linFromSmt_cmp (K := ℚ) hl hr hg h
  exact ⟨hn, hz⟩

/-! ## Concrete cases meeting the hypotheses -/

/-- `(x + 2*y)^2 - 3*(x*y + 4)`. -/
def samplePoly : Formula :=
  .minus (.pow (.plus [.sym "x" .real, .times [.realC 2, .sym "y" .real]]) (.realC 2))
    (.times [.realC 3, .plus [.times [.sym "y" .real, .sym "x" .real], .realC 4]])

example : polyTerm samplePoly = true ∧ zeroPowFree samplePoly = true := by decide +kernel
example : polyFromSmt samplePoly =
    .ok [(["x", "x"], 1), (["x", "y"], 1), (["y", "y"], 4), ([], -12)] := by decide +kernel

/-- `2*x - 3/2*y <= 4*y + 6`. -/
def sampleIneq : Formula :=
  .le (.minus (.times [.realC 2, .sym "x" .real]) (.times [.sym "y" .real, .realC (3/2)]))
    (.plus [.times [.realC 4, .sym "y" .real], .realC 6])

example : linTerm (.minus (.times [.realC 2, .sym "x" .real]) (.times [.sym "y" .real, .realC (3/2)])) = true ∧
    linTerm (.plus [.times [.realC 4, .sym "y" .real], .realC 6]) = true := by decide +kernel
example : linFromSmt sampleIneq = .ok [(["x"], 1/3), (["y"], -11/12), ([], -1)] := by decide +kernel
example : linScaleToInteger [(["x"], 1/3), (["y"], -11/12), ([], -1)] =
    .ok [(["x"], 4), (["y"], -11), ([], -12)] := by decide +kernel
example : linNormalize [(["x"], 2), (["y"], -4)] = [(["x"], 1/2), (["y"], -1)] := by decide +kernel
example : WFLin [(["x"], 1/3), (["y"], -11/12), ([], -1)] := by
  constructor
  · simp [KeysNodup]
  · decide +kernel
example : linFromSmt (.lt (.times [.sym "x" .real, .sym "y" .real]) (.realC 1)) = .error .valueError := by
  decide +kernel
/-- The non-affine hypothesis of `linFromSmt_nonlinear` is satisfiable. -/
theorem product_not_affine : ¬AffineDiff (.times [.sym "x" .real, .sym "x" .real]) (.realC 0) ℚ := by
  rintro ⟨c, cs, h⟩
  have key : ∀ t : ℚ, ((cs.map fun p => p.2 * t).sum : ℚ) = (cs.map fun p => p.2).sum * t := by
    intro t; rw [List.sum_map_mul_right]
  have e : ∀ t : ℚ, t * t = c + (cs.map fun p => p.2).sum * t := by
    intro t
    have := h ⟨fun _ => false, fun _ => t⟩
    simp only [value, valueProd] at this
    rw [← key t]
    simpa using this
  have h0 := e 0
  have h1 := e 1
  have h2 := e 2
  linarith

end Pywmi
