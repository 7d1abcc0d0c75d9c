import Verif.Xsdd.Piecewise
import Verif.Props.Math

set_option linter.unusedSectionVars false
set_option linter.unusedSimpArgs false

/-!
# C45, C46: piecewise functions
-/

namespace Pywmi
open Formula Prog

/-! ## Specification -/

section
variable {K : Type} [Field K]
/-- SPEC: value of an expression at a point. -/
def PExpr.eval (ρ : String → K) : PExpr → K
  | .int n => (n : K)
  | .poly d => polyEval ρ d
end

section
variable {K : Type} [Field K] [LinearOrder K]
/-- SPEC: value of one piece: the expression where the support holds, 0 elsewhere. -/
def pieceVal (σ : Env K) (p : PExpr × Formula) : K := if truth σ p.2 then p.1.eval σ.r else 0
/-- SPEC: value of a piecewise function: the sum of its pieces. -/
def piecesVal (σ : Env K) (P : List (PExpr × Formula)) : K := (P.map (pieceVal σ)).sum

@[simp] theorem piecesVal_nil (σ : Env K) : piecesVal σ [] = 0 := rfl
@[simp] theorem piecesVal_cons (σ : Env K) (p : PExpr × Formula) (P : List (PExpr × Formula)) :
    piecesVal σ (p :: P) = pieceVal σ p + piecesVal σ P := by simp [piecesVal]
theorem piecesVal_append (σ : Env K) (P Q : List (PExpr × Formula)) :
    piecesVal σ (P ++ Q) = piecesVal σ P + piecesVal σ Q := by simp [piecesVal]
end

/-- A polynomial expression with a well-formed dictionary. -/
def PExpr.Good (e : PExpr) : Prop := ∃ d, e = .poly d ∧ WFPoly d

/-- Keys are polynomials, and distinct. -/
def Pieces.Good (P : Pieces) : Prop := (∀ p ∈ P, p.1.Good) ∧ P.Pairwise fun p q => p.1.eq q.1 = false

/-- The simplifier keeps truth values. -/
def SimpOk (simp : Formula → Formula) (K : Type) [Field K] [LinearOrder K] : Prop :=
  ∀ (σ : Env K) f, truth σ (simp f) = truth σ f

/-! ## Expressions -/

theorem polyEq_perm {p q : Dict} (hp : KeysNodup p) (hq : KeysNodup q) : polyEq p q = true ↔ p.Perm q := by
  simp only [polyEq, Bool.and_eq_true, List.all_eq_true, decide_eq_true_eq]
  constructor
  · intro h
    apply (List.perm_ext_iff_of_nodup (List.Nodup.of_map _ hp) (List.Nodup.of_map _ hq)).mpr
    intro e
    exact ⟨fun he => mem_of_lookup (h.1 e he), fun he => mem_of_lookup (h.2 e he)⟩
  · intro h
    exact ⟨fun e he => lookup_of_mem hq (h.mem_iff.mp he), fun e he => lookup_of_mem hp (h.mem_iff.mpr he)⟩

theorem wf_const (c : ℚ) : WFPoly (polyConst c) := ⟨by simp [KeysNodup, polyConst], by simp [polyConst]⟩

namespace PExpr

theorem good_poly {d : Dict} (h : WFPoly d) : Good (.poly d) := ⟨d, rfl, h⟩
theorem good_const (c : ℚ) : Good (.poly (polyConst c)) := ⟨_, rfl, wf_const c⟩
theorem good_zero : Good zero := good_const 0
theorem good_one : Good one := good_const 1

theorem eq_iff {p q : Dict} (hp : WFPoly p) (hq : WFPoly q) : (poly p).eq (poly q) = true ↔ p.Perm q :=
  polyEq_perm hp.1 hq.1

theorem eq_refl {a : PExpr} (h : a.Good) : a.eq a = true := by
  obtain ⟨d, rfl, hd⟩ := h; exact (eq_iff hd hd).mpr (List.Perm.refl _)
theorem eq_symm {a b : PExpr} (ha : a.Good) (hb : b.Good) (h : a.eq b = true) : b.eq a = true := by
  obtain ⟨d, rfl, hd⟩ := ha; obtain ⟨e, rfl, he⟩ := hb
  exact (eq_iff he hd).mpr ((eq_iff hd he).mp h).symm
theorem eq_comm_false {a b : PExpr} (ha : a.Good) (hb : b.Good) (h : a.eq b = false) : b.eq a = false := by
  cases hc : b.eq a with
  | false => rfl
  | true => rw [eq_symm hb ha hc] at h; cases h
theorem eq_trans {a b c : PExpr} (ha : a.Good) (hb : b.Good) (hc : c.Good) (h : a.eq b = true) (h' : b.eq c = true) :
    a.eq c = true := by
  obtain ⟨d, rfl, hd⟩ := ha; obtain ⟨e, rfl, he⟩ := hb; obtain ⟨f, rfl, hf⟩ := hc
  exact (eq_iff hd hf).mpr (((eq_iff hd he).mp h).trans ((eq_iff he hf).mp h'))

section
variable {K : Type} [Field K] [LinearOrder K] [IsStrictOrderedRing K]

theorem eval_eq {a b : PExpr} (ha : a.Good) (hb : b.Good) (h : a.eq b = true) (ρ : String → K) : a.eval ρ = b.eval ρ := by
  obtain ⟨d, rfl, hd⟩ := ha; obtain ⟨e, rfl, he⟩ := hb
  exact (((eq_iff hd he).mp h).map _).sum_eq

theorem eval_zero (ρ : String → K) : zero.eval ρ = 0 := by simp [zero, eval, polyConst]
theorem eval_one (ρ : String → K) : one.eval ρ = 1 := by simp [one, eval, polyConst]

theorem mulDict_eval (p q : Dict) (ρ : String → K) : polyEval ρ (mulDict p q) = polyEval ρ p * polyEval ρ q := by
  obtain ⟨d, h1, h2⟩ := polyMul_eval (K := K) p q
  simp only [mulDict, h1, h2]

theorem mulDict_wf {p q : Dict} (hp : WFPoly p) (hq : WFPoly q) : WFPoly (mulDict p q) := by
  obtain ⟨d, h1, _⟩ := polyMul_eval (K := ℚ) p q
  simp only [mulDict, h1]
  exact (poly_wf hp hq).2 d h1

/-- **C58/C45**: the product of two polynomial expressions is pointwise, shortcuts included. -/
theorem times_good {a b : PExpr} (ha : a.Good) (hb : b.Good) :
    (a.times b).Good ∧ ∀ ρ : String → K, (a.times b).eval ρ = a.eval ρ * b.eval ρ := by
  unfold times
  split
  · rename_i h
    refine ⟨good_zero, fun ρ => ?_⟩
    rw [eval_zero]
    rcases (Bool.or_eq_true _ _).mp h with h | h
    · rw [eval_eq ha good_zero h, eval_zero, zero_mul]
    · rw [eval_eq hb good_zero h, eval_zero, mul_zero]
  · split
    · rename_i h
      exact ⟨hb, fun ρ => by rw [eval_eq ha good_one h, eval_one, one_mul]⟩
    · split
      · rename_i h
        exact ⟨ha, fun ρ => by rw [eval_eq hb good_one h, eval_one, mul_one]⟩
      · obtain ⟨d, rfl, hd⟩ := ha; obtain ⟨e, rfl, he⟩ := hb
        exact ⟨good_poly (mulDict_wf hd he), fun ρ => mulDict_eval d e ρ⟩

theorem timesExpr_good {a b : PExpr} (ha : a.Good) (hb : b.Good) :
    (Pieces.timesExpr a b).Good ∧ ∀ ρ : String → K, (Pieces.timesExpr a b).eval ρ = a.eval ρ * b.eval ρ := by
  unfold Pieces.timesExpr
  split
  · rename_i h
    exact ⟨hb, fun ρ => by rw [eval_eq ha good_one h, eval_one, one_mul]⟩
  · split
    · rename_i h
      exact ⟨ha, fun ρ => by rw [eval_eq hb good_one h, eval_one, mul_one]⟩
    · exact times_good ha hb

theorem negate_good {a : PExpr} (ha : a.Good) :
    a.negate.Good ∧ ∀ ρ : String → K, a.negate.eval ρ = -a.eval ρ := by
  obtain ⟨h1, h2⟩ := times_good (K := K) ha (good_const (-1))
  exact ⟨h1, fun ρ => by rw [negate, h2]; simp [eval, polyConst]⟩

/-- Doubling a polynomial: pointwise, and a polynomial again unless it is the constant 1. -/
theorem double_good {a : PExpr} (ha : a.Good) :
    (a.eq one = false → a.double.Good) ∧ ∀ ρ : String → K, a.double.eval ρ = 2 * a.eval ρ := by
  obtain ⟨d, rfl, hd⟩ := ha
  have h0 : (int 2).eq zero = false := rfl
  have h1 : (int 2).eq one = false := rfl
  unfold double times
  rw [h0, h1]
  simp only [Bool.false_or, if_false, Bool.false_eq_true]
  split
  · rename_i h
    refine ⟨fun _ => good_zero, fun ρ => ?_⟩
    rw [eval_zero, eval_eq (good_poly hd) good_zero h, eval_zero, mul_zero]
  · split
    · rename_i h
      refine ⟨fun h' => by simp_all, fun ρ => ?_⟩
      rw [eval_eq (good_poly hd) good_one h, eval_one]
      simp [eval]
    · refine ⟨fun _ => good_poly (mulDict_wf hd (wf_const _)), fun ρ => ?_⟩
      show polyEval ρ (mulDict d (polyConst _)) = _
      rw [mulDict_eval, mul_comm]
      simp [polyConst, eval]
end
end PExpr

/-! ## Dictionaries of pieces -/

namespace Pieces

theorem mem_del {P : Pieces} {e : PExpr} {p : PExpr × Formula} : p ∈ P.del e ↔ p ∈ P ∧ p.1.eq e = false := by
  simp [del]
theorem Good.sublist {P Q : Pieces} (h : P.Good) (hs : List.Sublist Q P) : Q.Good :=
  ⟨fun p hp => h.1 p (hs.subset hp), h.2.sublist hs⟩
theorem Good.del {P : Pieces} (h : P.Good) (e : PExpr) : (P.del e).Good := h.sublist List.filter_sublist
theorem Good.tail {p : PExpr × Formula} {P : Pieces} (h : Pieces.Good (p :: P)) : Pieces.Good P :=
  h.sublist (List.sublist_cons_self ..)

theorem get_none {P : Pieces} {e : PExpr} : P.get e = none ↔ ∀ p ∈ P, p.1.eq e = false := by
  simp [get, List.find?_eq_none]

theorem get_cons (p : PExpr × Formula) (P : Pieces) (e : PExpr) :
    Pieces.get (p :: P) e = if p.1.eq e then some p.2 else P.get e := by
  simp only [get, List.find?_cons]; split <;> simp_all

theorem get_some {P : Pieces} {e : PExpr} {c : Formula} (h : P.get e = some c) : ∃ k, (k, c) ∈ P ∧ k.eq e = true := by
  induction P with
  | nil => simp [get] at h
  | cons p P ih =>
    rw [get_cons] at h
    split at h
    · rename_i he
      cases h
      exact ⟨p.1, by simp, he⟩
    · obtain ⟨k, hk, hke⟩ := ih h
      exact ⟨k, by simp [hk], hke⟩

theorem del_eq_self {P : Pieces} {e : PExpr} (h : P.get e = none) : P.del e = P := by
  rw [del, List.filter_eq_self]
  intro p hp
  simp [get_none.mp h p hp]

theorem set_keys {P : Pieces} {e : PExpr} {c : Formula} {p : PExpr × Formula} (h : p ∈ P.set e c) :
    p = (e, c) ∨ ∃ q ∈ P, q.1 = p.1 := by
  induction P with
  | nil => simp [set] at h; exact Or.inl h
  | cons q P ih =>
    simp only [set] at h
    split at h
    · rcases List.mem_cons.mp h with rfl | h
      · exact Or.inr ⟨q, by simp, rfl⟩
      · exact Or.inr ⟨p, by simp [h], rfl⟩
    · rcases List.mem_cons.mp h with rfl | h
      · exact Or.inr ⟨_, by simp, rfl⟩
      · rcases ih h with h | ⟨q', hq', he⟩
        · exact Or.inl h
        · exact Or.inr ⟨q', by simp [hq'], he⟩

theorem Good.set {P : Pieces} (h : P.Good) {e : PExpr} (he : e.Good) (c : Formula) : (P.set e c).Good := by
  induction P with
  | nil => exact ⟨by simp [Pieces.set, he], by simp [Pieces.set]⟩
  | cons q P ih =>
    obtain ⟨h1, h2⟩ := h
    obtain ⟨h2, h3⟩ := List.pairwise_cons.mp h2
    have hP : Pieces.Good P := ⟨fun p hp => h1 p (by simp [hp]), h3⟩
    simp only [Pieces.set]
    split
    · exact ⟨List.forall_mem_cons.mpr ⟨h1 q (by simp), hP.1⟩, List.pairwise_cons.mpr ⟨h2, h3⟩⟩
    · rename_i hne
      refine ⟨List.forall_mem_cons.mpr ⟨h1 q (by simp), (ih hP).1⟩, List.pairwise_cons.mpr ⟨?_, (ih hP).2⟩⟩
      intro p hp
      rcases set_keys hp with rfl | ⟨q', hq', hk⟩
      · simpa using hne
      · rw [← hk]; exact h2 q' hq'

section
variable {K : Type} [Field K] [LinearOrder K] [IsStrictOrderedRing K]

theorem val_key {a b : PExpr} (ha : a.Good) (hb : b.Good) (h : a.eq b = true) (c : Formula) (σ : Env K) :
    pieceVal σ (a, c) = pieceVal σ (b, c) := by
  simp only [pieceVal, PExpr.eval_eq ha hb h]

/-- Reading: a dictionary is the entry of a key plus the rest. -/
theorem val_get {P : Pieces} (h : P.Good) {e : PExpr} (he : e.Good) {c : Formula} (hg : P.get e = some c) (σ : Env K) :
    piecesVal σ P = pieceVal σ (e, c) + piecesVal σ (P.del e) := by
  induction P with
  | nil => simp [get] at hg
  | cons q P ih =>
    have hq := h.1 q (by simp)
    obtain ⟨h2, h3⟩ := List.pairwise_cons.mp h.2
    rw [get_cons] at hg
    split at hg
    · rename_i hqe
      cases hg
      have : Pieces.get P e = none := get_none.mpr fun p hp => by
        cases hpe : p.1.eq e with
        | false => rfl
        | true =>
          have hp' := h.1 p (by simp [hp])
          have := PExpr.eq_trans hq he hp' hqe (PExpr.eq_symm hp' he hpe)
          rw [h2 p hp] at this; cases this
      have hd : Pieces.del (q :: P) e = P := by
        rw [del, List.filter_cons_of_neg (by simp [hqe])]; exact del_eq_self this
      rw [hd, piecesVal_cons, ← val_key hq he hqe]
    · rename_i hqe
      have hd : Pieces.del (q :: P) e = q :: Pieces.del P e := by rw [del, List.filter_cons_of_pos (by simp [hqe])]; rfl
      rw [hd, piecesVal_cons, piecesVal_cons, ih h.tail hg]
      ring

/-- Writing: the new entry plus the rest. -/
theorem val_set {P : Pieces} (h : P.Good) {e : PExpr} (he : e.Good) (c : Formula) (σ : Env K) :
    piecesVal σ (P.set e c) = pieceVal σ (e, c) + piecesVal σ (P.del e) := by
  induction P with
  | nil => simp [set, del]
  | cons q P ih =>
    have hq := h.1 q (by simp)
    obtain ⟨h2, h3⟩ := List.pairwise_cons.mp h.2
    simp only [set]
    split
    · rename_i hqe
      have : Pieces.get P e = none := get_none.mpr fun p hp => by
        cases hpe : p.1.eq e with
        | false => rfl
        | true =>
          have hp' := h.1 p (by simp [hp])
          have := PExpr.eq_trans hq he hp' hqe (PExpr.eq_symm hp' he hpe)
          rw [h2 p hp] at this; cases this
      have hd : Pieces.del (q :: P) e = P := by
        rw [del, List.filter_cons_of_neg (by simp [hqe])]; exact del_eq_self this
      rw [hd, piecesVal_cons, val_key hq he hqe]
    · rename_i hqe
      have hd : Pieces.del (q :: P) e = q :: Pieces.del P e := by rw [del, List.filter_cons_of_pos (by simp [hqe])]; rfl
      rw [hd, piecesVal_cons, piecesVal_cons, ih h.tail]
      ring

theorem pieceVal_false {c : Formula} (h : isFalse c = true) (e : PExpr) (σ : Env K) : pieceVal σ (e, c) = 0 := by
  have : c = .boolC false := by simpa [isFalse] using h
  simp [pieceVal, this, truth]

/-- SPEC: adding this piece merges it with an equal expression whose double is already present, or yields the Python
integer 2 as an expression. -/
def Clash (simp : Formula → Formula) (P : Pieces) (e : PExpr) (c : Formula) : Prop :=
  isFalse c = false ∧ ∃ old, P.get e = some old ∧
    ((P.get e.double).isSome = true ∨ (e.eq .one = true ∧ isFalse (simp (mkAnd [old, c])) = false))

/-- **C45** (one piece): without a clash, adding a piece succeeds and adds its value everywhere. -/
theorem addPiece_correct {simp : Formula → Formula} (hs : SimpOk simp K) {P : Pieces} (hP : P.Good) {e : PExpr}
    (he : e.Good) {c : Formula} (hc : ¬Clash simp P e c) :
    ∃ Q, addPiece simp P e c = .ok Q ∧ Q.Good ∧ ∀ σ : Env K, piecesVal σ Q = piecesVal σ P + pieceVal σ (e, c) := by
  unfold addPiece
  by_cases hf : isFalse c = true
  · rw [if_pos hf]
    exact ⟨P, rfl, hP, fun σ => by rw [pieceVal_false hf, add_zero]⟩
  · rw [if_neg hf]
    cases hg : P.get e with
    | none =>
      refine ⟨_, rfl, hP.set he _, fun σ => ?_⟩
      rw [val_set hP he, del_eq_self hg, add_comm]
      simp only [pieceVal]
      rw [hs]
    | some old =>
      have hc' : P.get e.double = none ∧ (e.eq .one = true → isFalse (simp (mkAnd [old, c])) = true) := by
        constructor
        · cases hd : P.get e.double with
          | none => rfl
          | some x => exact absurd ⟨by simpa using hf, old, hg, Or.inl (by simp [hd])⟩ hc
        · intro h1
          cases h2 : isFalse (simp (mkAnd [old, c])) with
          | true => rfl
          | false => exact absurd ⟨by simpa using hf, old, hg, Or.inr ⟨h1, h2⟩⟩ hc
      obtain ⟨hd, h1⟩ := hc'
      show ∃ Q, merge P e _ _ = .ok Q ∧ _
      generalize hc1 : simp (mkAnd [mkOr [old, c], mkNot (mkAnd [old, c])]) = c1
      generalize hc2 : simp (mkAnd [old, c]) = c2 at h1 ⊢
      have t1 : ∀ σ : Env K, truth σ c1 = ((truth σ old || truth σ c) && !(truth σ old && truth σ c)) := fun σ => by
        rw [← hc1, hs]; simp
      have t2 : ∀ σ : Env K, truth σ c2 = (truth σ old && truth σ c) := fun σ => by rw [← hc2, hs]; simp
      have hP1 : (if isFalse c1 = true then P.del e else P.set e c1).Good := by
        split
        · exact hP.del e
        · exact hP.set he c1
      have hv1 : ∀ σ : Env K, piecesVal σ (if isFalse c1 = true then P.del e else P.set e c1) =
          pieceVal σ (e, c1) + piecesVal σ (P.del e) := fun σ => by
        split
        · rename_i h; rw [pieceVal_false h, zero_add]
        · exact val_set hP he c1 σ
      have hd1 : (if isFalse c1 = true then P.del e else P.set e c1).get e.double = none := by
        rw [get_none] at hd ⊢
        intro p hp
        split at hp
        · exact hd p (mem_del.mp hp).1
        · rcases set_keys hp with rfl | ⟨q, hq, hk⟩
          · obtain ⟨k, hk, hke⟩ := get_some hg
            have hkd := hd (k, old) hk
            cases hed : e.eq e.double with
            | false => rfl
            | true =>
              exfalso
              by_cases hone : e.eq .one = true
              · obtain ⟨d, rfl, hdd⟩ := he
                have : (PExpr.poly d).double = .int 2 := by
                  unfold PExpr.double PExpr.times
                  have h0 : (PExpr.int 2).eq .zero = false := rfl
                  have h1' : (PExpr.int 2).eq .one = false := rfl
                  rw [h0, h1']
                  have hz : (PExpr.poly d).eq .zero = false := by
                    cases hz : (PExpr.poly d).eq .zero with
                    | false => rfl
                    | true =>
                      have a := (PExpr.eq_iff hdd (wf_const 0)).mp hz
                      have b := (PExpr.eq_iff hdd (wf_const 1)).mp hone
                      have := a.symm.trans b
                      simp [polyConst] at this
                  simp [hz, hone]
                rw [this] at hed
                cases hed
              · have hdg := (PExpr.double_good (K := K) he).1 (by simpa using hone)
                have := PExpr.eq_trans (hP.1 _ hk) he hdg hke hed
                rw [hkd] at this; cases this
          · rw [← hk]; exact hd q hq
      unfold merge
      simp only
      split
      · rename_i hf2
        refine ⟨_, rfl, hP1.del _, fun σ => ?_⟩
        rw [del_eq_self hd1, hv1, val_get hP he hg]
        have := t2 σ
        have hc2f : truth σ c2 = false := by
          have : c2 = .boolC false := by simpa [isFalse] using hf2
          rw [this]; rfl
        rw [hc2f] at this
        have t1 := t1 σ
        simp only [pieceVal, t1]
        cases h1 : truth σ old <;> cases h2 : truth σ c <;> simp [h1, h2] at this ⊢ <;> ring
      · rename_i hf2
        have hone : e.eq .one = false := by
          cases h : e.eq .one with
          | false => rfl
          | true => exact absurd (h1 h) hf2
        obtain ⟨g1, g2⟩ := PExpr.double_good (K := K) he
        rw [hd1]
        refine ⟨_, rfl, hP1.set (g1 hone) _, fun σ => ?_⟩
        rw [val_set hP1 (g1 hone), del_eq_self hd1, hv1, val_get hP he hg]
        have t1 := t1 σ
        have t2 := t2 σ
        simp only [pieceVal, t1, t2, g2]
        cases h1 : truth σ old <;> cases h2 : truth σ c <;> simp [h1, h2] <;> ring

/-- The value of a list of pieces depends on the pieces with a non-zero value only. -/
theorem val_filter (P : List (PExpr × Formula)) (f : PExpr × Formula → Bool) (σ : Env K)
    (h : ∀ p ∈ P, f p = false → pieceVal σ p = 0) : piecesVal σ (P.filter f) = piecesVal σ P := by
  induction P with
  | nil => rfl
  | cons p P ih =>
    have ih := ih fun q hq => h q (by simp [hq])
    rw [List.filter_cons]
    split
    · simp [ih]
    · rename_i hf
      rw [ih, piecesVal_cons, h p (by simp) (by simpa using hf), zero_add]

instance (simp : Formula → Formula) (P : Pieces) (e : PExpr) (c : Formula) : Decidable (Clash simp P e c) := by
  unfold Clash
  cases h : P.get e with
  | none => exact Decidable.isFalse (by rintro ⟨_, _, h, _⟩; cases h)
  | some old =>
    refine decidable_of_iff (isFalse c = false ∧
      ((P.get e.double).isSome = true ∨ (e.eq .one = true ∧ isFalse (simp (mkAnd [old, c])) = false))) ?_
    simp

/-- SPEC: adding pieces in the way of the code, but failing at the first clash.  A run of this adder is a run of the code
without clashes. -/
def clashFree (simp : Formula → Formula) : Adder := fun P e c =>
  if Clash simp P e c then .error .other else addPiece simp P e c

theorem clashFree_ok {simp : Formula → Formula} {P Q : Pieces} {e : PExpr} {c : Formula}
    (h : clashFree simp P e c = .ok Q) : ¬Clash simp P e c ∧ addPiece simp P e c = .ok Q := by
  unfold clashFree at h
  split at h
  · cases h
  · exact ⟨by assumption, h⟩

theorem addAll_correct {simp : Formula → Formula} (hs : SimpOk simp K) : ∀ {ps : List (PExpr × Formula)} {P Q : Pieces},
    P.Good → (∀ p ∈ ps, p.1.Good) → addAll (clashFree simp) P ps = .ok Q →
    addAll (addPiece simp) P ps = .ok Q ∧ Q.Good ∧ ∀ σ : Env K, piecesVal σ Q = piecesVal σ P + piecesVal σ ps := by
  intro ps
  induction ps with
  | nil =>
    intro P Q hP _ h
    simp only [addAll, Except.ok.injEq] at h
    subst h
    exact ⟨rfl, hP, fun σ => by simp⟩
  | cons p ps ih =>
    intro P Q hP hps h
    rw [addAll] at h
    cases h1 : clashFree simp P p.1 p.2 with
    | error e => rw [h1] at h; cases h
    | ok P' =>
      rw [h1] at h
      obtain ⟨c1, c2⟩ := clashFree_ok h1
      obtain ⟨Q', d1, d2, d3⟩ := addPiece_correct hs hP (hps p (by simp)) c1
      rw [c2] at d1
      cases d1
      obtain ⟨e1, e2, e3⟩ := ih d2 (fun q hq => hps q (by simp [hq])) h
      refine ⟨by rw [addAll, c2]; exact e1, e2, fun σ => ?_⟩
      rw [e3, d3, piecesVal_cons]
      ring

/-- Pieces with new, pairwise different expressions never clash. -/
theorem addAll_fresh {simp : Formula → Formula} : ∀ {ps : List (PExpr × Formula)} {P : Pieces}, P.Good →
    (∀ p ∈ ps, p.1.Good) → (∀ p ∈ ps, P.get p.1 = none) → (ps.Pairwise fun p q => p.1.eq q.1 = false) →
    ∃ Q, addAll (clashFree simp) P ps = .ok Q := by
  intro ps
  induction ps with
  | nil => intro P _ _ _ _; exact ⟨P, rfl⟩
  | cons p ps ih =>
    intro P hP hps hf hd
    obtain ⟨hd1, hd2⟩ := List.pairwise_cons.mp hd
    have hc : ¬Clash simp P p.1 p.2 := by
      rintro ⟨_, old, h, _⟩
      rw [hf p (by simp)] at h; cases h
    rw [addAll, clashFree, if_neg hc, addPiece]
    by_cases h : isFalse p.2 = true
    · rw [if_pos h]
      exact ih hP (fun q hq => hps q (by simp [hq])) (fun q hq => hf q (by simp [hq])) hd2
    · rw [if_neg h, hf p (by simp)]
      refine ih (hP.set (hps p (by simp)) _) (fun q hq => hps q (by simp [hq])) (fun q hq => ?_) hd2
      rw [get_none]
      intro r hr
      rcases set_keys hr with rfl | ⟨r', hr', hk⟩
      · exact hd1 q hq
      · rw [← hk]; exact get_none.mp (hf q (by simp [hq])) r' hr'

/-- **C45**, addition: if no clash occurs, `f + g` is the pointwise sum. -/
theorem add_correct_partial {simp : Formula → Formula} (hs : SimpOk simp K) {F G Q : Pieces} (hF : F.Good) (hG : G.Good)
    (h : add (clashFree simp) F G = .ok Q) :
    add (addPiece simp) F G = .ok Q ∧ Q.Good ∧ ∀ σ : Env K, piecesVal σ Q = piecesVal σ F + piecesVal σ G := by
  unfold add at h ⊢
  split at h
  · rename_i he
    rw [if_pos he]
    cases h
    have : F = [] := by simpa using he
    subst this
    exact ⟨rfl, hG, fun σ => by simp⟩
  · rename_i he
    rw [if_neg he]
    split at h
    · rename_i he'
      rw [if_pos he']
      cases h
      have : G = [] := by simpa using he'
      subst this
      exact ⟨rfl, hF, fun σ => by simp⟩
    · rename_i he'
      rw [if_neg he']
      have hg : ∀ p ∈ F ++ G, p.1.Good := fun p hp => by
        rcases List.mem_append.mp hp with hp | hp
        · exact hF.1 p hp
        · exact hG.1 p hp
      obtain ⟨e1, e2, e3⟩ := addAll_correct hs ⟨by simp, by simp⟩ (fun p hp => hg p (List.mem_filter.mp hp).1) h
      refine ⟨e1, e2, fun σ => ?_⟩
      rw [e3, val_filter, piecesVal_append]
      · simp
      · intro p hp hf
        simp only [Bool.and_eq_false_iff, Bool.not_eq_false'] at hf
        rcases hf with hf | hf
        · exact pieceVal_false hf p.1 σ
        · simp [pieceVal, PExpr.eval_eq (hg p hp) PExpr.good_zero hf, PExpr.eval_zero]

/-- **C45**, addition of functions without a common expression: always succeeds and is the pointwise sum. -/
theorem add_disjoint {simp : Formula → Formula} (hs : SimpOk simp K) {F G : Pieces} (hF : F.Good) (hG : G.Good)
    (hd : ∀ p ∈ F, ∀ q ∈ G, p.1.eq q.1 = false) :
    ∃ Q, add (addPiece simp) F G = .ok Q ∧ Q.Good ∧ ∀ σ : Env K, piecesVal σ Q = piecesVal σ F + piecesVal σ G := by
  have : ∃ Q, add (clashFree simp) F G = .ok Q := by
    unfold add
    split
    · exact ⟨_, rfl⟩
    · split
      · exact ⟨_, rfl⟩
      · have hg : ∀ p ∈ F ++ G, p.1.Good := fun p hp => by
          rcases List.mem_append.mp hp with hp | hp
          · exact hF.1 p hp
          · exact hG.1 p hp
        exact addAll_fresh ⟨by simp, by simp⟩ (fun p hp => hg p (List.mem_filter.mp hp).1) (fun p _ => rfl)
          ((List.pairwise_append.mpr ⟨hF.2, hG.2, hd⟩).sublist List.filter_sublist)
  obtain ⟨Q, hQ⟩ := this
  exact ⟨Q, add_correct_partial hs hF hG hQ⟩

theorem mulPair_correct {simp : Formula → Formula} (hs : SimpOk simp K) {p q : PExpr × Formula} (hp : p.1.Good)
    (hq : q.1.Good) : (∀ r ∈ mulPair simp p q, r.1.Good) ∧
      ∀ σ : Env K, piecesVal σ (mulPair simp p q) = pieceVal σ p * pieceVal σ q := by
  obtain ⟨g1, g2⟩ := PExpr.timesExpr_good (K := K) hp hq
  have key : ∀ σ : Env K, pieceVal σ p * pieceVal σ q =
      if truth σ (simp (mkAnd [p.2, q.2])) then (timesExpr p.1 q.1).eval σ.r else 0 := fun σ => by
    rw [hs, g2]
    cases h1 : truth σ p.2 <;> cases h2 : truth σ q.2 <;> simp [pieceVal, h1, h2]
  unfold mulPair
  simp only
  split
  · split
    · refine ⟨by simpa using g1, fun σ => ?_⟩
      rw [key, piecesVal_cons, piecesVal_nil, add_zero]
      rfl
    · rename_i hz
      refine ⟨by simp, fun σ => ?_⟩
      have hz : (timesExpr p.1 q.1).eq .zero = true := by simpa using hz
      rw [key, PExpr.eval_eq g1 PExpr.good_zero hz, PExpr.eval_zero]
      simp
  · rename_i h
    refine ⟨by simp, fun σ => ?_⟩
    simp only [Bool.and_eq_true, Bool.not_eq_true', not_and, Bool.not_eq_false] at h
    rw [key]
    by_cases h1 : p.1.eq .zero = true
    · rw [g2, PExpr.eval_eq hp PExpr.good_zero h1, PExpr.eval_zero]; simp
    · by_cases h2 : q.1.eq .zero = true
      · rw [g2, PExpr.eval_eq hq PExpr.good_zero h2, PExpr.eval_zero]; simp
      · have := h ⟨by simpa using h1, by simpa using h2⟩
        have : simp (mkAnd [p.2, q.2]) = .boolC false := by simpa [isFalse] using this
        rw [this]; simp [truth]

/-- **C45**, multiplication: if no clash occurs, `f * g` is the pointwise product. -/
theorem mul_correct_partial {simp : Formula → Formula} (hs : SimpOk simp K) {F G Q : Pieces} (hF : F.Good) (hG : G.Good)
    (h : mul simp (clashFree simp) F G = .ok Q) :
    mul simp (addPiece simp) F G = .ok Q ∧ Q.Good ∧ ∀ σ : Env K, piecesVal σ Q = piecesVal σ F * piecesVal σ G := by
  unfold mul at h ⊢
  obtain ⟨e1, e2, e3⟩ := addAll_correct hs ⟨by simp, by simp⟩ (fun r hr => by
    obtain ⟨p, hp, hr⟩ := List.mem_flatMap.mp hr
    obtain ⟨q, hq, hr⟩ := List.mem_flatMap.mp hr
    exact (mulPair_correct hs (hF.1 p hp) (hG.1 q hq)).1 r hr) h
  refine ⟨e1, e2, fun σ => ?_⟩
  rw [e3, piecesVal_nil, zero_add]
  have inner : ∀ p ∈ F, ∀ G' : Pieces, (∀ q ∈ G', q.1.Good) →
      piecesVal σ (G'.flatMap fun q => mulPair simp p q) = pieceVal σ p * piecesVal σ G' := by
    intro p hp G'
    induction G' with
    | nil => simp
    | cons q G' ih =>
      intro hG'
      rw [List.flatMap_cons, piecesVal_append, (mulPair_correct hs (hF.1 p hp) (hG' q (by simp))).2,
        ih fun r hr => hG' r (by simp [hr]), piecesVal_cons]
      ring
  have outer : ∀ F' : Pieces, (∀ p ∈ F', p ∈ F) →
      piecesVal σ (F'.flatMap fun p => G.flatMap fun q => mulPair simp p q) = piecesVal σ F' * piecesVal σ G := by
    intro F'
    induction F' with
    | nil => simp
    | cons p F' ih =>
      intro hF'
      rw [List.flatMap_cons, piecesVal_append, inner p (hF' p (by simp)) G hG.1, ih fun r hr => hF' r (by simp [hr]),
        piecesVal_cons]
      ring
  exact outer F fun p hp => hp

/-- **C45**, restriction: exact, always. -/
theorem condition_correct {F : Pieces} (hF : F.Good) (c : Formula) : (F.condition c).Good ∧
    ∀ σ : Env K, piecesVal σ (F.condition c) = if truth σ c then piecesVal σ F else 0 := by
  refine ⟨⟨fun p hp => ?_, List.pairwise_map.mpr hF.2⟩, fun σ => ?_⟩
  · obtain ⟨q, hq, rfl⟩ := List.mem_map.mp hp
    exact hF.1 q hq
  · clear hF
    induction F with
    | nil => simp [condition]
    | cons p F ih =>
      have : condition (p :: F) c = (p.1, mkAnd [p.2, c]) :: condition F c := rfl
      rw [this, piecesVal_cons, ih]
      cases h1 : truth σ c <;> cases h2 : truth σ p.2 <;> simp [pieceVal, h1, h2]

/-- **C45**, case distinction. -/
theorem ite_correct_partial {simp : Formula → Formula} (hs : SimpOk simp K) {F G Q : Pieces} (hF : F.Good) (hG : G.Good)
    {c : Formula} (h : ite (clashFree simp) c F G = .ok Q) :
    ite (addPiece simp) c F G = .ok Q ∧ Q.Good ∧
      ∀ σ : Env K, piecesVal σ Q = if truth σ c then piecesVal σ F else piecesVal σ G := by
  obtain ⟨f1, f2⟩ := condition_correct (K := K) hF c
  obtain ⟨g1, g2⟩ := condition_correct (K := K) hG (mkNot c)
  obtain ⟨e1, e2, e3⟩ := add_correct_partial hs f1 g1 h
  refine ⟨e1, e2, fun σ => ?_⟩
  rw [e3, f2, g2]
  cases h : truth σ c <;> simp [h]
end

/-! ### Negation -/

/-- Multiplying a well-formed polynomial with a constant scales its coefficients. -/
theorem timesRow_const {fl : Bool} (c : ℚ) (k : Mono) (v : ℚ) (acc : Dict) :
    dictTimesRow fl k v (polyConst c) acc = .ok (dictAdd acc (sortNames k) (v * c)) := by
  simp [polyConst, dictTimesRow]

theorem dictAdd_fresh {d : Dict} {k : Mono} (h : ∀ p ∈ d, p.1 ≠ k) (v : ℚ) : dictAdd d k v = d ++ [(k, v)] := by
  induction d with
  | nil => rfl
  | cons p d ih =>
    rw [dictAdd, if_neg (h p (by simp)), ih fun q hq => h q (by simp [hq])]
    rfl

theorem sortNames_of_sorted {k : Mono} (h : k.Pairwise (· ≤ ·)) : sortNames k = k :=
  List.Perm.eq_of_pairwise' (sortNames_sorted k) h (List.perm_insertionSort _ k)

theorem timesAux_const {fl : Bool} (c : ℚ) : ∀ (d acc : Dict), WFPoly d → (∀ p ∈ acc, ∀ q ∈ d, p.1 ≠ q.1) →
    dictTimesAux fl d (polyConst c) acc = .ok (acc ++ d.map fun p => (p.1, p.2 * c)) := by
  intro d
  induction d with
  | nil => intro acc _ _; simp [dictTimesAux]
  | cons p d ih =>
    intro acc hd hacc
    obtain ⟨hn, hs⟩ := hd
    obtain ⟨hn1, hn2⟩ := List.nodup_cons.mp (show (p.1 :: d.map (·.1)).Nodup from hn)
    rw [dictTimesAux, timesRow_const]
    simp only
    rw [sortNames_of_sorted (hs p (by simp)), dictAdd_fresh fun q hq => hacc q hq p (by simp)]
    rw [ih _ ⟨hn2, fun q hq => hs q (by simp [hq])⟩]
    · simp
    · intro q hq r hr e
      rcases List.mem_append.mp hq with hq | hq
      · exact hacc q hq r (by simp [hr]) e
      · simp only [List.mem_singleton] at hq
        subst hq
        exact hn1 (List.mem_map.mpr ⟨r, hr, e.symm⟩)

theorem mulDict_const {d : Dict} (hd : WFPoly d) (c : ℚ) :
    PExpr.mulDict d (polyConst c) = d.map fun p => (p.1, p.2 * c) := by
  simp only [PExpr.mulDict, polyMul, dictTimes, timesAux_const c d [] hd (by simp), List.nil_append]

/-- The negation of a polynomial negates its coefficients, up to the order of the entries. -/
theorem negate_perm {d : Dict} (hd : WFPoly d) : ∃ e, (PExpr.poly d).negate = .poly e ∧ WFPoly e ∧
    e.Perm (d.map fun p => (p.1, p.2 * (-1))) := by
  unfold PExpr.negate PExpr.times
  have hz : (PExpr.poly (polyConst (-1))).eq .zero = false := by decide +kernel
  have ho : (PExpr.poly (polyConst (-1))).eq .one = false := by decide +kernel
  rw [hz, ho]
  simp only [Bool.or_false, Bool.false_eq_true, if_false]
  split
  · rename_i h
    have := (PExpr.eq_iff hd (wf_const 0)).mp h
    refine ⟨_, rfl, wf_const 0, ((this.map _).trans (List.Perm.of_eq ?_)).symm⟩
    simp [polyConst]
  · split
    · rename_i h
      have := (PExpr.eq_iff hd (wf_const 1)).mp h
      refine ⟨_, rfl, wf_const _, ((this.map _).trans (List.Perm.of_eq ?_)).symm⟩
      simp [polyConst]
    · refine ⟨_, rfl, PExpr.mulDict_wf hd (wf_const _), ?_⟩
      rw [mulDict_const hd]

theorem negate_eq {a b : PExpr} (ha : a.Good) (hb : b.Good) (h : a.negate.eq b.negate = true) : a.eq b = true := by
  obtain ⟨d, rfl, hd⟩ := ha; obtain ⟨e, rfl, he⟩ := hb
  obtain ⟨d', h1, h2, h3⟩ := negate_perm hd
  obtain ⟨e', g1, g2, g3⟩ := negate_perm he
  rw [h1, g1] at h
  have := h3.symm.trans (((PExpr.eq_iff h2 g2).mp h).trans g3)
  have := this.map fun p : Mono × ℚ => (p.1, p.2 * (-1))
  simp only [List.map_map] at this
  refine (PExpr.eq_iff hd he).mpr ?_
  have hid : ((fun p : Mono × ℚ => (p.1, p.2 * (-1))) ∘ fun p : Mono × ℚ => (p.1, p.2 * (-1))) = id := by
    funext p; simp
  rwa [hid, List.map_id, List.map_id] at this

section
variable {K : Type} [Field K] [LinearOrder K] [IsStrictOrderedRing K]

/-- **C45**, negation: exact for polynomial pieces. -/
theorem neg_correct {F : Pieces} (hF : F.Good) : F.neg.Good ∧ ∀ σ : Env K, piecesVal σ F.neg = -piecesVal σ F := by
  have key : ∀ (F acc : Pieces), F.Good → acc.Good → (∀ p ∈ acc, ∀ q ∈ F, p.1.eq q.1.negate = false) →
      (F.foldl (fun (acc : Pieces) p => Pieces.set acc p.1.negate p.2) acc).Good ∧ ∀ σ : Env K,
        piecesVal σ (F.foldl (fun (acc : Pieces) p => Pieces.set acc p.1.negate p.2) acc) = piecesVal σ acc - piecesVal σ F := by
    intro F
    induction F with
    | nil => intro acc _ h _; exact ⟨h, fun σ => by simp⟩
    | cons p F ih =>
      intro acc hF hacc hd
      obtain ⟨g1, g2⟩ := PExpr.negate_good (K := K) (hF.1 p (by simp))
      have hfresh : acc.get p.1.negate = none := get_none.mpr fun q hq => hd q hq p (by simp)
      obtain ⟨e1, e2⟩ := ih (acc.set p.1.negate p.2) hF.tail (hacc.set g1 _) (by
        intro q hq r hr
        rcases set_keys hq with rfl | ⟨q', hq', hk⟩
        · cases hc : p.1.negate.eq r.1.negate with
          | false => rfl
          | true =>
            have := negate_eq (hF.1 p (by simp)) (hF.1 r (by simp [hr])) hc
            rw [(List.pairwise_cons.mp hF.2).1 r hr] at this; cases this
        · rw [← hk]; exact hd q' hq' r (by simp [hr]))
      refine ⟨e1, fun σ => ?_⟩
      rw [List.foldl_cons, e2, val_set hacc g1, del_eq_self hfresh, piecesVal_cons]
      simp only [pieceVal, g2]
      split <;> ring
  obtain ⟨h1, h2⟩ := key F [] hF ⟨by simp, by simp⟩ (by simp)
  exact ⟨h1, fun σ => by rw [neg, h2]; simp⟩

theorem symbol_good (n : String) : (symbol n).Good :=
  ⟨by simp only [symbol, List.mem_singleton, forall_eq]; exact PExpr.good_poly ⟨by simp [KeysNodup], by simp⟩, by simp [symbol]⟩
theorem real_good (q : ℚ) : (real q).Good :=
  ⟨by simp only [real, List.mem_singleton, forall_eq]; exact PExpr.good_const q, by simp [real]⟩

/-! ## C46 -/

/-- The outcome of a conversion. -/
structure Conv (K : Type) [Field K] [LinearOrder K] (simp : Formula → Formula) (f : Formula) (P : Pieces) : Prop where
  run : splitUp simp f = .ok P
  good : P.Good
  val : ∀ σ : Env K, piecesVal σ P = value σ f

theorem reduce_go_correct {op op' : Pieces → Pieces → Except PyErr Pieces} {comb : K → K → K}
    (h : ∀ F G Q, F.Good → G.Good → op F G = .ok Q →
      op' F G = .ok Q ∧ Q.Good ∧ ∀ σ : Env K, piecesVal σ Q = comb (piecesVal σ F) (piecesVal σ G)) :
    ∀ {Fs : List Pieces} {F Q : Pieces}, F.Good → (∀ G ∈ Fs, G.Good) → reduce.go op F Fs = .ok Q →
      reduce.go op' F Fs = .ok Q ∧ Q.Good ∧
        ∀ σ : Env K, piecesVal σ Q = (Fs.map (piecesVal σ)).foldl comb (piecesVal σ F) := by
  intro Fs
  induction Fs with
  | nil =>
    intro F Q hF _ hr
    simp only [reduce.go, Except.ok.injEq] at hr
    subst hr
    exact ⟨rfl, hF, fun σ => rfl⟩
  | cons G Gs ih =>
    intro F Q hF hFs hr
    rw [reduce.go] at hr
    cases h1 : op F G with
    | error e => rw [h1] at hr; cases hr
    | ok H =>
      rw [h1] at hr
      obtain ⟨a, b, c⟩ := h F G H hF (hFs G (by simp)) h1
      obtain ⟨d, e, f⟩ := ih b (fun x hx => hFs x (by simp [hx])) hr
      refine ⟨by rw [reduce.go, a]; exact d, e, fun σ => ?_⟩
      rw [f, List.map_cons, List.foldl_cons, c]

theorem pieceW_decr (simp : Formula → Formula) (ad : Adder) : (pieceW simp ad).Decr := by
  apply Walker.decr_of
  · intros; trivial
  · intros; trivial
  · intro as n h; exact callsBelow_callAll h fun _ => callsBelow_ofExcept _ _ _
  · intro as n h; exact callsBelow_callAll h fun _ => callsBelow_ofExcept _ _ _
  · intros; trivial
  · intro l r
    exact ⟨by simp only [msize]; omega, fun _ => ⟨by simp only [msize]; omega, fun _ => callsBelow_ofExcept _ _ _⟩⟩
  · intro c t e n _ ht he
    exact ⟨ht, fun _ => ⟨he, fun _ => callsBelow_ofExcept _ _ _⟩⟩
  · intro b e n hb he
    refine ⟨hb, fun F => ?_⟩
    split
    · split
      · trivial
      · split
        · trivial
        · exact callsBelow_ofExcept _ _ _
    · trivial
  · intros; trivial
  · intros; trivial
  · intros; trivial
  · intro m t n; cases t <;> trivial
  · intros; trivial
  · intros; trivial
  · exact fun l r => Walker.implies_default_below l r

section
variable {simp : Formula → Formula} {ad : Adder}
theorem pieceW_list {as : List Formula} {op : Pieces → Pieces → Except PyErr Pieces} {Q : Pieces} {f : Formula}
    (hf : (pieceW simp ad).dispatch f = .callAll as fun Fs => .ofExcept (reduce op Fs)) :
    (pieceW simp ad).walk f = .ok Q ↔
      ∃ Fs, mapE (pieceW simp ad).walk as = .ok Fs ∧ reduce op Fs = .ok Q := by
  rw [Walker.walk_eq (pieceW_decr _ _), hf, interp_callAll]
  cases h : mapE (pieceW simp ad).walk as with
  | error e => simp
  | ok Fs => simp

theorem pieceW_two {l r f : Formula} {op : Pieces → Pieces → Except PyErr Pieces} {Q : Pieces}
    (hf : (pieceW simp ad).dispatch f = call2 l r op) :
    (pieceW simp ad).walk f = .ok Q ↔
      ∃ F G, (pieceW simp ad).walk l = .ok F ∧ (pieceW simp ad).walk r = .ok G ∧ op F G = .ok Q := by
  rw [Walker.walk_eq (pieceW_decr _ _), hf, interp_call2]
  cases h : (pieceW simp ad).walk l with
  | error e => simp
  | ok F =>
    cases h' : (pieceW simp ad).walk r with
    | error e => simp
    | ok G => simp
end

theorem pieceW_pow (simp : Formula → Formula) (ad : Adder) (b : Formula) (q : ℚ) :
    (pieceW simp ad).walk (.pow b (.realC q)) =
      match (pieceW simp ad).walk b with
      | .error e => .error e
      | .ok F => if q.den ≠ 1 then .error .assertionError else if q.num = 0 then .ok (real 1)
          else reduce (mul simp ad) (List.replicate q.num.toNat F) := by
  rw [Walker.walk_eq (pieceW_decr _ _)]
  show (Prog.call b _ : Prog Formula Pieces).interp _ = _
  rw [interp]
  cases (pieceW simp ad).walk b with
  | error e => rfl
  | ok F =>
    simp only
    split
    · rfl
    · split
      · rfl
      · rw [interp_ofExcept]

theorem foldl_add (l : List K) : ∀ a : K, l.foldl (· + ·) a = a + l.sum := by
  induction l with
  | nil => simp
  | cons b l ih => intro a; rw [List.foldl_cons, ih, List.sum_cons, add_assoc]
theorem foldl_mul (l : List K) : ∀ a : K, l.foldl (· * ·) a = a * l.prod := by
  induction l with
  | nil => simp
  | cons b l ih => intro a; rw [List.foldl_cons, ih, List.prod_cons, mul_assoc]

theorem mapE_of_forall₂ {R : Type} {g : Formula → Except PyErr R} {as : List Formula} {rs : List R}
    (h : List.Forall₂ (fun a r => g a = .ok r) as rs) : mapE g as = .ok rs := by
  induction h with
  | nil => rfl
  | cons h1 _ ih => simp [mapE, h1, ih]

/-- **C46**: for every weight function and every truth-preserving simplifier, if no clash occurs the conversion succeeds and
at every assignment the pieces whose support holds add up to the weight. -/
theorem splitUp_correct_partial {simp : Formula → Formula} (hs : SimpOk simp K) : ∀ f : Formula, wt .real f = true →
    ∀ P, (pieceW simp (clashFree simp)).walk f = .ok P → Conv K simp f P := by
  intro f
  induction f using Formula.induct with
  | and as ih => intro h; simp [wt] at h
  | or as ih => intro h; simp [wt] at h
  | implies l r ihl ihr => intro h; simp [wt] at h
  | not a ih => intro h; simp [wt] at h
  | iff l r ihl ihr => intro h; simp [wt] at h
  | le l r ihl ihr => intro h; simp [wt] at h
  | lt l r ihl ihr => intro h; simp [wt] at h
  | equals l r ihl ihr => intro h; simp [wt] at h
  | boolC b => intro h; simp [wt] at h
  | sym n t =>
    intro h P hP
    cases t with
    | bool => simp [wt] at h
    | real =>
      rw [Walker.walk_eq (pieceW_decr _ _)] at hP
      simp only [Walker.dispatch, pieceW, interp, Except.ok.injEq] at hP
      subst hP
      refine ⟨?_, symbol_good n, fun σ => by simp [symbol, pieceVal, truth, PExpr.eval, value]⟩
      rw [splitUp, Walker.walk_eq (pieceW_decr _ _)]; rfl
  | realC q =>
    intro h P hP
    rw [Walker.walk_eq (pieceW_decr _ _)] at hP
    simp only [Walker.dispatch, pieceW, interp, Except.ok.injEq] at hP
    subst hP
    refine ⟨?_, real_good q, fun σ => by simp [real, pieceVal, truth, PExpr.eval, value, polyConst]⟩
    rw [splitUp, Walker.walk_eq (pieceW_decr _ _)]; rfl
  | plus as ih =>
    intro h P hP
    simp only [wt, Bool.and_eq_true, wtAll_iff] at h
    obtain ⟨Fs, h1, h2⟩ := (pieceW_list (f := .plus as) rfl).mp hP
    have hF := mapE_spec h1 fun a ha r hr => ih a ha (h.2 a ha) r hr
    have hgood : ∀ F ∈ Fs, F.Good := fun F hF' => by
      obtain ⟨a, _, hc⟩ := forall₂_mem_right hF F hF'
      exact hc.good
    have hev : ∀ σ : Env K, Fs.map (piecesVal σ) = as.map (value σ) := fun σ =>
      forall₂_map_eq (hF.imp fun a F hc => hc.val σ)
    cases Fs with
    | nil => cases h2
    | cons F Fs =>
      obtain ⟨a1, a2, a3⟩ := reduce_go_correct (comb := (· + ·))
        (fun F G Q hF hG h => add_correct_partial hs hF hG h) (hgood F (by simp)) (fun G hG => hgood G (by simp [hG])) h2
      refine ⟨(pieceW_list (f := .plus as) rfl).mpr ⟨F :: Fs, mapE_of_forall₂ (hF.imp fun a F hc => hc.run), a1⟩, a2, fun σ => ?_⟩
      rw [a3, value, valueSum_eq, ← hev, List.map_cons, List.sum_cons, foldl_add]
  | times as ih =>
    intro h P hP
    simp only [wt, Bool.and_eq_true, wtAll_iff] at h
    obtain ⟨Fs, h1, h2⟩ := (pieceW_list (f := .times as) rfl).mp hP
    have hF := mapE_spec h1 fun a ha r hr => ih a ha (h.2 a ha) r hr
    have hgood : ∀ F ∈ Fs, F.Good := fun F hF' => by
      obtain ⟨a, _, hc⟩ := forall₂_mem_right hF F hF'
      exact hc.good
    have hev : ∀ σ : Env K, Fs.map (piecesVal σ) = as.map (value σ) := fun σ =>
      forall₂_map_eq (hF.imp fun a F hc => hc.val σ)
    cases Fs with
    | nil => cases h2
    | cons F Fs =>
      obtain ⟨a1, a2, a3⟩ := reduce_go_correct (comb := (· * ·))
        (fun F G Q hF hG h => mul_correct_partial hs hF hG h) (hgood F (by simp)) (fun G hG => hgood G (by simp [hG])) h2
      refine ⟨(pieceW_list (f := .times as) rfl).mpr ⟨F :: Fs, mapE_of_forall₂ (hF.imp fun a F hc => hc.run), a1⟩, a2, fun σ => ?_⟩
      rw [a3, value, valueProd_eq, ← hev, List.map_cons, List.prod_cons, foldl_mul]
  | minus l r ihl ihr =>
    intro h P hP
    simp only [wt, Bool.and_eq_true] at h
    obtain ⟨F, G, h1, h2, h3⟩ := (pieceW_two (f := .minus l r) rfl).mp hP
    have hl := ihl h.1 F h1
    have hr := ihr h.2 G h2
    obtain ⟨n1, n2⟩ := neg_correct (K := K) hr.good
    obtain ⟨a1, a2, a3⟩ := add_correct_partial hs hl.good n1 h3
    refine ⟨(pieceW_two (f := .minus l r) rfl).mpr ⟨F, G, hl.run, hr.run, a1⟩, a2, fun σ => ?_⟩
    rw [a3, n2, hl.val, hr.val, value]; ring
  | ite c t e ihc iht ihe =>
    intro h P hP
    simp only [wt, Bool.and_eq_true] at h
    obtain ⟨F, G, h1, h2, h3⟩ := (pieceW_two (f := .ite c t e) rfl).mp hP
    have hl := iht h.1.2 F h1
    have hr := ihe h.2 G h2
    obtain ⟨a1, a2, a3⟩ := ite_correct_partial hs hl.good hr.good h3
    refine ⟨(pieceW_two (f := .ite c t e) rfl).mpr ⟨F, G, hl.run, hr.run, a1⟩, a2, fun σ => ?_⟩
    rw [a3, hl.val, hr.val, value]
  | pow b e ihb ihe =>
    intro h P hP
    cases e with
    | realC q =>
      simp only [wt, Bool.and_eq_true, decide_eq_true_eq] at h
      rw [pieceW_pow] at hP
      cases hb : (pieceW simp (clashFree simp)).walk b with
      | error e => rw [hb] at hP; cases hP
      | ok F =>
        rw [hb] at hP
        have hF := ihb h.1 F hb
        have hrun := pieceW_pow simp (addPiece simp) b q
        have hF' : (pieceW simp (addPiece simp)).walk b = .ok F := hF.run
        rw [hF'] at hrun
        simp only [h.2.1, ne_eq, not_true_eq_false, if_false] at hP hrun
        by_cases h0 : q.num = 0
        · rw [if_pos h0] at hP hrun
          simp only [Except.ok.injEq] at hP
          subst hP
          refine ⟨hrun, real_good 1, fun σ => ?_⟩
          rw [value, if_pos h.2, h0]
          simp [real, pieceVal, truth, PExpr.eval, polyConst]
        · rw [if_neg h0] at hP hrun
          obtain ⟨n, hn⟩ : ∃ n, q.num.toNat = n + 1 := ⟨q.num.toNat - 1, by omega⟩
          rw [hn] at hP hrun
          rw [List.replicate_succ] at hP hrun
          obtain ⟨a1, a2, a3⟩ := reduce_go_correct (comb := (· * ·))
            (fun F G Q hF hG h => mul_correct_partial hs hF hG h) hF.good
            (fun G hG => by rw [(List.mem_replicate.mp hG).2]; exact hF.good) hP
          refine ⟨hrun.trans a1, a2, fun σ => ?_⟩
          rw [a3, value, if_pos h.2, hn, List.map_replicate, foldl_mul, List.prod_replicate, hF.val]
          ring
    | _ => simp [wt] at h
end

/-! ### Concrete cases and counterexamples -/

/-- A weight with a product, a sum, a power and a repeated expression, converted without a clash. -/
def sampleWeight : Formula :=
  .times [.ite (.sym "a" .bool) (.sym "x" .real) (.times [.realC 2, .sym "y" .real]),
    .ite (.le (.sym "x" .real) (.sym "y" .real)) (.plus [.sym "x" .real, .sym "x" .real]) (.pow (.sym "z" .real) (.realC 2))]

theorem sampleWeight_converts : wt .real sampleWeight = true ∧
    ((pieceW id (clashFree id)).walk sampleWeight).toBool = true := by decide +kernel

/-- The weight `ite(a, ite(b, x, 2x), x)`. -/
def doubleWeight : Formula :=
  .ite (.sym "a" .bool) (.ite (.sym "b" .bool) (.sym "x" .real) (.times [.realC 2, .sym "x" .real])) (.sym "x" .real)

theorem isFalse_simp {simp : Formula → Formula} (hs : SimpOk simp ℚ) {f : Formula} {σ : Env ℚ} (h : truth σ f = true) :
    isFalse (simp f) = false := by
  cases hc : isFalse (simp f) with
  | false => rfl
  | true =>
    have : simp f = .boolC false := by simpa [isFalse] using hc
    have h' := hs σ f
    rw [this, h] at h'
    simp [truth] at h'

/-- The expression x. -/
def eX : PExpr := .poly [(["x"], 1)]
/-- The expression 2x. -/
def eXX : PExpr := .poly [(["x"], 2)]

/-- **C46** fails: whatever truth-preserving simplifier is used, `ite(a, ite(b, x, 2x), x)` is either refused with an
AssertionError or converted to a function that is 0 where a holds and b does not (instead of 2x). -/
theorem splitUp_double_wrong {simp : Formula → Formula} (hs : SimpOk simp ℚ) :
    splitUp simp doubleWeight = .error .assertionError ∨
      ∃ P, splitUp simp doubleWeight = .ok P ∧ ∀ σ : Env ℚ, σ.b "a" = true → σ.b "b" = false → piecesVal σ P = 0 ∧
        value σ doubleWeight = 2 * σ.r "x" := by
  have hx : splitUp simp (.sym "x" .real) = .ok [(eX, .boolC true)] := by
    rw [splitUp, Walker.walk_eq (pieceW_decr _ _)]; rfl
  have h2 : splitUp simp (.realC 2) = .ok [(.poly (polyConst 2), .boolC true)] := by
    rw [splitUp, Walker.walk_eq (pieceW_decr _ _)]; rfl
  set s0 := simp (mkAnd [.boolC true, .boolC true]) with hs0
  have f0 : isFalse s0 = false := isFalse_simp hs (σ := ⟨fun _ => true, fun _ => 0⟩) (by simp [truth])
  have e1 : (PExpr.poly (polyConst 2)).eq .zero = false := by decide +kernel
  have e2 : eX.eq .zero = false := by decide +kernel
  have e3 : timesExpr (.poly (polyConst 2)) eX = eXX := by decide +kernel
  have e4 : eXX.eq .zero = false := by decide +kernel
  have e5 : eX.eq eXX = false := by decide +kernel
  have e6 : eXX.eq eX = false := by decide +kernel
  have e7 : eX.eq eX = true := by decide +kernel
  have e8 : eX.double = eXX := by decide +kernel
  have e9 : eXX.eq eXX = true := by decide +kernel
  have hxx : splitUp simp (.times [.realC 2, .sym "x" .real]) = .ok [(eXX, simp s0)] := by
    refine (pieceW_list (f := .times [.realC 2, .sym "x" .real]) rfl).mpr
      ⟨[[(.poly (polyConst 2), .boolC true)], [(eX, .boolC true)]], mapE_of_forall₂ (.cons h2 (.cons hx .nil)), ?_⟩
    simp only [reduce, reduce.go, mul, List.flatMap_cons, List.flatMap_nil, List.append_nil, mulPair, e1, e2, e3, e4, ← hs0,
      f0, Bool.not_false, Bool.and_self, if_true, addAll, addPiece, get, List.find?_nil, Option.map_none, set,
      Bool.false_eq_true, if_false]
  have fand : ∀ f g : Formula, isFalse (mkAnd [f, g]) = false := fun f g => by simp [isFalse, mkAnd]
  set u := simp (mkAnd [.boolC true, .sym "b" .bool]) with hu
  set v := simp (mkAnd [simp s0, mkNot (.sym "b" .bool)]) with hv
  have hin : splitUp simp (.ite (.sym "b" .bool) (.sym "x" .real) (.times [.realC 2, .sym "x" .real])) =
      .ok [(eX, u), (eXX, v)] := by
    refine (pieceW_two (f := .ite (.sym "b" .bool) (.sym "x" .real) (.times [.realC 2, .sym "x" .real])) rfl).mpr
      ⟨_, _, hx, hxx, ?_⟩
    simp only [ite, condition, List.map_cons, List.map_nil, add, List.isEmpty_cons, List.cons_append, List.nil_append,
      List.filter_cons, List.filter_nil, fand, e2, e4, Bool.not_false, Bool.and_self, if_true, addAll, addPiece, get,
      List.find?_nil, List.find?_cons, Option.map_none, set, Bool.false_eq_true, if_false, e5, ← hu, ← hv]
  set u' := simp (mkAnd [u, .sym "a" .bool]) with hu'
  set v' := simp (mkAnd [v, .sym "a" .bool]) with hv'
  set n := mkAnd [.boolC true, mkNot (.sym "a" .bool)] with hn
  have fn : isFalse n = false := fand _ _
  have hrun : splitUp simp doubleWeight = merge [(eX, u'), (eXX, v')] eX
      (simp (mkAnd [mkOr [u', n], mkNot (mkAnd [u', n])])) (simp (mkAnd [u', n])) := by
    have key : ite (addPiece simp) (.sym "a" .bool) [(eX, u), (eXX, v)] [(eX, .boolC true)] =
        merge [(eX, u'), (eXX, v')] eX (simp (mkAnd [mkOr [u', n], mkNot (mkAnd [u', n])])) (simp (mkAnd [u', n])) := by
      simp only [ite, condition, List.map_cons, List.map_nil, add, List.isEmpty_cons, List.cons_append, List.nil_append,
        List.filter_cons, List.filter_nil, fand, e2, e4, Bool.not_false, Bool.and_self, if_true, addAll, addPiece, get,
        List.find?_nil, List.find?_cons, Option.map_none, set, Bool.false_eq_true, if_false, e5, e7, Option.map_some,
        ← hu', ← hv', ← hn, fn]
      cases merge [(eX, u'), (eXX, v')] eX (simp (mkAnd [mkOr [u', n], mkNot (mkAnd [u', n])])) (simp (mkAnd [u', n])) <;> rfl
    rw [← key]
    show (pieceW simp (addPiece simp)).walk _ = _
    rw [Walker.walk_eq (pieceW_decr _ _)]
    show (call2 _ _ _ : Prog Formula Pieces).interp _ = _
    rw [interp_call2]
    simp only [splitUp] at hin hx
    rw [hin, hx]
  rw [hrun]
  set c1 := simp (mkAnd [mkOr [u', n], mkNot (mkAnd [u', n])]) with hc1
  set c2 := simp (mkAnd [u', n]) with hc2
  have fc1 : isFalse c1 = false := isFalse_simp hs (σ := ⟨fun _ => false, fun _ => 0⟩) (by
    rw [hu', hn]; simp [hs _ _, truth])
  unfold merge
  simp only [fc1, Bool.false_eq_true, if_false, e8, set, e7, if_true]
  by_cases fc2 : isFalse c2 = true
  · right
    rw [if_pos fc2]
    refine ⟨_, rfl, fun σ ha hb => ⟨?_, by simp [doubleWeight, value, truth, ha, hb, valueProd]⟩⟩
    have : del [(eX, c1), (eXX, v')] eXX = [(eX, c1)] := by simp [del, e5, e9]
    rw [this]
    have ht : truth σ c1 = false := by
      rw [hc1, hs]
      simp only [truth_mkAnd, truth_mkOr, List.all_cons, List.any_cons, List.any_nil, List.all_nil, hu', hn, hs _ _, hu, truth,
        truth_mkNot, ha, hb]
      rfl
    simp [pieceVal, ht]
  · left
    rw [if_neg fc2]
    simp [get, e5, e9]

/-- The weight `ite(a, 1, 0) + ite(b, 1, 0)`. -/
def onesWeight : Formula :=
  .plus [.ite (.sym "a" .bool) (.realC 1) (.realC 0), .ite (.sym "b" .bool) (.realC 1) (.realC 0)]

/-- **C46** fails: `ite(a, 1, 0) + ite(b, 1, 0)` gets a piece whose expression is the Python integer 2, on which the engines
call `to_expression` or `to_smt`. -/
theorem splitUp_int_key {simp : Formula → Formula} (hs : SimpOk simp ℚ) :
    ∃ P c, splitUp simp onesWeight = .ok P ∧ (PExpr.int 2, c) ∈ P ∧
      ∀ σ : Env ℚ, truth σ c = (σ.b "a" && σ.b "b") := by
  have h1 : splitUp simp (.realC 1) = .ok [(.one, .boolC true)] := by
    rw [splitUp, Walker.walk_eq (pieceW_decr _ _)]; rfl
  have h0 : splitUp simp (.realC 0) = .ok [(.zero, .boolC true)] := by
    rw [splitUp, Walker.walk_eq (pieceW_decr _ _)]; rfl
  have e1 : PExpr.one.eq .zero = false := by decide +kernel
  have e2 : PExpr.zero.eq .zero = true := by decide +kernel
  have e3 : PExpr.one.eq .one = true := by decide +kernel
  have e4 : PExpr.one.double = .int 2 := by decide +kernel
  have e5 : PExpr.one.eq (.int 2) = false := rfl
  have fand : ∀ f g : Formula, isFalse (mkAnd [f, g]) = false := fun f g => by simp [isFalse, mkAnd]
  have hite : ∀ n : String, splitUp simp (.ite (.sym n .bool) (.realC 1) (.realC 0)) =
      .ok [(.one, simp (mkAnd [.boolC true, .sym n .bool]))] := fun n => by
    refine (pieceW_two (f := .ite (.sym n .bool) (.realC 1) (.realC 0)) rfl).mpr ⟨_, _, h1, h0, ?_⟩
    simp only [ite, condition, List.map_cons, List.map_nil, add, List.isEmpty_cons, List.cons_append, List.nil_append,
      List.filter_cons, List.filter_nil, fand, e1, e2, Bool.not_false, Bool.not_true, Bool.and_self, Bool.and_false, if_true,
      addAll, addPiece, get, List.find?_nil, Option.map_none, set, Bool.false_eq_true, if_false]
  have hu : ∀ n : String, isFalse (simp (mkAnd [.boolC true, .sym n .bool])) = false := fun n =>
    isFalse_simp hs (σ := ⟨fun _ => true, fun _ => 0⟩) (by simp [truth])
  have hu2 : ∀ n : String, isFalse (simp (simp (mkAnd [.boolC true, .sym n .bool]))) = false := fun n =>
    isFalse_simp hs (σ := ⟨fun _ => true, fun _ => 0⟩) (by rw [hs]; simp [truth])
  set u := simp (simp (mkAnd [.boolC true, .sym "a" .bool])) with hud
  set w := simp (mkAnd [.boolC true, .sym "b" .bool]) with hwd
  have fw : isFalse w = false := hu "b"
  have fc1 : isFalse (simp (mkAnd [mkOr [u, w], mkNot (mkAnd [u, w])])) = false :=
    isFalse_simp hs (σ := ⟨fun s => s == "a", fun _ => 0⟩) (by
      rw [hud, hwd]; simp [hs _ _, truth])
  have fc2 : isFalse (simp (mkAnd [u, w])) = false :=
    isFalse_simp hs (σ := ⟨fun _ => true, fun _ => 0⟩) (by rw [hud, hwd]; simp [hs _ _, truth])
  refine ⟨[(.one, simp (mkAnd [mkOr [u, w], mkNot (mkAnd [u, w])])), (.int 2, simp (mkAnd [u, w]))], simp (mkAnd [u, w]),
    (pieceW_list (f := onesWeight) rfl).mpr ⟨_, mapE_of_forall₂ (.cons (hite "a") (.cons (hite "b") .nil)), ?_⟩, by simp, ?_⟩
  · simp only [reduce, reduce.go, add, List.isEmpty_cons, List.cons_append, List.nil_append, List.filter_cons, List.filter_nil,
      hu, e1, Bool.not_false, Bool.and_self, if_true, addAll, addPiece, get, List.find?_nil, List.find?_cons, Option.map_none,
      Option.map_some, set, Bool.false_eq_true, if_false, e3, ← hud, ← hwd, merge, fc1, fc2, e4, e5, Option.isSome_none, fw]
  · intro σ
    rw [hud, hwd]
    simp [hs _ _, truth]

end Pieces
end Pywmi
