import Mathlib.Algebra.BigOperators.Group.List.Basic
import Mathlib.Algebra.Ring.Pi
import Mathlib.Data.List.Forall2
import Mathlib.Data.List.Perm.Basic
import Mathlib.Tactic.Ring
import Verif.Smt.Print
import Verif.Props.Transform

/-!
# What the pretty printer says (C74)

The specification is a reader for printed texts with the usual precedences: powers bind stronger than products, products stronger than
sums and differences, these are grouped to the left, a leading `-` negates the first product; conjunctions, disjunctions, comparisons
and case distinctions stand in brackets.
-/

set_option linter.unusedSectionVars false
set_option linter.unusedSimpArgs false

namespace Pywmi
open Formula Prog

/-! ### Specification: reading a text -/

/-- SPEC: the negative of a term. -/
def negTerm (p : Formula) : Formula := .times [.realC (-1), p]

mutual
/-- SPEC: read an expression: a product, possibly with a minus in front, and what is added or subtracted. -/
def rdExpr (Γ : String → Ty) : ℕ → PText → Option (Formula × PText)
  | 0, _ => none
  | n + 1, ts => match ts with
    | .minus :: us => match rdProd Γ n us with
      | some (p, r) => rdSum Γ n (negTerm p) r
      | none => none
    | _ => match rdProd Γ n ts with
      | some (p, r) => rdSum Γ n p r
      | none => none
/-- SPEC: read further summands; `a` is the sum so far. -/
def rdSum (Γ : String → Ty) : ℕ → Formula → PText → Option (Formula × PText)
  | 0, _, _ => none
  | n + 1, a, ts => match ts with
    | .plus :: .minus :: us => match rdProd Γ n us with
      | some (p, r) => rdSum Γ n (.minus a p) r
      | none => none
    | .plus :: us => match rdProd Γ n us with
      | some (p, r) => rdSum Γ n (.plus [a, p]) r
      | none => none
    | .minus :: .minus :: us => match rdProd Γ n us with
      | some (p, r) => rdSum Γ n (.plus [a, p]) r
      | none => none
    | .minus :: us => match rdProd Γ n us with
      | some (p, r) => rdSum Γ n (.minus a p) r
      | none => none
    | _ => some (a, ts)
/-- SPEC: read a product. -/
def rdProd (Γ : String → Ty) : ℕ → PText → Option (Formula × PText)
  | 0, _ => none
  | n + 1, ts => match rdPow Γ n ts with
    | some (p, r) => rdFactors Γ n p r
    | none => none
/-- SPEC: read further factors. -/
def rdFactors (Γ : String → Ty) : ℕ → Formula → PText → Option (Formula × PText)
  | 0, _, _ => none
  | n + 1, a, ts => match ts with
    | .star :: us => match rdPow Γ n us with
      | some (p, r) => rdFactors Γ n (.times [a, p]) r
      | none => none
    | _ => some (a, ts)
/-- SPEC: read an atom, possibly with an exponent. -/
def rdPow (Γ : String → Ty) : ℕ → PText → Option (Formula × PText)
  | 0, _ => none
  | n + 1, ts => match rdAtom Γ n ts with
    | some (a, r) => match r with
      | .hat :: .num q :: r' => some (.pow a (.realC q), r')
      | .hat :: _ => none
      | _ => some (a, r)
    | none => none
/-- SPEC: read an atom: a number, a name, a constant, a negation or an expression in brackets. -/
def rdAtom (Γ : String → Ty) : ℕ → PText → Option (Formula × PText)
  | 0, _ => none
  | n + 1, ts => match ts with
    | .num q :: us => some (.realC q, us)
    | .name s :: us => some (.sym s (Γ s), us)
    | .tru :: us => some (.boolC true, us)
    | .fls :: us => some (.boolC false, us)
    | .tilde :: us => match rdAtom Γ n us with
      | some (a, r) => some (.not a, r)
      | none => none
    | .lp :: .kIf :: us => match rdExpr Γ n us with
      | some (c, .kThen :: r1) => match rdExpr Γ n r1 with
        | some (t, .kElse :: r2) => match rdExpr Γ n r2 with
          | some (e, .rp :: r3) => some (.ite c t e, r3)
          | _ => none
        | _ => none
      | _ => none
    | .lp :: us => match rdExpr Γ n us with
      | some (a, .rp :: r) => some (a, r)
      | some (a, .le :: r) => match rdExpr Γ n r with
        | some (b, .rp :: r') => some (.le a b, r')
        | _ => none
      | some (a, .lt :: r) => match rdExpr Γ n r with
        | some (b, .rp :: r') => some (.lt a b, r')
        | _ => none
      | some (a, .eq :: r) => match rdExpr Γ n r with
        | some (b, .rp :: r') => some (.equals a b, r')
        | _ => none
      | some (a, .amp :: r) => match rdMore Γ n .amp [a] r with
        | some (as, r') => some (.and as, r')
        | none => none
      | some (a, .bar :: r) => match rdMore Γ n .bar [a] r with
        | some (as, r') => some (.or as, r')
        | none => none
      | _ => none
    | _ => none
/-- SPEC: read the further members of a conjunction or disjunction up to the closing bracket. -/
def rdMore (Γ : String → Ty) : ℕ → PTok → List Formula → PText → Option (List Formula × PText)
  | 0, _, _, _ => none
  | n + 1, sep, acc, ts => match rdExpr Γ n ts with
    | some (a, tok :: r) =>
      if tok = .rp then some (acc ++ [a], r)
      else if tok = sep then rdMore Γ n sep (acc ++ [a]) r
      else none
    | _ => none
end

/-- SPEC: the whole text is read as the formula (however deep the reader may go). -/
def ReadsAs (Γ : String → Ty) (t : PText) (g : Formula) : Prop := ∃ N, ∀ n ≥ N, rdExpr Γ n t = some (g, [])

theorem readsAs_unique {Γ : String → Ty} {t : PText} {g h : Formula} (hg : ReadsAs Γ t g) (hh : ReadsAs Γ t h) : g = h := by
  obtain ⟨N, hN⟩ := hg
  obtain ⟨M, hM⟩ := hh
  have h1 := hN (max N M) (le_max_left _ _)
  have h2 := hM (max N M) (le_max_right _ _)
  rw [h1] at h2
  simpa using h2

/-! ### Specification: which formulas are printed with enough brackets -/

/-- SPEC: not a sum and not a difference. -/
def notSum : Formula → Bool
  | .plus _ => false
  | .minus _ _ => false
  | _ => true

/-- SPEC: a variable, a non-negative constant or a case distinction. -/
def isBase : Formula → Bool
  | .sym _ _ => true
  | .realC q => decide (0 ≤ q)
  | .ite _ _ _ => true
  | _ => false

mutual
/-- SPEC: outside of `<=` and `<`, no factor is a sum or a difference, nothing that is subtracted is one, and bases of powers are variables,
non-negative constants or case distinctions. -/
def plainText : Formula → Bool
  | .and as => plainTexts as
  | .or as => plainTexts as
  | .implies l r => plainText l && plainText r
  | .not a => plainText a
  | .times as => plainTexts as && as.all notSum
  | .plus as => plainTexts as
  | .minus l r => plainText l && plainText r && notSum r
  | .ite c t e => plainText c && plainText t && plainText e
  | .pow b _ => plainText b && isBase b
  | .equals l r => plainText l && plainText r
  | .iff l r => plainText l && plainText r
  | _ => true
/-- SPEC: `plainText` on a list. -/
def plainTexts : List Formula → Bool
  | [] => true
  | a :: as => plainText a && plainTexts as
end

theorem plainTexts_iff (as : List Formula) : plainTexts as = true ↔ ∀ a ∈ as, plainText a = true := by
  induction as with
  | nil => simp [plainTexts]
  | cons a as ih => simp [plainTexts, ih]

/-! ### Texts that the reader takes as atoms, powers, products and sums -/

/-- The text is read as the atom. -/
def AtomRd (Γ : String → Ty) (t : PText) (g : Formula) : Prop :=
  ∃ N, ∀ n ≥ N, ∀ rest, rdAtom Γ n (t ++ rest) = some (g, rest)

/-- The text does not go on with an exponent. -/
def NoHat (r : PText) : Prop := r.head? ≠ some .hat
/-- The text does not go on with an exponent or a factor. -/
def NoStar (r : PText) : Prop := r.head? ≠ some .hat ∧ r.head? ≠ some .star
/-- The text does not go on with anything arithmetic. -/
def NoSum (r : PText) : Prop := r.head? ≠ some .hat ∧ r.head? ≠ some .star ∧ r.head? ≠ some .plus ∧ r.head? ≠ some .minus

/-- The text is read as the power. -/
def PowRd (Γ : String → Ty) (t : PText) (g : Formula) : Prop :=
  ∃ N, ∀ n ≥ N, ∀ rest, NoHat rest → rdPow Γ n (t ++ rest) = some (g, rest)

theorem rdPow_atom {Γ : String → Ty} {n : ℕ} {t rest : PText} {g : Formula} (h : rdAtom Γ n t = some (g, rest)) (hr : NoHat rest) :
    rdPow Γ (n + 1) t = some (g, rest) := by
  rw [rdPow, h]
  cases rest with
  | nil => rfl
  | cons x xs => cases x <;> first | rfl | exact absurd rfl hr

theorem AtomRd.pow {Γ : String → Ty} {t : PText} {g : Formula} (h : AtomRd Γ t g) : PowRd Γ t g := by
  obtain ⟨N, hN⟩ := h
  refine ⟨N + 1, fun n hn rest hr => ?_⟩
  obtain ⟨m, rfl⟩ : ∃ m, n = m + 1 := ⟨n - 1, by omega⟩
  exact rdPow_atom (hN m (by omega) rest) hr

theorem AtomRd.expo {Γ : String → Ty} {t : PText} {g : Formula} (h : AtomRd Γ t g) (q : ℚ) :
    PowRd Γ (t ++ [.hat, .num q]) (.pow g (.realC q)) := by
  obtain ⟨N, hN⟩ := h
  refine ⟨N + 1, fun n hn rest hr => ?_⟩
  obtain ⟨m, rfl⟩ : ∃ m, n = m + 1 := ⟨n - 1, by omega⟩
  rw [rdPow, List.append_assoc, hN m (by omega)]
  rfl

/-- Products, factor by factor. -/
inductive ProdText (Γ : String → Ty) : PText → Formula → Prop
  | one {t g} : PowRd Γ t g → ProdText Γ t g
  | mul {t g u h} : ProdText Γ t g → PowRd Γ u h → ProdText Γ (t ++ .star :: u) (.times [g, h])

theorem ProdText.read {Γ : String → Ty} {t : PText} {g : Formula} (h : ProdText Γ t g) :
    ∃ k N, ∀ n ≥ N, ∀ rest, NoHat rest → rdProd Γ (n + k) (t ++ rest) = rdFactors Γ n g rest := by
  induction h with
  | one h =>
    obtain ⟨N, hN⟩ := h
    exact ⟨1, N, fun n hn rest hr => by rw [rdProd, hN n hn rest hr]⟩
  | @mul t g u h _ hp ih =>
    obtain ⟨k, N, hk⟩ := ih
    obtain ⟨M, hM⟩ := hp
    refine ⟨k + 1, max N M, fun n hn rest hr => ?_⟩
    have e : n + (k + 1) = (n + 1) + k := by omega
    rw [e, List.append_assoc, List.cons_append, hk (n + 1) (by have := le_max_left N M; omega) _ (by simp [NoHat]), rdFactors,
      hM n (le_trans (le_max_right _ _) hn) rest hr]

/-- Sums, summand by summand. -/
inductive SumText (Γ : String → Ty) : PText → Formula → Prop
  | pos {t g} : ProdText Γ t g → SumText Γ t g
  | neg {t g} : ProdText Γ t g → SumText Γ (.minus :: t) (negTerm g)
  | add {t g u h} : SumText Γ t g → ProdText Γ u h → SumText Γ (t ++ .plus :: u) (.plus [g, h])
  | sub {t g u h} : SumText Γ t g → ProdText Γ u h → SumText Γ (t ++ .minus :: u) (.minus g h)
  | subneg {t g u h} : SumText Γ t g → ProdText Γ u h → SumText Γ (t ++ .minus :: .minus :: u) (.plus [g, h])

theorem rdFactors_stop {Γ : String → Ty} {n : ℕ} {g : Formula} {rest : PText} (h : NoStar rest) :
    rdFactors Γ (n + 1) g rest = some (g, rest) := by
  cases rest with
  | nil => rfl
  | cons x xs => cases x <;> first | rfl | exact absurd rfl h.2

theorem rdSum_stop {Γ : String → Ty} {n : ℕ} {g : Formula} {rest : PText} (h : NoSum rest) :
    rdSum Γ (n + 1) g rest = some (g, rest) := by
  cases rest with
  | nil => rfl
  | cons x xs => cases x <;> first | rfl | exact absurd rfl h.2.2.1 | exact absurd rfl h.2.2.2

theorem ProdText.whole {Γ : String → Ty} {t : PText} {g : Formula} (h : ProdText Γ t g) :
    ∃ N, ∀ n ≥ N, ∀ rest, NoStar rest → rdProd Γ n (t ++ rest) = some (g, rest) := by
  obtain ⟨k, N, hk⟩ := h.read
  refine ⟨N + 1 + k, fun n hn rest hr => ?_⟩
  obtain ⟨m, rfl⟩ : ∃ m, n = m + 1 + k := ⟨n - 1 - k, by omega⟩
  rw [hk (m + 1) (by omega) rest hr.1, rdFactors_stop hr]

theorem rdProd_bad {Γ : String → Ty} (x : PTok) (hx : x = .minus ∨ x = .kIf) (n : ℕ) (ts : PText) : rdProd Γ n (x :: ts) = none := by
  cases n with
  | zero => rfl
  | succ n =>
    rw [rdProd]
    cases n with
    | zero => rfl
    | succ n =>
      rw [rdPow]
      cases n with
      | zero => rfl
      | succ n => rcases hx with rfl | rfl <;> rfl

theorem rdProd_nil {Γ : String → Ty} (n : ℕ) : rdProd Γ n [] = none := by
  cases n with
  | zero => rfl
  | succ n =>
    rw [rdProd]
    cases n with
    | zero => rfl
    | succ n =>
      rw [rdPow]
      cases n with
      | zero => rfl
      | succ n => rfl

/-- A product starts with neither a minus nor `if`. -/
theorem ProdText.head {Γ : String → Ty} {t : PText} {g : Formula} (h : ProdText Γ t g) :
    ∃ x xs, t = x :: xs ∧ x ≠ .minus ∧ x ≠ .kIf := by
  obtain ⟨N, hN⟩ := h.whole
  have h0 := hN N le_rfl [] ⟨by simp, by simp⟩
  rw [List.append_nil] at h0
  cases t with
  | nil => rw [rdProd_nil] at h0; cases h0
  | cons x xs =>
    refine ⟨x, xs, rfl, ?_, ?_⟩ <;> intro hx
    · rw [rdProd_bad x (.inl hx)] at h0; cases h0
    · rw [rdProd_bad x (.inr hx)] at h0; cases h0

theorem ProdText.notMinus {Γ : String → Ty} {t : PText} {g : Formula} (h : ProdText Γ t g) : startsMinus t = false := by
  obtain ⟨x, xs, rfl, hx, _⟩ := h.head
  cases x <;> first | rfl | exact absurd rfl hx

theorem rdExpr_prod {Γ : String → Ty} {t : PText} (h : startsMinus t = false) (n : ℕ) :
    rdExpr Γ (n + 1) t = match rdProd Γ n t with
      | some (p, r) => rdSum Γ n p r
      | none => none := by
  cases t with
  | nil => rfl
  | cons x xs => cases x <;> first | rfl | cases h

theorem rdSum_plus {Γ : String → Ty} {x : PTok} (hx : x ≠ .minus) (n : ℕ) (a : Formula) (xs : PText) :
    rdSum Γ (n + 1) a (.plus :: x :: xs) = match rdProd Γ n (x :: xs) with
      | some (p, r) => rdSum Γ n (.plus [a, p]) r
      | none => none := by
  cases x <;> first | rfl | exact absurd rfl hx

theorem rdSum_minus {Γ : String → Ty} {x : PTok} (hx : x ≠ .minus) (n : ℕ) (a : Formula) (xs : PText) :
    rdSum Γ (n + 1) a (.minus :: x :: xs) = match rdProd Γ n (x :: xs) with
      | some (p, r) => rdSum Γ n (.minus a p) r
      | none => none := by
  cases x <;> first | rfl | exact absurd rfl hx

theorem rdSum_neg {Γ : String → Ty} (n : ℕ) (a : Formula) (xs : PText) :
    rdSum Γ (n + 1) a (.minus :: .minus :: xs) = match rdProd Γ n xs with
      | some (p, r) => rdSum Γ n (.plus [a, p]) r
      | none => none := rfl

theorem SumText.read {Γ : String → Ty} {t : PText} {g : Formula} (h : SumText Γ t g) :
    ∃ k N, ∀ n ≥ N, ∀ rest, NoStar rest → rdExpr Γ (n + k) (t ++ rest) = rdSum Γ n g rest := by
  induction h with
  | @pos t g h =>
    obtain ⟨N, hN⟩ := h.whole
    refine ⟨1, N, fun n hn rest hr => ?_⟩
    have hm : startsMinus (t ++ rest) = false := by
      obtain ⟨x, xs, rfl, hx, _⟩ := h.head
      cases x <;> first | rfl | exact absurd rfl hx
    rw [rdExpr_prod hm, hN n hn rest hr]
  | @neg t g h =>
    obtain ⟨N, hN⟩ := h.whole
    refine ⟨1, N, fun n hn rest hr => ?_⟩
    have e : rdExpr Γ (n + 1) (.minus :: (t ++ rest)) = match rdProd Γ n (t ++ rest) with
        | some (p, r) => rdSum Γ n (negTerm p) r
        | none => none := rfl
    rw [List.cons_append, e, hN n hn rest hr]
  | @add t g u h _ hp ih =>
    obtain ⟨k, N, hk⟩ := ih
    obtain ⟨M, hM⟩ := hp.whole
    refine ⟨k + 1, max N M, fun n hn rest hr => ?_⟩
    have e : n + (k + 1) = (n + 1) + k := by omega
    rw [e, List.append_assoc, List.cons_append, hk (n + 1) (by have := le_max_left N M; omega) _ (by simp [NoStar])]
    have hM' := hM n (le_trans (le_max_right _ _) hn) rest hr
    obtain ⟨x, xs, rfl, hx, _⟩ := hp.head
    rw [List.cons_append] at hM' ⊢
    rw [rdSum_plus hx, hM']
  | @sub t g u h _ hp ih =>
    obtain ⟨k, N, hk⟩ := ih
    obtain ⟨M, hM⟩ := hp.whole
    refine ⟨k + 1, max N M, fun n hn rest hr => ?_⟩
    have e : n + (k + 1) = (n + 1) + k := by omega
    rw [e, List.append_assoc, List.cons_append, hk (n + 1) (by have := le_max_left N M; omega) _ (by simp [NoStar])]
    have hM' := hM n (le_trans (le_max_right _ _) hn) rest hr
    obtain ⟨x, xs, rfl, hx, _⟩ := hp.head
    rw [List.cons_append] at hM' ⊢
    rw [rdSum_minus hx, hM']
  | @subneg t g u h _ hp ih =>
    obtain ⟨k, N, hk⟩ := ih
    obtain ⟨M, hM⟩ := hp.whole
    refine ⟨k + 1, max N M, fun n hn rest hr => ?_⟩
    have e : n + (k + 1) = (n + 1) + k := by omega
    rw [e, List.append_assoc, List.cons_append, List.cons_append, hk (n + 1) (by have := le_max_left N M; omega) _ (by simp [NoStar])]
    rw [rdSum_neg, hM n (le_trans (le_max_right _ _) hn) rest hr]

theorem SumText.whole {Γ : String → Ty} {t : PText} {g : Formula} (h : SumText Γ t g) :
    ∃ N, ∀ n ≥ N, ∀ rest, NoSum rest → rdExpr Γ n (t ++ rest) = some (g, rest) := by
  obtain ⟨k, N, hk⟩ := h.read
  refine ⟨N + 1 + k, fun n hn rest hr => ?_⟩
  obtain ⟨m, rfl⟩ : ∃ m, n = m + 1 + k := ⟨n - 1 - k, by omega⟩
  rw [hk (m + 1) (by omega) rest ⟨hr.1, hr.2.1⟩, rdSum_stop hr]

theorem SumText.head {Γ : String → Ty} {t : PText} {g : Formula} (h : SumText Γ t g) : ∃ x xs, t = x :: xs ∧ x ≠ .kIf := by
  induction h with
  | pos h => obtain ⟨x, xs, rfl, _, hx⟩ := h.head; exact ⟨x, xs, rfl, hx⟩
  | neg h => exact ⟨_, _, rfl, by simp⟩
  | add _ _ ih => obtain ⟨x, xs, rfl, hx⟩ := ih; exact ⟨x, _, rfl, hx⟩
  | sub _ _ ih => obtain ⟨x, xs, rfl, hx⟩ := ih; exact ⟨x, _, rfl, hx⟩
  | subneg _ _ ih => obtain ⟨x, xs, rfl, hx⟩ := ih; exact ⟨x, _, rfl, hx⟩

theorem AtomRd.sum {Γ : String → Ty} {t : PText} {g : Formula} (h : AtomRd Γ t g) : SumText Γ t g := .pos (.one h.pow)

/-! ### Brackets -/

/-- What the reader does after an opening bracket. -/
def rdGroup (Γ : String → Ty) (n : ℕ) (us : PText) : Option (Formula × PText) :=
  match rdExpr Γ n us with
      | some (a, .rp :: r) => some (a, r)
      | some (a, .le :: r) => match rdExpr Γ n r with
        | some (b, .rp :: r') => some (.le a b, r')
        | _ => none
      | some (a, .lt :: r) => match rdExpr Γ n r with
        | some (b, .rp :: r') => some (.lt a b, r')
        | _ => none
      | some (a, .eq :: r) => match rdExpr Γ n r with
        | some (b, .rp :: r') => some (.equals a b, r')
        | _ => none
      | some (a, .amp :: r) => match rdMore Γ n .amp [a] r with
        | some (as, r') => some (.and as, r')
        | none => none
      | some (a, .bar :: r) => match rdMore Γ n .bar [a] r with
        | some (as, r') => some (.or as, r')
        | none => none
      | _ => none

theorem rdAtom_open {Γ : String → Ty} {x : PTok} (hx : x ≠ .kIf) (n : ℕ) (xs : PText) :
    rdAtom Γ (n + 1) (.lp :: x :: xs) = rdGroup Γ n (x :: xs) := by
  cases x <;> first | rfl | exact absurd rfl hx

theorem SumText.open {Γ : String → Ty} {t : PText} {g : Formula} (h : SumText Γ t g) (n : ℕ) (rest : PText) :
    rdAtom Γ (n + 1) (.lp :: (t ++ rest)) = rdGroup Γ n (t ++ rest) := by
  obtain ⟨x, xs, rfl, hx⟩ := h.head
  exact rdAtom_open hx n _

theorem noSum_of {x : PTok} {xs : PText} (h : x ≠ .hat ∧ x ≠ .star ∧ x ≠ .plus ∧ x ≠ .minus) : NoSum (x :: xs) := by
  simpa [NoSum] using h

theorem bracket_read {Γ : String → Ty} {t : PText} {g : Formula} (h : SumText Γ t g) : AtomRd Γ (.lp :: t ++ [.rp]) g := by
  obtain ⟨N, hN⟩ := h.whole
  refine ⟨N + 1, fun n hn rest => ?_⟩
  obtain ⟨m, rfl⟩ : ∃ m, n = m + 1 := ⟨n - 1, by omega⟩
  have e : PTok.lp :: t ++ [.rp] ++ rest = .lp :: (t ++ .rp :: rest) := by simp
  rw [e, h.open, rdGroup, hN m (by omega) _ (noSum_of (by simp))]

/-- The formula that a comparison sign makes. -/
def signOf : PTok → Formula → Formula → Formula
  | .le, a, b => .le a b
  | .lt, a, b => .lt a b
  | _, a, b => .equals a b

theorem cmp_read {Γ : String → Ty} {s : PTok} (hs : s = .le ∨ s = .lt ∨ s = .eq) {t u : PText} {g h : Formula} (ht : SumText Γ t g)
    (hu : SumText Γ u h) : AtomRd Γ (.lp :: t ++ s :: u ++ [.rp]) (signOf s g h) := by
  obtain ⟨N, hN⟩ := ht.whole
  obtain ⟨M, hM⟩ := hu.whole
  refine ⟨max N M + 1, fun n hn rest => ?_⟩
  obtain ⟨m, rfl⟩ : ∃ m, n = m + 1 := ⟨n - 1, by omega⟩
  have e : PTok.lp :: t ++ s :: u ++ [.rp] ++ rest = .lp :: (t ++ s :: (u ++ .rp :: rest)) := by simp
  rw [e, ht.open, rdGroup, hN m (by have := le_max_left N M; omega) _ (noSum_of (by rcases hs with rfl | rfl | rfl <;> simp))]
  have h2 := hM m (by have := le_max_right N M; omega) (.rp :: rest) (noSum_of (by simp))
  rcases hs with rfl | rfl | rfl
  · show (match rdExpr Γ m (u ++ .rp :: rest) with | some (b, .rp :: r') => some (Formula.le g b, r') | _ => none) = _
    rw [h2]; rfl
  · show (match rdExpr Γ m (u ++ .rp :: rest) with | some (b, .rp :: r') => some (Formula.lt g b, r') | _ => none) = _
    rw [h2]; rfl
  · show (match rdExpr Γ m (u ++ .rp :: rest) with | some (b, .rp :: r') => some (Formula.equals g b, r') | _ => none) = _
    rw [h2]; rfl

theorem ite_read {Γ : String → Ty} {c t e : PText} {gc gt ge : Formula} (hc : SumText Γ c gc) (ht : SumText Γ t gt) (he : SumText Γ e ge) :
    AtomRd Γ (.lp :: .kIf :: c ++ .kThen :: t ++ .kElse :: e ++ [.rp]) (.ite gc gt ge) := by
  obtain ⟨N1, h1⟩ := hc.whole
  obtain ⟨N2, h2⟩ := ht.whole
  obtain ⟨N3, h3⟩ := he.whole
  refine ⟨N1 + N2 + N3 + 1, fun n hn rest => ?_⟩
  obtain ⟨m, rfl⟩ : ∃ m, n = m + 1 := ⟨n - 1, by omega⟩
  have e : PTok.lp :: .kIf :: c ++ .kThen :: t ++ .kElse :: e ++ [.rp] ++ rest =
      .lp :: .kIf :: (c ++ .kThen :: (t ++ .kElse :: (e ++ .rp :: rest))) := by simp
  rw [e]
  show (match rdExpr Γ m (c ++ .kThen :: (t ++ .kElse :: (_ ++ .rp :: rest))) with
      | some (c, .kThen :: r1) => match rdExpr Γ m r1 with
        | some (t, .kElse :: r2) => match rdExpr Γ m r2 with
          | some (e, .rp :: r3) => some (Formula.ite c t e, r3)
          | _ => none
        | _ => none
      | _ => none) = _
  rw [h1 m (by omega) _ (noSum_of (by simp))]
  show (match rdExpr Γ m (t ++ .kElse :: (_ ++ .rp :: rest)) with
        | some (t, .kElse :: r2) => match rdExpr Γ m r2 with
          | some (e, .rp :: r3) => some (Formula.ite gc t e, r3)
          | _ => none
        | _ => none) = _
  rw [h2 m (by omega) _ (noSum_of (by simp))]
  show (match rdExpr Γ m (_ ++ .rp :: rest) with
          | some (e, .rp :: r3) => some (Formula.ite gc gt e, r3)
          | _ => none) = _
  rw [h3 m (by omega) _ (noSum_of (by simp))]

theorem not_read {Γ : String → Ty} {t : PText} {g : Formula} (h : AtomRd Γ t g) : AtomRd Γ (.tilde :: t) (.not g) := by
  obtain ⟨N, hN⟩ := h
  refine ⟨N + 1, fun n hn rest => ?_⟩
  obtain ⟨m, rfl⟩ : ∃ m, n = m + 1 := ⟨n - 1, by omega⟩
  show (match rdAtom Γ m (t ++ rest) with | some (a, r) => some (Formula.not a, r) | none => none) = _
  rw [hN m (by omega)]

theorem more_read {Γ : String → Ty} {sep : PTok} (hs : sep = .amp ∨ sep = .bar) :
    ∀ {ts : List PText} {gs : List Formula}, List.Forall₂ (SumText Γ) ts gs → ts ≠ [] →
    ∃ N, ∀ n ≥ N, ∀ acc rest, rdMore Γ n sep acc (joinText sep ts ++ .rp :: rest) = some (acc ++ gs, rest) := by
  intro ts gs h
  induction h with
  | nil => intro h0; exact absurd rfl h0
  | @cons t g ts gs ht hts ih =>
    intro _
    obtain ⟨N, hN⟩ := ht.whole
    cases hts with
    | nil =>
      refine ⟨N + 1, fun n hn acc rest => ?_⟩
      obtain ⟨m, rfl⟩ : ∃ m, n = m + 1 := ⟨n - 1, by omega⟩
      simp only [rdMore, joinText]
      rw [hN m (by omega) _ (noSum_of (by simp))]
      simp
    | @cons u h us hs' hu hus =>
      obtain ⟨M, hM⟩ := ih (by simp)
      refine ⟨N + M + 1, fun n hn acc rest => ?_⟩
      obtain ⟨m, rfl⟩ : ∃ m, n = m + 1 := ⟨n - 1, by omega⟩
      have e : joinText sep (t :: u :: us) ++ .rp :: rest = t ++ sep :: (joinText sep (u :: us) ++ .rp :: rest) := by
        simp [joinText]
      rw [e, rdMore, hN m (by omega) _ (noSum_of (by rcases hs with rfl | rfl <;> simp))]
      have hne : sep ≠ .rp := by rcases hs with rfl | rfl <;> simp
      simp only [if_neg hne, if_true]
      rw [hM m (by omega)]
      simp

/-- The formula that a list in brackets makes. -/
def listOf : PTok → List Formula → Formula
  | _, [g] => g
  | .amp, gs => .and gs
  | _, gs => .or gs

theorem list_read {Γ : String → Ty} {sep : PTok} (hs : sep = .amp ∨ sep = .bar) {ts : List PText} {gs : List Formula}
    (h : List.Forall₂ (SumText Γ) ts gs) (hne : ts ≠ []) : AtomRd Γ (.lp :: joinText sep ts ++ [.rp]) (listOf sep gs) := by
  cases h with
  | nil => exact absurd rfl hne
  | @cons t g ts gs ht hts =>
    cases hts with
    | nil => simpa [joinText, listOf] using bracket_read ht
    | @cons u h us hs' hu hus =>
      obtain ⟨N, hN⟩ := ht.whole
      obtain ⟨M, hM⟩ := more_read hs (List.Forall₂.cons hu hus) (by simp)
      refine ⟨N + M + 1, fun n hn rest => ?_⟩
      obtain ⟨m, rfl⟩ : ∃ m, n = m + 1 := ⟨n - 1, by omega⟩
      have e : PTok.lp :: joinText sep (t :: u :: us) ++ [.rp] ++ rest = .lp :: (t ++ sep :: (joinText sep (u :: us) ++ .rp :: rest)) := by
        simp [joinText]
      rw [e, ht.open, rdGroup, hN m (by omega) _ (noSum_of (by rcases hs with rfl | rfl <;> simp))]
      have h2 := hM m (by omega) [g] rest
      rcases hs with rfl | rfl
      · show (match rdMore Γ m .amp [g] (joinText .amp (u :: us) ++ .rp :: rest) with
          | some (as, r') => some (Formula.and as, r') | none => none) = _
        rw [h2]; rfl
      · show (match rdMore Γ m .bar [g] (joinText .bar (u :: us) ++ .rp :: rest) with
          | some (as, r') => some (Formula.or as, r') | none => none) = _
        rw [h2]; rfl

/-! ### Values of printed terms -/

section
variable {K : Type} [Field K] [LinearOrder K] [IsStrictOrderedRing K]

/-- The value of a term as a function of the assignment. -/
def valOf (K : Type) [Field K] [LinearOrder K] (g : Formula) : Env K → K := fun σ => value σ g

/-- The text is read as a product with the value `v`. -/
def ProdV (Γ : String → Ty) (t : PText) (v : Env K → K) : Prop := ∃ g, ProdText Γ t g ∧ valOf K g = v
/-- The text is read as a sum with the value `v`. -/
def SumV (Γ : String → Ty) (t : PText) (v : Env K → K) : Prop := ∃ g, SumText Γ t g ∧ valOf K g = v
/-- The text is read as a product with the value `v`, possibly with a minus in front. -/
def SingleV (Γ : String → Ty) (t : PText) (v : Env K → K) : Prop := ProdV Γ t v ∨ ∃ u, t = .minus :: u ∧ ProdV Γ u (-v)

theorem valOf_neg (g : Formula) : valOf K (negTerm g) = -valOf K g := by
  funext σ; simp [valOf, negTerm, value, valueProd]
theorem valOf_times (g h : Formula) : valOf K (.times [g, h]) = valOf K g * valOf K h := by
  funext σ; simp [valOf, value, valueProd]
theorem valOf_plus (g h : Formula) : valOf K (.plus [g, h]) = valOf K g + valOf K h := by
  funext σ; simp [valOf, value, valueSum]
theorem valOf_minus (g h : Formula) : valOf K (.minus g h) = valOf K g - valOf K h := by
  funext σ; simp [valOf, value]

theorem AtomRd.prodV {Γ : String → Ty} {t : PText} {g : Formula} (h : AtomRd Γ t g) : ProdV (K := K) Γ t (valOf K g) := ⟨g, .one h.pow, rfl⟩

theorem SingleV.sumV {Γ : String → Ty} {t : PText} {v : Env K → K} (h : SingleV Γ t v) : SumV Γ t v := by
  rcases h with ⟨g, hg, rfl⟩ | ⟨u, rfl, g, hg, hv⟩
  · exact ⟨g, .pos hg, rfl⟩
  · exact ⟨_, .neg hg, by rw [valOf_neg, hv, neg_neg]⟩

theorem ProdV.mul {Γ : String → Ty} {t u : PText} {v w : Env K → K} (h1 : ProdV Γ t v) (h2 : ProdV Γ u w) :
    ProdV Γ (t ++ .star :: u) (v * w) := by
  obtain ⟨g, hg, rfl⟩ := h1
  obtain ⟨h, hh, rfl⟩ := h2
  suffices H : ∃ k, ProdText Γ (t ++ .star :: u) k ∧ valOf K k = valOf K g * valOf K h by exact H
  induction hh with
  | one hp => exact ⟨_, .mul hg hp, valOf_times _ _⟩
  | @mul t' g' u' h' _ hp ih =>
    obtain ⟨k, hk, hv⟩ := ih
    refine ⟨.times [k, h'], ?_, by rw [valOf_times, valOf_times, hv]; ring⟩
    have := ProdText.mul hk hp
    simpa using this

theorem prod_join {Γ : String → Ty} : ∀ {ts : List PText} {vs : List (Env K → K)}, List.Forall₂ (ProdV Γ) ts vs → ts ≠ [] →
    ProdV Γ (joinText .star ts) vs.prod := by
  intro ts vs h
  induction h with
  | nil => intro h; exact absurd rfl h
  | @cons t v ts vs ht hts ih =>
    intro _
    cases hts with
    | nil => simpa [joinText] using ht
    | cons hu hus =>
      have := ht.mul (ih (by simp))
      simpa [joinText] using this

theorem SumV.add {Γ : String → Ty} {t u : PText} {v w : Env K → K} (h1 : SumV Γ t v) (h2 : SumV Γ u w) :
    SumV Γ (if startsMinus u then t ++ .minus :: u.tail else t ++ .plus :: u) (v + w) := by
  obtain ⟨g, hg, rfl⟩ := h1
  obtain ⟨h, hh, rfl⟩ := h2
  suffices H : u ≠ [] ∧ ∃ k, SumText Γ (if startsMinus u then t ++ .minus :: u.tail else t ++ .plus :: u) k ∧
      valOf K k = valOf K g + valOf K h by exact H.2
  have hsm : ∀ (a b : PText), a ≠ [] → startsMinus (a ++ b) = startsMinus a := by
    intro a b ha
    cases a with
    | nil => exact absurd rfl ha
    | cons x xs => cases x <;> rfl
  induction hh with
  | @pos u h hp =>
    refine ⟨by obtain ⟨x, xs, rfl, _⟩ := hp.head; simp, ?_⟩
    rw [if_neg (by simp [hp.notMinus])]
    exact ⟨_, .add hg hp, valOf_plus _ _⟩
  | @neg u h hp =>
    refine ⟨by simp, ?_⟩
    rw [if_pos (show startsMinus (PTok.minus :: u) = true from rfl)]
    exact ⟨_, .sub hg hp, by rw [valOf_minus, valOf_neg, sub_eq_add_neg]⟩
  | @add t' g' u' h' _ hp ih =>
    obtain ⟨hne, k, hk, hv⟩ := ih
    refine ⟨by simp, .plus [k, h'], ?_, by rw [valOf_plus, valOf_plus, hv]; ring⟩
    have := SumText.add hk hp
    rw [hsm _ _ hne]
    split_ifs at this ⊢ with h0
    · rw [List.tail_append_of_ne_nil hne]; simpa using this
    · simpa using this
  | @sub t' g' u' h' _ hp ih =>
    obtain ⟨hne, k, hk, hv⟩ := ih
    refine ⟨by simp, .minus k h', ?_, by rw [valOf_minus, valOf_minus, hv]; ring⟩
    have := SumText.sub hk hp
    rw [hsm _ _ hne]
    split_ifs at this ⊢ with h0
    · rw [List.tail_append_of_ne_nil hne]; simpa using this
    · simpa using this
  | @subneg t' g' u' h' _ hp ih =>
    obtain ⟨hne, k, hk, hv⟩ := ih
    refine ⟨by simp, .plus [k, h'], ?_, by rw [valOf_plus, valOf_plus, hv]; ring⟩
    have := SumText.subneg hk hp
    rw [hsm _ _ hne]
    split_ifs at this ⊢ with h0
    · rw [List.tail_append_of_ne_nil hne]; simpa using this
    · simpa using this

theorem SumV.sub {Γ : String → Ty} {t u : PText} {v w : Env K → K} (h1 : SumV Γ t v) (h2 : SingleV Γ u w) :
    SumV Γ (t ++ .minus :: u) (v - w) := by
  obtain ⟨g, hg, rfl⟩ := h1
  rcases h2 with ⟨h, hh, rfl⟩ | ⟨u', rfl, h, hh, hv⟩
  · exact ⟨_, .sub hg hh, valOf_minus _ _⟩
  · exact ⟨_, .subneg hg hh, by rw [valOf_plus, hv, sub_eq_add_neg]⟩

theorem num_atom (Γ : String → Ty) (q : ℚ) : AtomRd Γ [.num q] (.realC q) := by
  refine ⟨1, fun n hn rest => ?_⟩
  obtain ⟨m, rfl⟩ : ∃ m, n = m + 1 := ⟨n - 1, by omega⟩
  rfl

theorem name_atom (Γ : String → Ty) (s : String) : AtomRd Γ [.name s] (.sym s (Γ s)) := by
  refine ⟨1, fun n hn rest => ?_⟩
  obtain ⟨m, rfl⟩ : ∃ m, n = m + 1 := ⟨n - 1, by omega⟩
  rfl

theorem SumV.unique {Γ : String → Ty} {t : PText} {v w : Env K → K} (h1 : SumV Γ t v) (h2 : SumV Γ t w) : v = w := by
  obtain ⟨g, hg, rfl⟩ := h1
  obtain ⟨h, hh, rfl⟩ := h2
  obtain ⟨N, hN⟩ := hg.whole
  obtain ⟨M, hM⟩ := hh.whole
  have e1 := hN (max N M) (le_max_left _ _) [] ⟨by simp, by simp, by simp, by simp⟩
  have e2 := hM (max N M) (le_max_right _ _) [] ⟨by simp, by simp, by simp, by simp⟩
  rw [e1] at e2
  have : g = h := by simpa using e2
  rw [this]

theorem num_single (Γ : String → Ty) (q : ℚ) : SingleV (K := K) Γ [.num q] (fun _ => (q : K)) :=
  .inl ⟨.realC q, .one (num_atom Γ q).pow, by funext σ; simp [valOf, value]⟩

theorem sum_zero {Γ : String → Ty} {v : Env K → K} (h : SumV Γ [.num 0] v) : v = 0 := by
  have := h.unique (num_single (K := K) Γ 0).sumV
  rw [this]; funext σ; simp
theorem sum_one {Γ : String → Ty} {v : Env K → K} (h : SumV Γ [.num 1] v) : v = 1 := by
  have := h.unique (num_single (K := K) Γ 1).sumV
  rw [this]; funext σ; simp

theorem const_single (Γ : String → Ty) (q : ℚ) : SingleV (K := K) Γ (showConst q) (valOf K (.realC q)) := by
  unfold showConst
  split_ifs with h
  · exact .inr ⟨_, rfl, .realC (-q), .one (num_atom Γ (-q)).pow, by funext σ; simp [valOf, value]⟩
  · exact .inl ⟨.realC q, .one (num_atom Γ q).pow, rfl⟩

/-! ### Sums and products -/

theorem showPlus_fold {Γ : String → Ty} : ∀ {ts : List PText} {vs : List (Env K → K)}, List.Forall₂ (SumV Γ) ts vs →
    ∀ {a : PText} {v : Env K → K}, SumV Γ a v →
    SumV Γ (ts.foldl (fun r t => if startsMinus t then r ++ .minus :: t.tail else r ++ .plus :: t) a) (v + vs.sum) := by
  intro ts vs h
  induction h with
  | nil => intro a v ha; simpa using ha
  | @cons t w ts ws ht _ ih =>
    intro a v ha
    rw [List.foldl_cons, List.sum_cons, ← add_assoc]
    exact ih (ha.add ht)

theorem filter_zero {Γ : String → Ty} {ts : List PText} {vs : List (Env K → K)} (h : List.Forall₂ (SumV Γ) ts vs) :
    ∃ ws, List.Forall₂ (SumV Γ) (ts.filter (· ≠ [.num 0])) ws ∧ ws.sum = vs.sum := by
  induction h with
  | nil => exact ⟨[], .nil, rfl⟩
  | @cons t v ts vs ht _ ih =>
    obtain ⟨ws, hw, hs⟩ := ih
    by_cases h0 : t = [.num 0]
    · subst h0
      refine ⟨ws, by simpa using hw, ?_⟩
      rw [List.sum_cons, sum_zero ht, zero_add, hs]
    · refine ⟨v :: ws, ?_, by rw [List.sum_cons, List.sum_cons, hs]⟩
      rw [List.filter_cons_of_pos (by simpa using h0)]
      exact .cons ht hw

theorem all_zero {Γ : String → Ty} {ts : List PText} {vs : List (Env K → K)} (h : List.Forall₂ (SumV Γ) ts vs)
    (h0 : ∀ t ∈ ts, t = [.num 0]) : vs.sum = 0 := by
  induction h with
  | nil => rfl
  | @cons t v ts vs ht _ ih =>
    have := h0 t (by simp)
    subst this
    rw [List.sum_cons, sum_zero ht, ih fun t ht => h0 t (by simp [ht]), zero_add]

theorem showPlus_spec {Γ : String → Ty} {ts : List PText} {vs : List (Env K → K)} (h : List.Forall₂ (SumV Γ) ts vs) :
    SumV Γ (showPlus ts) vs.sum := by
  unfold showPlus
  split_ifs with h0
  · rw [all_zero h (by simpa using h0)]
    have := (num_single (K := K) Γ 0).sumV
    simpa [Pi.zero_def] using this
  · obtain ⟨ws, hw, hs⟩ := filter_zero h
    rw [← hs]
    cases hf : ts.filter (· ≠ [.num 0]) with
    | nil =>
      rw [List.filter_eq_nil_iff] at hf
      exact absurd (by simpa using hf) h0
    | cons a as =>
      rw [hf] at hw
      cases hw with
      | cons ha has => exact showPlus_fold has ha

theorem strip_spec {Γ : String → Ty} {t : PText} {v : Env K → K} (h : SingleV Γ t v) :
    ProdV Γ (if startsMinus t then t.tail else t) ((if startsMinus t then -1 else 1) * v) := by
  rcases h with h | ⟨u, rfl, h⟩
  · obtain ⟨g, hg, _⟩ := h
    rw [if_neg (by simp [hg.notMinus]), if_neg (by simp [hg.notMinus]), one_mul]
    exact ⟨g, hg, by assumption⟩
  · have e : startsMinus (PTok.minus :: u) = true := rfl
    rw [if_pos e, if_pos e, neg_one_mul]; exact h

theorem strip_list {Γ : String → Ty} {ts : List PText} {vs : List (Env K → K)} (h : List.Forall₂ (SingleV Γ) ts vs) :
    ∃ ws, List.Forall₂ (ProdV Γ) ((ts.filter (· ≠ [.num 1])).map fun a => if startsMinus a then a.tail else a) ws ∧
      ws.prod = (-1) ^ ((ts.filter (· ≠ [.num 1])).filter startsMinus).length * vs.prod := by
  induction h with
  | nil => exact ⟨[], .nil, by simp⟩
  | @cons t v ts vs ht _ ih =>
    obtain ⟨ws, hw, hs⟩ := ih
    by_cases h1 : t = [.num 1]
    · subst h1
      refine ⟨ws, by simpa using hw, ?_⟩
      rw [List.prod_cons, sum_one ht.sumV, one_mul, hs]
      simp
    · rw [List.filter_cons_of_pos (by simpa using h1)]
      refine ⟨_ :: ws, .cons (strip_spec ht) hw, ?_⟩
      rw [List.prod_cons, List.prod_cons, hs]
      by_cases hm : startsMinus t = true
      · rw [List.filter_cons_of_pos hm, if_pos hm, List.length_cons, pow_succ]; ring
      · rw [List.filter_cons_of_neg hm, if_neg hm]; ring

theorem any_zero {Γ : String → Ty} {ts : List PText} {vs : List (Env K → K)} (h : List.Forall₂ (SingleV Γ) ts vs)
    (h0 : ∃ t ∈ ts, t = [.num 0]) : vs.prod = 0 := by
  induction h with
  | nil => obtain ⟨t, ht, _⟩ := h0; cases ht
  | @cons t v ts vs ht _ ih =>
    rw [List.prod_cons]
    obtain ⟨u, hu, rfl⟩ := h0
    rcases List.mem_cons.mp hu with rfl | hu
    · rw [sum_zero ht.sumV, zero_mul]
    · rw [ih ⟨_, hu, rfl⟩, mul_zero]

theorem all_one {Γ : String → Ty} {ts : List PText} {vs : List (Env K → K)} (h : List.Forall₂ (SingleV Γ) ts vs)
    (h0 : ∀ t ∈ ts, t = [.num 1]) : vs.prod = 1 := by
  induction h with
  | nil => rfl
  | @cons t v ts vs ht _ ih =>
    have := h0 t (by simp)
    subst this
    rw [List.prod_cons, sum_one ht.sumV, ih fun t ht => h0 t (by simp [ht]), one_mul]

theorem showTimes_spec {Γ : String → Ty} {ts : List PText} {vs : List (Env K → K)} (h : List.Forall₂ (SingleV Γ) ts vs) :
    SingleV Γ (showTimes ts) vs.prod := by
  unfold showTimes
  split_ifs with h0 h1
  · rw [any_zero h (by simpa using h0)]
    have := num_single (K := K) Γ 0
    simpa [Pi.zero_def] using this
  · rw [all_one h (by simpa using h1)]
    have := num_single (K := K) Γ 1
    simpa [Pi.one_def] using this
  · obtain ⟨ws, hw, hs⟩ := strip_list h
    set as := ts.filter (· ≠ [.num 1]) with has
    set bs := as.map (fun a => if startsMinus a then a.tail else a) with hbs
    have hperm : (bs.filter startsDigit ++ bs.filter (fun b => !startsDigit b)).Perm bs := List.filter_append_perm _ _
    obtain ⟨us, hus, hup⟩ := List.perm_comp_forall₂ hperm hw
    have hne : bs.filter startsDigit ++ bs.filter (fun b => !startsDigit b) ≠ [] := by
      intro h2
      rw [h2] at hperm
      have h3 : bs = [] := hperm.symm.eq_nil
      have h4 : as = [] := by simpa [hbs] using h3
      rw [has, List.filter_eq_nil_iff] at h4
      exact h1 (by simpa using h4)
    have hj := prod_join hus hne
    rw [hup.prod_eq, hs] at hj
    simp only []
    rcases Nat.even_or_odd (as.filter startsMinus).length with he | ho
    · rw [if_neg (by rw [Nat.even_iff] at he; omega), List.nil_append]
      rw [he.neg_one_pow, one_mul] at hj
      exact .inl hj
    · rw [if_pos (Nat.odd_iff.mp ho)]
      rw [ho.neg_one_pow, neg_one_mul] at hj
      exact .inr ⟨_, rfl, hj⟩

/-! ### Comparisons -/

theorem name_single (Γ : String → Ty) (n : String) (ty : Ty) : SingleV (K := K) Γ [.name n] (valOf K (.sym n ty)) :=
  .inl ⟨.sym n (Γ n), .one (name_atom Γ n).pow, by funext σ; simp [valOf, value]⟩

theorem valOf_prod (as : List Formula) : valOf K (.times as) = (as.map (valOf K)).prod := by
  funext σ
  simp only [valOf, value, valueProd_eq]
  induction as with
  | nil => rfl
  | cons a as ih => rw [List.map_cons, List.prod_cons, List.map_cons, List.prod_cons, Pi.mul_apply, ← ih]; rfl

theorem valOf_sum (as : List Formula) : valOf K (.plus as) = (as.map (valOf K)).sum := by
  funext σ
  simp only [valOf, value, valueSum_eq]
  induction as with
  | nil => rfl
  | cons a as ih => rw [List.map_cons, List.sum_cons, List.map_cons, List.sum_cons, Pi.add_apply, ← ih]; rfl

theorem termTexts_ok {P : PText → (Env K → K) → Prop} {as : List Formula} (h : ∀ a ∈ as, ∃ t, termText a = .ok t ∧ P t (valOf K a)) :
    ∃ ts, termTexts as = .ok ts ∧ List.Forall₂ P ts (as.map (valOf K)) := by
  induction as with
  | nil => exact ⟨[], by simp [termTexts], .nil⟩
  | cons a as ih =>
    obtain ⟨t, ht, hp⟩ := h a (by simp)
    obtain ⟨ts, hts, hps⟩ := ih fun a ha => h a (by simp [ha])
    exact ⟨t :: ts, by simp [termTexts, ht, hts], .cons hp hps⟩

theorem names_text (Γ : String → Ty) {k : Mono} {t : Formula} (ht : mkTimes (k.map fun n => Formula.sym n .real) = .ok t) :
    ∃ x, termText t = .ok x ∧ SingleV Γ x (valOf K t) := by
  have hs : ∀ a ∈ k.map (fun n => Formula.sym n .real), ∃ t, termText a = .ok t ∧ SingleV Γ t (valOf K a) := by
    intro a ha
    obtain ⟨n, _, rfl⟩ := List.mem_map.mp ha
    exact ⟨[.name n], by simp [termText], name_single Γ n .real⟩
  unfold mkTimes at ht
  split at ht <;> simp at ht <;> subst ht
  · rename_i a h; rw [h] at hs; exact hs _ (by simp)
  · obtain ⟨ts, hts, hp⟩ := termTexts_ok hs
    exact ⟨showTimes ts, by simp only [termText, hts], by rw [valOf_prod]; exact showTimes_spec hp⟩

theorem linTerm_text (Γ : String → Ty) {p : Mono × ℚ} {t : Formula} (ht : linTermSmt p = .ok t) :
    ∃ x, termText t = .ok x ∧ SingleV Γ x (valOf K t) := by
  unfold linTermSmt at ht
  cases hn : mkTimes (p.1.map fun n => Formula.sym n .real) with
  | error e => rw [hn] at ht; cases ht
  | ok u =>
    rw [hn] at ht
    obtain ⟨x, hx, hv⟩ := names_text (K := K) Γ hn
    cases ht
    split_ifs with h1
    · refine ⟨showTimes [x, showConst p.2], by simp [termText, termTexts, hx], ?_⟩
      have := showTimes_spec (Γ := Γ) (.cons hv (.cons (const_single (K := K) Γ p.2) .nil))
      simpa [valOf_prod] using this
    · exact ⟨x, hx, hv⟩

theorem plus_text (Γ : String → Ty) {ts : List Formula} {s : Formula} (hs : mkPlus ts = .ok s)
    (h : ∀ t ∈ ts, ∃ x, termText t = .ok x ∧ SumV Γ x (valOf K t)) : ∃ x, termText s = .ok x ∧ SumV Γ x (valOf K s) := by
  unfold mkPlus at hs
  split at hs <;> simp at hs <;> subst hs
  · exact h _ (by simp)
  · obtain ⟨xs, hxs, hp⟩ := termTexts_ok h
    exact ⟨showPlus xs, by simp only [termText, hxs], by rw [valOf_sum]; exact showPlus_spec hp⟩

/-- The two sides of an exported inequality are printed; their difference is the linear form. -/
theorem linToSmt_sides (Γ : String → Ty) {d : Dict} (hn : KeysNodup d) :
    ∃ a b, (linToSmt d = .ok (.le a b) ∨ linToSmt d = .ok (.lt a b)) ∧
      (∃ x, termText a = .ok x ∧ SumV Γ x (valOf K a)) ∧ (∃ x, termText b = .ok x ∧ SumV Γ x (valOf K b)) ∧
      ∀ σ : Env K, value σ a - value σ b = polyEval σ.r d := by
  have hc : ∀ q : ℚ, ∃ x, termText (.realC q) = .ok x ∧ SumV Γ x (valOf K (.realC q)) := fun q =>
    ⟨showConst q, by simp [termText], (const_single Γ q).sumV⟩
  unfold linToSmt
  split_ifs with h0 h1
  · refine ⟨_, _, .inl rfl, hc 0, hc 0, fun σ => ?_⟩
    have : d = [] := List.eq_nil_of_length_eq_zero h0
    subst this
    simp [value]
  · refine ⟨_, _, .inl rfl, hc 0, hc _, fun σ => ?_⟩
    obtain ⟨p, rfl⟩ := List.length_eq_one_iff.mp h1.1
    obtain ⟨k, v⟩ := p
    have hk : k = [] := by
      by_contra hk
      have := h1.2
      rw [List.lookup_cons] at this
      simp [beq_eq_false_iff_ne.mpr (Ne.symm hk)] at this
    subst hk
    simp [value, linCoef, List.lookup_cons]
  · have hne2 : (d.filter fun p => p.1 ≠ []) ≠ [] := by
      intro hf
      rw [List.filter_eq_nil_iff] at hf
      simp only [ne_eq, decide_eq_true_eq, not_not] at hf
      cases d with
      | nil => exact h0 rfl
      | cons p d =>
        obtain ⟨k, v⟩ := p
        have hk : k = [] := hf (k, v) (by simp)
        subst hk
        simp only [KeysNodup, List.map_cons, List.nodup_cons] at hn
        cases d with
        | nil => exact h1 (by simp [List.lookup_cons])
        | cons q d =>
          have h2 : q.1 = [] := hf q (by simp)
          exact absurd (by simp [h2]) hn.1
    obtain ⟨ts, hts, hspec⟩ := mapE_terms (K := K) (g := linTermSmt) (d := d.filter fun p => p.1 ≠ [])
      fun p hp => linTermSmt_spec (by simpa using (List.mem_filter.mp hp).2)
    have htext : ∀ t ∈ ts, ∃ x, termText t = .ok x ∧ SumV Γ x (valOf K t) := by
      have : ∀ (e : Dict) (us : List Formula), (∀ p ∈ e, p.1 ≠ []) → mapE linTermSmt e = .ok us →
          ∀ t ∈ us, ∃ x, termText t = .ok x ∧ SumV Γ x (valOf K t) := by
        intro e
        induction e with
        | nil => intro us _ h t ht; simp only [mapE, Except.ok.injEq] at h; subst h; cases ht
        | cons p e ih =>
          intro us hp h t ht
          cases h1 : linTermSmt p with
          | error err => simp [mapE, h1] at h
          | ok u =>
            cases h2 : mapE linTermSmt e with
            | error err => simp [mapE, h1, h2] at h
            | ok vs =>
              simp only [mapE, h1, h2, Except.ok.injEq] at h
              subst h
              rcases List.mem_cons.mp ht with rfl | ht
              · obtain ⟨x, hx, hv⟩ := linTerm_text (K := K) Γ h1
                exact ⟨x, hx, hv.sumV⟩
              · exact ih vs (fun q hq => hp q (by simp [hq])) h2 t ht
      exact this _ ts (fun p hp => by simpa using (List.mem_filter.mp hp).2) hts
    have hl := terms_poly hspec
    have hts' : ts ≠ [] := by
      intro h0; apply hne2
      rw [h0, List.length_nil] at hl
      exact List.eq_nil_of_length_eq_zero hl.2.symm
    obtain ⟨s, hs⟩ := mkPlus_ok hts'
    refine ⟨s, _, .inr (by rw [hts]; simp only [hs]; rfl), plus_text Γ hs htext, hc _, fun σ => ?_⟩
    rw [value_mkPlus hs, terms_sum hspec, polyEval_split σ.r hn, value]
    push_cast
    ring

theorem showCmp_spec (Γ : String → Ty) {s : PTok} (hs : s = .le ∨ s = .lt) {l r : Formula} (hl : linTerm l = true) (hr : linTerm r = true) :
    ∃ t g, showCmp s l r = .ok t ∧ AtomRd Γ t g ∧ ∀ σ : Env K, truth σ g = truth σ (signOf s l r) := by
  have wl := polyTerm_wt l (linTerm_polyTerm l hl)
  have wr := polyTerm_wt r (linTerm_polyTerm r hr)
  obtain ⟨q, hq, _⟩ := linFromSmt_linear (K := K) hl hr (.inl rfl)
  obtain ⟨c, hc, he, _, hn, hz⟩ := linFromSmt_cmp (K := K) wl wr (.inl rfl) hq
  have hN : ∃ c' : ℚ, 0 < c' ∧ KeysNodup (linNormalize q) ∧
      ∀ σ : Env K, polyEval σ.r (linNormalize q) = (value σ l - value σ r) * (c' : K) := by
    by_cases hne : q = []
    · subst hne; exact ⟨c, hc, by simp [linNormalize, KeysNodup], fun σ => by simpa [linNormalize] using he σ⟩
    · obtain ⟨hf, _, _⟩ := linNormalize_factor hz hne
      set f := (q.map fun p => |p.2|).foldl max 0 with hfd
      have hfp : (0 : ℚ) < f⁻¹ := inv_pos.mpr hf
      have heq : linNormalize q = q.map fun p => (p.1, p.2 * f⁻¹) := by
        unfold linNormalize
        rw [if_neg (by simpa using hne)]
        simp only []
        rw [if_neg (ne_of_gt hf), linMk_of_nonzero]
        · apply List.map_congr_left; intro p _; rw [div_eq_mul_inv]
        · intro p hp
          obtain ⟨r, hr, rfl⟩ := List.mem_map.mp hp
          exact div_ne_zero (hz r hr) hf.ne'
      refine ⟨c * f⁻¹, mul_pos hc hfp, by rw [heq]; exact hn.mapVal _, fun σ => ?_⟩
      rw [heq, polyEval_scale, he σ]; push_cast; ring
  obtain ⟨c', hc', hn', he'⟩ := hN
  obtain ⟨a, b, hab, ⟨xa, hxa, ga, hga, va⟩, ⟨xb, hxb, gb, hgb, vb⟩, hdiff⟩ := linToSmt_sides (K := K) Γ hn'
  have htext : showCmp s l r = .ok (.lp :: xa ++ s :: xb ++ [.rp]) := by
    unfold showCmp normalizeAtom
    rw [hq]
    rcases hab with h | h <;> (simp only [h, hxa, hxb])
  refine ⟨_, signOf s ga gb, htext, cmp_read (by rcases hs with rfl | rfl <;> simp) hga hgb, fun σ => ?_⟩
  have ea : value σ ga = value σ a := congrFun va σ
  have eb : value σ gb = value σ b := congrFun vb σ
  have hk : (0 : K) < (c' : K) := by exact_mod_cast hc'
  have hd : value σ a - value σ b = (value σ l - value σ r) * (c' : K) := by rw [hdiff, he']
  have hle : value σ a ≤ value σ b ↔ value σ l ≤ value σ r := by
    rw [← sub_nonpos, hd, ← sub_nonpos (a := value σ l)]
    exact ⟨fun h => by by_contra h'; exact absurd (mul_pos (not_le.mp h') hk) (not_lt.mpr h), fun h => mul_nonpos_of_nonpos_of_nonneg h hk.le⟩
  have hlt : value σ a < value σ b ↔ value σ l < value σ r := by
    rw [← sub_neg, hd, ← sub_neg (a := value σ l)]
    exact ⟨fun h => by by_contra h'; exact absurd (mul_nonneg (not_lt.mp h') hk.le) (not_le.mpr h), fun h => mul_neg_of_neg_of_pos h hk⟩
  rcases hs with rfl | rfl <;> simp only [signOf, truth, ea, eb, hle, hlt]

/-! ### The walk -/

/-- What the walk returns at a node: the text of a truth value is read as an atom with the same truth; the text of a term is read as a sum
with the same value, as one summand if the term is no sum, as an atom if the term may be a base. -/
structure PrintOk (K : Type) [Field K] [LinearOrder K] (Γ : String → Ty) (ty : Ty) (f : Formula) (t : PText) : Prop where
  isConst : ∀ q, f = .realC q → t = showConst q
  isBool : ty = .bool → plainText f = true → ∃ g, AtomRd Γ t g ∧ ∀ σ : Env K, truth σ g = truth σ f
  isSum : ty = .real → plainText f = true → SumV Γ t (valOf K f)
  isSingle : ty = .real → plainText f = true → notSum f = true → SingleV Γ t (valOf K f)
  isAtom : ty = .real → plainText f = true → isBase f = true → ∃ g, AtomRd Γ t g ∧ valOf K g = valOf K f

theorem PrintOk.ofBool {Γ : String → Ty} {f : Formula} {t : PText} (hc : ∀ q, f ≠ .realC q)
    (h : plainText f = true → ∃ g, AtomRd Γ t g ∧ ∀ σ : Env K, truth σ g = truth σ f) : PrintOk K Γ .bool f t :=
  ⟨fun q hq => absurd hq (hc q), fun _ => h, (fun e => by cases e), (fun e => by cases e), (fun e => by cases e)⟩

theorem PrintOk.ofSingle {Γ : String → Ty} {f : Formula} {t : PText} (hc : ∀ q, f ≠ .realC q) (hb : isBase f = false)
    (h : plainText f = true → SingleV Γ t (valOf K f)) : PrintOk K Γ .real f t :=
  ⟨fun q hq => absurd hq (hc q), (fun e => by cases e), fun _ hp => (h hp).sumV, fun _ hp _ => h hp, fun _ _ h0 => by rw [hb] at h0; cases h0⟩

theorem PrintOk.ofSum {Γ : String → Ty} {f : Formula} {t : PText} (hc : ∀ q, f ≠ .realC q) (hb : isBase f = false) (hs : notSum f = false)
    (h : plainText f = true → SumV Γ t (valOf K f)) : PrintOk K Γ .real f t :=
  ⟨fun q hq => absurd hq (hc q), (fun e => by cases e), fun _ hp => h hp, (fun _ _ h0 => by rw [hs] at h0; cases h0),
    fun _ _ h0 => by rw [hb] at h0; cases h0⟩

theorem PrintOk.ofAtom {Γ : String → Ty} {f : Formula} {t : PText} (hc : ∀ q, f ≠ .realC q)
    (h : plainText f = true → ∃ g, AtomRd Γ t g ∧ valOf K g = valOf K f) : PrintOk K Γ .real f t :=
  ⟨fun q hq => absurd hq (hc q), (fun e => by cases e),
    (fun _ hp => by obtain ⟨g, hg, hv⟩ := h hp; exact hv ▸ SingleV.sumV (.inl hg.prodV)),
    (fun _ hp _ => by obtain ⟨g, hg, hv⟩ := h hp; exact hv ▸ .inl hg.prodV), fun _ hp _ => h hp⟩

theorem print_list {Γ : String → Ty} {as : List Formula} {ts : List PText} (h : List.Forall₂ (PrintOk K Γ .bool) as ts)
    (hp : ∀ a ∈ as, plainText a = true) :
    ∃ gs, List.Forall₂ (SumText Γ) ts gs ∧ ∀ σ : Env K, gs.map (truth σ) = as.map (truth σ) := by
  induction h with
  | nil => exact ⟨[], .nil, fun _ => rfl⟩
  | @cons a t as ts ht _ ih =>
    obtain ⟨gs, hgs, hv⟩ := ih fun a ha => hp a (by simp [ha])
    obtain ⟨g, hg, hgv⟩ := ht.isBool rfl (hp a (by simp))
    exact ⟨g :: gs, .cons hg.sum hgs, fun σ => by rw [List.map_cons, List.map_cons, hgv, hv]⟩

theorem truth_listOf {sep : PTok} (hs : sep = .amp ∨ sep = .bar) (gs : List Formula) (σ : Env K) :
    truth σ (listOf sep gs) = if sep = .amp then (gs.map (truth σ)).all id else (gs.map (truth σ)).any id := by
  rcases hs with rfl | rfl
  · match gs with
    | [] => rfl
    | [g] => simp [listOf]
    | g :: h :: gs => simp [listOf, truth, truthAll_eq, truthAll, List.all_map, Function.comp_def]
  · match gs with
    | [] => rfl
    | [g] => simp [listOf]
    | g :: h :: gs => simp [listOf, truth, truthAny_eq, truthAny, List.any_map, Function.comp_def]

theorem print_walk (Γ : String → Ty) {ty : Ty} {f : Formula} (h : wt ty f = true) (hlin : ∀ a ∈ atoms f, linAtom a = true) :
    ∃ t, prettyPrint f = .ok t ∧ PrintOk K Γ ty f t := by
  refine Walker.soundA printW_decr (fun _ => True) (fun a => linAtom a = true) (PrintOk K Γ)
    ?_ ?_ ?_ ?_ ?_ ?_ ?_ ?_ ?_ ?_ ?_ ?_ ?_ ?_ (fun _ _ => rfl) ?_ ?_ f ty h (fun _ _ => trivial) hlin
  · -- and
    intro g as ts hne _ hm hD
    refine ⟨.lp :: joinText .amp ts ++ [.rp], ?_, .ofBool (by simp) fun hp => ?_⟩
    · show interp g (callAll as fun ts => .done _) = _
      rw [interp_callAll, hm]; rfl
    · have hts : ts ≠ [] := by rintro rfl; cases hD; exact hne rfl
      obtain ⟨gs, hgs, hv⟩ := print_list hD ((plainTexts_iff as).mp hp)
      refine ⟨_, list_read (.inl rfl) hgs hts, fun σ => ?_⟩
      rw [truth_listOf (.inl rfl), if_pos rfl, hv, truth, truthAll_eq, List.all_map]; rfl
  · -- or
    intro g as ts hne _ hm hD
    refine ⟨.lp :: joinText .bar ts ++ [.rp], ?_, .ofBool (by simp) fun hp => ?_⟩
    · show interp g (callAll as fun ts => .done _) = _
      rw [interp_callAll, hm]; rfl
    · have hts : ts ≠ [] := by rintro rfl; cases hD; exact hne rfl
      obtain ⟨gs, hgs, hv⟩ := print_list hD ((plainTexts_iff as).mp hp)
      refine ⟨_, list_read (.inr rfl) hgs hts, fun σ => ?_⟩
      rw [truth_listOf (.inr rfl), if_neg (by simp), hv, truth, truthAny_eq, List.any_map]; rfl
  · -- times
    intro g as ts _ hm hD
    refine ⟨showTimes ts, ?_, .ofSingle (by simp) rfl fun hp => ?_⟩
    · show interp g (callAll as fun ts => .done _) = _
      rw [interp_callAll, hm]; rfl
    · simp only [plainText, Bool.and_eq_true, plainTexts_iff, List.all_eq_true] at hp
      rw [valOf_prod]
      refine showTimes_spec ?_
      rw [List.forall₂_map_right_iff]
      refine List.Forall₂.flip ?_
      have : ∀ (as : List Formula) (ts : List PText), List.Forall₂ (PrintOk K Γ .real) as ts → (∀ a ∈ as, plainText a = true) →
          (∀ a ∈ as, notSum a = true) → List.Forall₂ (fun a t => SingleV Γ t (valOf K a)) as ts := by
        intro as ts h
        induction h with
        | nil => intro _ _; exact .nil
        | cons ht _ ih =>
          intro h1 h2
          exact .cons (ht.isSingle rfl (h1 _ (by simp)) (h2 _ (by simp))) (ih (fun a ha => h1 a (by simp [ha])) fun a ha => h2 a (by simp [ha]))
      exact this as ts hD hp.1 hp.2
  · -- plus
    intro g as ts _ hm hD
    refine ⟨showPlus ts, ?_, .ofSum (by simp) rfl rfl fun hp => ?_⟩
    · show interp g (callAll as fun ts => .done _) = _
      rw [interp_callAll, hm]; rfl
    · simp only [plainText, plainTexts_iff] at hp
      rw [valOf_sum]
      refine showPlus_spec ?_
      rw [List.forall₂_map_right_iff]
      refine List.Forall₂.flip ?_
      have : ∀ (as : List Formula) (ts : List PText), List.Forall₂ (PrintOk K Γ .real) as ts → (∀ a ∈ as, plainText a = true) →
          List.Forall₂ (fun a t => SumV Γ t (valOf K a)) as ts := by
        intro as ts h
        induction h with
        | nil => intro _; exact .nil
        | cons ht _ ih =>
          intro h1
          exact .cons (ht.isSum rfl (h1 _ (by simp))) (ih (fun a ha => h1 a (by simp [ha])))
      exact this as ts hD hp
  · -- not
    intro g a ra _ ha hD
    refine ⟨.tilde :: ra, ?_, .ofBool (by simp) fun hp => ?_⟩
    · show interp g (.call a fun t => .done _) = _
      simp [interp, ha]
    · obtain ⟨k, hk, hv⟩ := hD.isBool rfl hp
      exact ⟨.not k, not_read hk, fun σ => by simp [truth, hv]⟩
  · -- minus
    intro g l r rl rr hl hr hDl hDr
    refine ⟨rl ++ .minus :: rr, ?_, .ofSum (by simp) rfl rfl fun hp => ?_⟩
    · refine (interp_call2 g l r _).trans ?_; rw [hl, hr]
    · simp only [plainText, Bool.and_eq_true] at hp
      rw [valOf_minus]
      exact (hDl.isSum rfl hp.1.1).sub (hDr.isSingle rfl hp.1.2 hp.2)
  · -- ite
    intro g ty i t e ri rt re _ _ _ hi ht he hDi hDt hDe
    refine ⟨.lp :: .kIf :: ri ++ .kThen :: rt ++ .kElse :: re ++ [.rp], ?_, ?_⟩
    · show interp g (.call i fun a => .call t fun b => .call e fun d => .done _) = _
      simp [interp, hi, ht, he]
    · cases ty with
      | bool =>
        refine .ofBool (by simp) fun hp => ?_
        simp only [plainText, Bool.and_eq_true] at hp
        obtain ⟨k1, h1, v1⟩ := hDi.isBool rfl hp.1.1
        obtain ⟨k2, h2, v2⟩ := hDt.isBool rfl hp.1.2
        obtain ⟨k3, h3, v3⟩ := hDe.isBool rfl hp.2
        exact ⟨_, ite_read h1.sum h2.sum h3.sum, fun σ => by simp [truth, v1, v2, v3]⟩
      | real =>
        refine .ofAtom (by simp) fun hp => ?_
        simp only [plainText, Bool.and_eq_true] at hp
        obtain ⟨k1, h1, v1⟩ := hDi.isBool rfl hp.1.1
        obtain ⟨k2, h2, v2⟩ := hDt.isSum rfl hp.1.2
        obtain ⟨k3, h3, v3⟩ := hDe.isSum rfl hp.2
        refine ⟨_, ite_read h1.sum h2 h3, ?_⟩
        funext σ
        have e2 := congrFun v2 σ
        have e3 := congrFun v3 σ
        simp only [valOf] at e2 e3 ⊢
        simp [value, v1, e2, e3]
  · -- pow
    intro g b q rb rq hq1 hq2 hb hq hDb hDq
    have hq0 : ¬ q < 0 := by simpa [Rat.num_nonneg] using hq2
    have hrq : rq = [.num q] := by rw [hDq.isConst q rfl, showConst, if_neg hq0]
    subst hrq
    refine ⟨rb ++ [.hat, .num q], ?_, .ofSingle (by simp) rfl fun hp => ?_⟩
    · refine (interp_call2 g b (.realC q) _).trans ?_; rw [hb, hq]
    · simp only [plainText, Bool.and_eq_true] at hp
      obtain ⟨k, hk, hv⟩ := hDb.isAtom rfl hp.1 hp.2
      refine .inl ⟨_, .one (hk.expo q), ?_⟩
      funext σ
      have e := congrFun hv σ
      simp only [valOf] at e ⊢
      simp [value, e]
  · -- le
    intro g l r rl rr ha _ _ _ _ _ _
    simp only [linAtom, Bool.and_eq_true] at ha
    obtain ⟨t, k, ht, hk, hv⟩ := showCmp_spec (K := K) Γ (.inl rfl) ha.1 ha.2
    refine ⟨t, ?_, .ofBool (by simp) fun _ => ⟨k, hk, hv⟩⟩
    show interp g (.ofExcept (showCmp .le l r)) = _
    rw [interp_ofExcept, ht]
  · -- lt
    intro g l r rl rr ha _ _ _ _ _ _
    simp only [linAtom, Bool.and_eq_true] at ha
    obtain ⟨t, k, ht, hk, hv⟩ := showCmp_spec (K := K) Γ (.inr rfl) ha.1 ha.2
    refine ⟨t, ?_, .ofBool (by simp) fun _ => ⟨k, hk, hv⟩⟩
    show interp g (.ofExcept (showCmp .lt l r)) = _
    rw [interp_ofExcept, ht]
  · -- equals
    intro g l r rl rr _ _ _ hl hr hDl hDr
    refine ⟨.lp :: rl ++ .eq :: rr ++ [.rp], ?_, .ofBool (by simp) fun hp => ?_⟩
    · refine (interp_call2 g l r _).trans ?_; rw [hl, hr]
    · simp only [plainText, Bool.and_eq_true] at hp
      obtain ⟨k1, h1, v1⟩ := hDl.isSum rfl hp.1
      obtain ⟨k2, h2, v2⟩ := hDr.isSum rfl hp.2
      refine ⟨_, cmp_read (.inr (.inr rfl)) h1 h2, fun σ => ?_⟩
      have e1 := congrFun v1 σ
      have e2 := congrFun v2 σ
      simp only [valOf] at e1 e2
      simp [signOf, truth, e1, e2]
  · -- symbol
    intro g n t _
    refine ⟨[.name n], rfl, ?_⟩
    cases t with
    | bool => exact .ofBool (by simp) fun _ => ⟨_, name_atom Γ n, fun σ => by simp [truth]⟩
    | real => exact .ofAtom (by simp) fun _ => ⟨_, name_atom Γ n, by funext σ; simp [valOf, value]⟩
  · -- truth values
    intro g b
    refine ⟨[if b then .tru else .fls], rfl, .ofBool (by simp) fun _ => ⟨.boolC b, ⟨1, fun n hn rest => ?_⟩, fun _ => rfl⟩⟩
    obtain ⟨m, rfl⟩ : ∃ m, n = m + 1 := ⟨n - 1, by omega⟩
    cases b <;> rfl
  · -- numbers
    intro g q
    refine ⟨showConst q, rfl, ⟨fun p hp => by cases hp; rfl, (fun e => by cases e), fun _ _ => (const_single Γ q).sumV,
      fun _ _ _ => const_single Γ q, fun _ _ hb => ?_⟩⟩
    simp only [isBase, decide_eq_true_eq] at hb
    rw [showConst, if_neg (not_lt.mpr hb)]
    exact ⟨_, num_atom Γ q, rfl⟩
  · -- implies
    intro l r x h
    refine .ofBool (by simp) fun hp => ?_
    simp only [plainText, Bool.and_eq_true] at hp
    have hn : plainText (mkNot l) = true := by
      unfold mkNot; split
      · simpa [plainText] using hp.1
      · simpa [plainText] using hp.1
    obtain ⟨k, hk, hv⟩ := h.isBool rfl (by simp [mkOr, plainText, plainTexts, hn, hp.2])
    refine ⟨k, hk, fun σ => ?_⟩
    rw [hv, truth_mkOr]
    simp [Formula.truth]
  · -- iff
    intro l r x h
    refine .ofBool (by simp) fun hp => ?_
    simp only [plainText, Bool.and_eq_true] at hp
    obtain ⟨k, hk, hv⟩ := h.isBool rfl (by simp [plainText, plainTexts, hp.1, hp.2])
    refine ⟨k, hk, fun σ => ?_⟩
    rw [hv]
    simp only [Formula.truth, truthAll, Bool.and_true]
    cases Formula.truth σ l <;> cases Formula.truth σ r <;> rfl

end

/-! ## C74 -/

section
variable {K : Type} [Field K] [LinearOrder K] [IsStrictOrderedRing K]

theorem SumText.readsAs {Γ : String → Ty} {t : PText} {g : Formula} (h : SumText Γ t g) : ReadsAs Γ t g := by
  obtain ⟨N, hN⟩ := h.whole
  exact ⟨N, fun n hn => by simpa using hN n hn [] ⟨by simp, by simp, by simp, by simp⟩⟩

/-- **C74**: every formula and every weight with linear comparisons is printed; comparisons always with the sign they have in the formula.
If outside of comparisons no sum is a factor, subtracted or a base (`plainText`), then a reader that knows the usual precedences reads the
text as a formula with the same truth, or a weight with the same value, at every assignment.

Missing: the condition `plainText`; without it the claim is false, see `print_product`, `print_difference`, `print_power`. -/
theorem print_faithful_partial (Γ : String → Ty) {ty : Ty} {f : Formula} (h : wt ty f = true) (hlin : ∀ a ∈ atoms f, linAtom a = true)
    (hp : plainText f = true) :
    ∃ t g, prettyPrint f = .ok t ∧ ReadsAs Γ t g ∧ ∀ σ : Env K, den σ ty g = den σ ty f := by
  obtain ⟨t, ht, hok⟩ := print_walk (K := K) Γ h hlin
  cases ty with
  | bool =>
    obtain ⟨g, hg, hv⟩ := hok.isBool rfl hp
    exact ⟨t, g, ht, hg.sum.readsAs, fun σ => by simp [den, hv]⟩
  | real =>
    obtain ⟨g, hg, hv⟩ := hok.isSum rfl hp
    exact ⟨t, g, ht, hg.readsAs, fun σ => by simpa [den, valOf] using congrFun hv σ⟩

/-- **C74 (no failure)**: printing succeeds whenever the comparisons are linear, brackets or not. -/
theorem print_total {ty : Ty} {f : Formula} (h : wt ty f = true) (hlin : ∀ a ∈ atoms f, linAtom a = true) :
    ∃ t, prettyPrint f = .ok t := by
  obtain ⟨t, ht, _⟩ := print_walk (K := ℚ) (fun _ => .real) h hlin
  exact ⟨t, ht⟩

mutual
/-- SPEC: no `=` between terms and no case distinction between terms, so that every term is the side of a comparison. -/
def onlyComparisons : Formula → Bool
  | .and as => onlyComparisonsAll as
  | .or as => onlyComparisonsAll as
  | .implies l r => onlyComparisons l && onlyComparisons r
  | .iff l r => onlyComparisons l && onlyComparisons r
  | .not a => onlyComparisons a
  | .ite c t e => onlyComparisons c && onlyComparisons t && onlyComparisons e
  | .le _ _ => true
  | .lt _ _ => true
  | .sym _ _ => true
  | .boolC _ => true
  | _ => false
/-- SPEC: the same for lists. -/
def onlyComparisonsAll : List Formula → Bool
  | [] => true
  | a :: as => onlyComparisons a && onlyComparisonsAll as
end

mutual
theorem plainText_of_only : ∀ f, onlyComparisons f = true → plainText f = true
  | .and as, h => plainTexts_of_only as h
  | .or as, h => plainTexts_of_only as h
  | .implies l r, h => by
    simp only [onlyComparisons, Bool.and_eq_true] at h
    simp [plainText, plainText_of_only l h.1, plainText_of_only r h.2]
  | .iff l r, h => by
    simp only [onlyComparisons, Bool.and_eq_true] at h
    simp [plainText, plainText_of_only l h.1, plainText_of_only r h.2]
  | .not a, h => plainText_of_only a h
  | .ite c t e, h => by
    simp only [onlyComparisons, Bool.and_eq_true] at h
    simp [plainText, plainText_of_only c h.1.1, plainText_of_only t h.1.2, plainText_of_only e h.2]
  | .le _ _, _ => rfl
  | .lt _ _, _ => rfl
  | .sym _ _, _ => rfl
  | .boolC _, _ => rfl
  | .equals _ _, h => by cases h
  | .plus _, h => by cases h
  | .minus _ _, h => by cases h
  | .times _, h => by cases h
  | .pow _ _, h => by cases h
  | .realC _, h => by cases h
theorem plainTexts_of_only : ∀ fs, onlyComparisonsAll fs = true → plainTexts fs = true
  | [], _ => rfl
  | a :: as, h => by
    simp only [onlyComparisonsAll, Bool.and_eq_true] at h
    simp [plainTexts, plainText_of_only a h.1, plainTexts_of_only as h.2]
end

/-- **C74 (supports)**: a support made of linear comparisons and truth values is printed as a text that is read as a formula with the same
truth, at every assignment, whatever sums, products and differences stand inside of the comparisons. -/
theorem print_support (Γ : String → Ty) {f : Formula} (h : wt .bool f = true) (hlin : ∀ a ∈ atoms f, linAtom a = true)
    (ho : onlyComparisons f = true) :
    ∃ t g, prettyPrint f = .ok t ∧ ReadsAs Γ t g ∧ ∀ σ : Env K, truth σ g = truth σ f := by
  obtain ⟨t, g, ht, hr, hv⟩ := print_faithful_partial (K := K) Γ h hlin (plainText_of_only f ho)
  exact ⟨t, g, ht, hr, fun σ => by simpa [den] using hv σ⟩

end

/-- **C74 (what goes wrong without the condition)**: `(x + 1) * y` is printed `x + 1*y`, which is read as another weight. -/
theorem print_product (Γ : String → Ty) : ∃ t g,
    prettyPrint (.times [.plus [.sym "x" .real, .realC 1], .sym "y" .real]) = .ok t ∧ ReadsAs Γ t g ∧
    ∃ σ : Env ℚ, value σ g ≠ value σ (.times [.plus [.sym "x" .real, .realC 1], .sym "y" .real]) := by
  refine ⟨[.name "x", .plus, .num 1, .star, .name "y"], .plus [.sym "x" (Γ "x"), .times [.realC 1, .sym "y" (Γ "y")]], by decide +kernel, ?_,
    ⟨fun _ => true, fun _ => 2⟩, by simp [value, valueSum, valueProd]; norm_num⟩
  exact (SumText.add (name_atom Γ "x").sum (.mul (.one (num_atom Γ 1).pow) (name_atom Γ "y").pow)).readsAs

/-- `x - (y + z)` is printed `x - y + z`. -/
theorem print_difference (Γ : String → Ty) : ∃ t g,
    prettyPrint (.minus (.sym "x" .real) (.plus [.sym "y" .real, .sym "z" .real])) = .ok t ∧ ReadsAs Γ t g ∧
    ∃ σ : Env ℚ, value σ g ≠ value σ (.minus (.sym "x" .real) (.plus [.sym "y" .real, .sym "z" .real])) := by
  refine ⟨[.name "x", .minus, .name "y", .plus, .name "z"], .plus [.minus (.sym "x" (Γ "x")) (.sym "y" (Γ "y")), .sym "z" (Γ "z")],
    by decide +kernel, ?_, ⟨fun _ => true, fun _ => 2⟩, by simp [value, valueSum, valueProd]; norm_num⟩
  exact (SumText.add (.sub (name_atom Γ "x").sum (.one (name_atom Γ "y").pow)) (.one (name_atom Γ "z").pow)).readsAs

/-- `(-3)^2` is printed `-3^2`. -/
theorem print_power (Γ : String → Ty) : ∃ t g,
    prettyPrint (.pow (.realC (-3)) (.realC 2)) = .ok t ∧ ReadsAs Γ t g ∧
    ∃ σ : Env ℚ, value σ g ≠ value σ (.pow (.realC (-3)) (.realC 2)) := by
  refine ⟨[.minus, .num 3, .hat, .num 2], negTerm (.pow (.realC 3) (.realC 2)), by decide +kernel,
    (SumText.neg (.one ((num_atom Γ 3).expo 2))).readsAs, ⟨fun _ => true, fun _ => 2⟩, ?_⟩
  simp [negTerm, value, valueProd]; norm_num

/-- `!(x + 1 <= x)`: the printed comparison is `(0 <= -1)`; signs of `<` stay. -/
example : prettyPrint (.not (.lt (.plus [.sym "x" .real, .realC 1]) (.sym "x" .real))) =
    .ok [.tilde, .lp, .num 0, .lt, .minus, .num 1, .rp] := by decide +kernel

/-! ### Cases meeting the hypotheses -/

/-- `(a & 2*(x + y) - 3 < y) | !(x <= 2)`. -/
def printSupport : Formula :=
  .or [.and [.sym "a" .bool, .lt (.minus (.times [.realC 2, .plus [.sym "x" .real, .sym "y" .real]]) (.realC 3)) (.sym "y" .real)],
    .not (.le (.sym "x" .real) (.realC 2))]

example : wt .bool printSupport = true ∧ (∀ a ∈ atoms printSupport, linAtom a = true) ∧ onlyComparisons printSupport = true := by
  decide +kernel
example : prettyPrint printSupport = .ok [.lp, .lp, .name "a", .amp, .lp, .num (2/3), .star, .name "x", .plus, .num (1/3), .star, .name "y",
    .lt, .num 1, .rp, .rp, .bar, .tilde, .lp, .num (1/2), .star, .name "x", .le, .num 1, .rp, .rp] := by decide +kernel

/-- `if a & x < y then -2 * x^2 * y * -1 else 3 - x`. -/
def printWeight : Formula :=
  .ite (.and [.sym "a" .bool, .lt (.sym "x" .real) (.sym "y" .real)])
    (.times [.realC (-2), .pow (.sym "x" .real) (.realC 2), .sym "y" .real, .realC (-1)]) (.minus (.realC 3) (.sym "x" .real))

example : wt .real printWeight = true ∧ (∀ a ∈ atoms printWeight, linAtom a = true) ∧ plainText printWeight = true := by
  decide +kernel
example : prettyPrint printWeight = .ok [.lp, .kIf, .lp, .name "a", .amp, .lp, .name "x", .minus, .num 1, .star, .name "y", .lt, .num 0, .rp,
    .rp, .kThen, .num 2, .star, .num 1, .star, .name "x", .hat, .num 2, .star, .name "y", .kElse, .num 3, .minus, .name "x", .rp] := by
  decide +kernel

end Pywmi
