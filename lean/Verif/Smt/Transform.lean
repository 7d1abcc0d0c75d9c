import Verif.Smt.Sound
import Verif.Smt.Check
import Verif.Math.Poly

/-!
# Formula transformers

Models of `SmtIdentityWalker` (/repo/pywmi/smt_walk.py:113-158), `PositiveCoefficientsWalker`
(/repo/pywmi/transform/positive_coefficients.py) and `NormalizationWalker`
(/repo/pywmi/transform/smt_normalize.py).
-/

namespace Pywmi
open Formula Prog

/-- `SmtIdentityWalker` (/repo/pywmi/smt_walk.py:113-158) with a hook `c` for `walk_constant` on real
constants.  `smt.And` etc. are pysmt's constructors. -/
def rebuildW (c : ℚ → ℚ) : Walker Formula where
  onAnd as := .callAll as fun rs => .done (mkAnd rs)
  onOr as := .callAll as fun rs => .done (mkOr rs)
  onNot a := .call a fun r => .done (mkNot r)
  onTimes as := .callAll as fun rs => .ofExcept (mkTimes rs)
  onPlus as := .callAll as fun rs => .ofExcept (mkPlus rs)
  onMinus l r := call2 l r fun a b => .ok (.minus a b)
  onIte i t e := .call i fun a => .call t fun b => .call e fun d => .done (.ite a b d)
  onPow b e := call2 b e mkPow
  onLte l r := call2 l r fun a b => .ok (.le a b)
  onLt l r := call2 l r fun a b => .ok (.lt a b)
  onEquals l r := call2 l r fun a b => .ok (.equals a b)
  onSymbol n t := .done (.sym n t)
  onBool b := .done (.boolC b)
  onReal q := .done (.realC (c q))

/-- `SmtIdentityWalker().walk_smt(f)`. -/
def identityWalk (f : Formula) : Except PyErr Formula := (rebuildW id).walk f

/-- `make_coefficients_positive` (/repo/pywmi/transform/positive_coefficients.py:8-17): every real constant is
replaced by its absolute value. -/
def makePositive (f : Formula) : Except PyErr Formula := (rebuildW fun q => |q|).walk f

/-- `LinearInequality.from_smt(atom).normalize().to_smt()` (/repo/pywmi/transform/smt_normalize.py:34-38). -/
def normalizeAtom (atom : Formula) : Except PyErr Formula :=
  match linFromSmt atom with
  | .ok d => linToSmt (linNormalize d)
  | .error e => .error e

/-- `NormalizationWalker` (/repo/pywmi/transform/smt_normalize.py:9-52). -/
def normalizeW : Walker Formula where
  onAnd as := .callAll as fun rs => .done (mkAnd rs)
  onOr as := .callAll as fun rs => .done (mkOr rs)
  onNot a := .call a fun r => .done (mkNot r)
  onTimes as := .callAll as fun rs => .ofExcept (mkTimes rs)
  onPlus as := .callAll as fun rs => .ofExcept (mkPlus rs)
  onMinus l r := call2 l r fun a b => .ok (.minus a b)
  onIte i t e := .call i fun a => .call t fun b => .call e fun d => .done (.ite a b d)
  onPow b e := call2 b e mkPow
  onLte l r := .ofExcept (normalizeAtom (.le l r))
  onLt l r := .ofExcept (normalizeAtom (.lt l r))
  onEquals l r := call2 l r fun a b => .ok (.equals a b)
  onSymbol n t := .done (.sym n t)
  onBool b := .done (.boolC b)
  onReal q := .done (.realC q)

/-- `normalize_formula` (/repo/pywmi/transform/smt_normalize.py:55-57). -/
def normalizeFormula (f : Formula) : Except PyErr Formula := normalizeW.walk f

mutual
/-- SPEC: replace every real constant `q` by `c q`. -/
def mapConst (c : ℚ → ℚ) : Formula → Formula
  | .and as => .and (mapConstList c as)
  | .or as => .or (mapConstList c as)
  | .implies l r => .implies (mapConst c l) (mapConst c r)
  | .not a => .not (mapConst c a)
  | .times as => .times (mapConstList c as)
  | .plus as => .plus (mapConstList c as)
  | .minus l r => .minus (mapConst c l) (mapConst c r)
  | .ite i t e => .ite (mapConst c i) (mapConst c t) (mapConst c e)
  | .pow b e => .pow (mapConst c b) (mapConst c e)
  | .le l r => .le (mapConst c l) (mapConst c r)
  | .lt l r => .lt (mapConst c l) (mapConst c r)
  | .equals l r => .equals (mapConst c l) (mapConst c r)
  | .iff l r => .iff (mapConst c l) (mapConst c r)
  | .sym n t => .sym n t
  | .boolC b => .boolC b
  | .realC q => .realC (c q)
/-- SPEC: `mapConst` on a list. -/
def mapConstList (c : ℚ → ℚ) : List Formula → List Formula
  | [] => []
  | a :: as => mapConst c a :: mapConstList c as
end

mutual
/-- SPEC: the real constants occurring in a formula. -/
def consts : Formula → List ℚ
  | .and as => constsList as
  | .or as => constsList as
  | .implies l r => consts l ++ consts r
  | .not a => consts a
  | .times as => constsList as
  | .plus as => constsList as
  | .minus l r => consts l ++ consts r
  | .ite c t e => consts c ++ (consts t ++ consts e)
  | .pow b e => consts b ++ consts e
  | .le l r => consts l ++ consts r
  | .lt l r => consts l ++ consts r
  | .equals l r => consts l ++ consts r
  | .iff l r => consts l ++ consts r
  | .sym _ _ => []
  | .boolC _ => []
  | .realC q => [q]
/-- SPEC: the real constants of a list. -/
def constsList : List Formula → List ℚ
  | [] => []
  | a :: as => consts a ++ constsList as
end

mutual
/-- Shape of formulas returned by the rebuilding walkers: no implications or equivalences, no double
negations, n-ary nodes with at least two arguments, no powers of constants. -/
def rebuilt : Formula → Bool
  | .and as => decide (2 ≤ as.length) && rebuiltAll as
  | .or as => decide (2 ≤ as.length) && rebuiltAll as
  | .implies _ _ => false
  | .iff _ _ => false
  | .not a => (match a with | .not _ => false | _ => true) && rebuilt a
  | .times as => decide (2 ≤ as.length) && rebuiltAll as
  | .plus as => decide (2 ≤ as.length) && rebuiltAll as
  | .minus l r => rebuilt l && rebuilt r
  | .ite i t e => rebuilt i && (rebuilt t && rebuilt e)
  | .pow b e => (match b with | .realC _ => false | _ => true) && (rebuilt b && (match e with | .realC _ => true | _ => false))
  | .le l r => rebuilt l && rebuilt r
  | .lt l r => rebuilt l && rebuilt r
  | .equals l r => rebuilt l && rebuilt r
  | _ => true
/-- `rebuilt` on a list. -/
def rebuiltAll : List Formula → Bool
  | [] => true
  | a :: as => rebuilt a && rebuiltAll as
end

theorem rebuiltAll_iff (as : List Formula) : rebuiltAll as = true ↔ ∀ a ∈ as, rebuilt a = true := by
  induction as with
  | nil => simp [rebuiltAll]
  | cons a as ih => simp [rebuiltAll, ih]
theorem mapConstList_eq (c : ℚ → ℚ) (as : List Formula) : mapConstList c as = as.map (mapConst c) := by
  induction as with
  | nil => rfl
  | cons a as ih => simp [mapConstList, ih]
theorem mem_constsList {p : ℚ} {as : List Formula} : p ∈ constsList as ↔ ∃ a ∈ as, p ∈ consts a := by
  induction as with
  | nil => simp [constsList]
  | cons a as ih => simp [constsList, ih]

theorem mapConst_self (c : ℚ → ℚ) (f : Formula) : (∀ q ∈ consts f, c q = q) → mapConst c f = f := by
  have hl : ∀ as : List Formula, (∀ a ∈ as, (∀ q ∈ consts a, c q = q) → mapConst c a = a) →
      (∀ q ∈ constsList as, c q = q) → mapConstList c as = as := by
    intro as
    induction as with
    | nil => intros; rfl
    | cons a as ih =>
      intro h hq
      simp only [constsList, List.mem_append] at hq
      simp only [mapConstList]
      rw [h a (by simp) fun q h' => hq q (.inl h'), ih (fun x hx => h x (by simp [hx])) fun q h' => hq q (.inr h')]
  induction f using Formula.induct with
  | and as ih => intro h; simp only [mapConst, consts] at h ⊢; rw [hl as ih h]
  | or as ih => intro h; simp only [mapConst, consts] at h ⊢; rw [hl as ih h]
  | times as ih => intro h; simp only [mapConst, consts] at h ⊢; rw [hl as ih h]
  | plus as ih => intro h; simp only [mapConst, consts] at h ⊢; rw [hl as ih h]
  | not a ih => intro h; simp only [mapConst, consts] at h ⊢; rw [ih h]
  | ite i t e ih1 ih2 ih3 =>
    intro h; simp only [mapConst, consts, List.mem_append] at h ⊢
    rw [ih1 fun q h' => h q (.inl h'), ih2 fun q h' => h q (.inr (.inl h')),
      ih3 fun q h' => h q (.inr (.inr h'))]
  | implies l r ih1 ih2 | minus l r ih1 ih2 | pow l r ih1 ih2 | le l r ih1 ih2 | lt l r ih1 ih2
  | equals l r ih1 ih2 | iff l r ih1 ih2 =>
    intro h; simp only [mapConst, consts, List.mem_append] at h ⊢
    rw [ih1 fun q h' => h q (.inl h'), ih2 fun q h' => h q (.inr h')]
  | sym n t => intro _; rfl
  | boolC b => intro _; rfl
  | realC q => intro h; simp only [mapConst]; rw [h q (by simp [consts])]

/-! ### Helper lemmas for the walkers -/

theorem rebuildW_decr (c : ℚ → ℚ) : (rebuildW c).Decr := by
  refine Walker.decr_of ?_ ?_ ?_ ?_ ?_ ?_ ?_ ?_ ?_ ?_ ?_ ?_ ?_ ?_ ?_
  · exact fun as n h => callsBelow_callAll h fun rs => trivial
  · exact fun as n h => callsBelow_callAll h fun rs => trivial
  · exact fun as n h => callsBelow_callAll h fun rs => callsBelow_ofExcept _ _ _
  · exact fun as n h => callsBelow_callAll h fun rs => callsBelow_ofExcept _ _ _
  · exact fun a n h => ⟨h, fun _ => trivial⟩
  · exact fun l r => call2_below (by simp only [msize]; omega) (by simp only [msize]; omega) _
  · exact fun i t e n h1 h2 h3 => ⟨h1, fun _ => ⟨h2, fun _ => ⟨h3, fun _ => trivial⟩⟩⟩
  · exact fun l r n hl hr => call2_below hl hr _
  · exact fun l r n hl hr => call2_below hl hr _
  · exact fun l r n hl hr => call2_below hl hr _
  · exact fun l r n hl hr => call2_below hl hr _
  · exact fun _ _ _ => trivial
  · exact fun _ _ => trivial
  · exact fun _ _ => trivial
  · exact Walker.implies_default_below

theorem normalizeW_decr : normalizeW.Decr := by
  refine Walker.decr_of ?_ ?_ ?_ ?_ ?_ ?_ ?_ ?_ ?_ ?_ ?_ ?_ ?_ ?_ ?_
  · exact fun as n h => callsBelow_callAll h fun rs => trivial
  · exact fun as n h => callsBelow_callAll h fun rs => trivial
  · exact fun as n h => callsBelow_callAll h fun rs => callsBelow_ofExcept _ _ _
  · exact fun as n h => callsBelow_callAll h fun rs => callsBelow_ofExcept _ _ _
  · exact fun a n h => ⟨h, fun _ => trivial⟩
  · exact fun l r => call2_below (by simp only [msize]; omega) (by simp only [msize]; omega) _
  · exact fun i t e n h1 h2 h3 => ⟨h1, fun _ => ⟨h2, fun _ => ⟨h3, fun _ => trivial⟩⟩⟩
  · exact fun l r n hl hr => call2_below hl hr _
  · exact fun l r n hl hr => callsBelow_ofExcept _ _ _
  · exact fun l r n hl hr => callsBelow_ofExcept _ _ _
  · exact fun l r n hl hr => call2_below hl hr _
  · exact fun _ _ _ => trivial
  · exact fun _ _ => trivial
  · exact fun _ _ => trivial
  · exact Walker.implies_default_below

theorem wt_mkAnd {as : List Formula} (h : ∀ a ∈ as, wt .bool a = true) : wt .bool (mkAnd as) = true := by
  unfold mkAnd; split
  · rfl
  · exact h _ (by simp)
  · rename_i h1 h2
    simp only [wt, Bool.and_eq_true, wtAll_iff]
    exact ⟨by cases as <;> simp_all, h⟩
theorem wt_mkOr {as : List Formula} (h : ∀ a ∈ as, wt .bool a = true) : wt .bool (mkOr as) = true := by
  unfold mkOr; split
  · rfl
  · exact h _ (by simp)
  · rename_i h1 h2
    simp only [wt, Bool.and_eq_true, wtAll_iff]
    exact ⟨by cases as <;> simp_all, h⟩
theorem wt_mkPlus {as : List Formula} {f : Formula} (h : ∀ a ∈ as, wt .real a = true)
    (hf : mkPlus as = .ok f) : wt .real f = true := by
  unfold mkPlus at hf; split at hf <;> simp at hf <;> subst hf
  · exact h _ (by simp)
  · rename_i h1 h2
    simp only [wt, Bool.and_eq_true, wtAll_iff]
    exact ⟨by cases as <;> simp_all, h⟩
theorem wt_mkTimes {as : List Formula} {f : Formula} (h : ∀ a ∈ as, wt .real a = true)
    (hf : mkTimes as = .ok f) : wt .real f = true := by
  unfold mkTimes at hf; split at hf <;> simp at hf <;> subst hf
  · exact h _ (by simp)
  · rename_i h1 h2
    simp only [wt, Bool.and_eq_true, wtAll_iff]
    exact ⟨by cases as <;> simp_all, h⟩

theorem two_le_of_not {α : Type} {as : List α} (h1 : as ≠ []) (h2 : ∀ a, as ≠ [a]) : 2 ≤ as.length := by
  cases as with
  | nil => exact absurd rfl h1
  | cons a as => cases as with
    | nil => exact absurd rfl (h2 a)
    | cons b as => simp

theorem rebuilt_mkAnd {as : List Formula} (h : ∀ a ∈ as, rebuilt a = true) : rebuilt (mkAnd as) = true := by
  unfold mkAnd; split
  · rfl
  · exact h _ (by simp)
  · rename_i h1 h2
    simp only [rebuilt, Bool.and_eq_true, rebuiltAll_iff, decide_eq_true_eq]
    exact ⟨two_le_of_not (fun e => h1 e) (fun a e => h2 a e), h⟩
theorem rebuilt_mkOr {as : List Formula} (h : ∀ a ∈ as, rebuilt a = true) : rebuilt (mkOr as) = true := by
  unfold mkOr; split
  · rfl
  · exact h _ (by simp)
  · rename_i h1 h2
    simp only [rebuilt, Bool.and_eq_true, rebuiltAll_iff, decide_eq_true_eq]
    exact ⟨two_le_of_not (fun e => h1 e) (fun a e => h2 a e), h⟩
theorem rebuilt_mkPlus {as : List Formula} {f : Formula} (h : ∀ a ∈ as, rebuilt a = true)
    (hf : mkPlus as = .ok f) : rebuilt f = true := by
  unfold mkPlus at hf; split at hf <;> simp at hf <;> subst hf
  · exact h _ (by simp)
  · rename_i h1 h2
    simp only [rebuilt, Bool.and_eq_true, rebuiltAll_iff, decide_eq_true_eq]
    exact ⟨two_le_of_not (fun e => h1 e) (fun a e => h2 a e), h⟩
theorem rebuilt_mkTimes {as : List Formula} {f : Formula} (h : ∀ a ∈ as, rebuilt a = true)
    (hf : mkTimes as = .ok f) : rebuilt f = true := by
  unfold mkTimes at hf; split at hf <;> simp at hf <;> subst hf
  · exact h _ (by simp)
  · rename_i h1 h2
    simp only [rebuilt, Bool.and_eq_true, rebuiltAll_iff, decide_eq_true_eq]
    exact ⟨two_le_of_not (fun e => h1 e) (fun a e => h2 a e), h⟩
theorem rebuilt_mkNot {a : Formula} (h : rebuilt a = true) : rebuilt (mkNot a) = true := by
  unfold mkNot; split
  · simp only [rebuilt, Bool.and_eq_true] at h; exact h.2
  · rename_i hn
    simp only [rebuilt, Bool.and_eq_true, h, and_true]

theorem consts_mkAnd {as : List Formula} {q : ℚ} (h : q ∈ consts (mkAnd as)) : ∃ a ∈ as, q ∈ consts a := by
  unfold mkAnd at h; split at h
  · simp [consts] at h
  · exact ⟨_, by simp, h⟩
  · simpa [consts, mem_constsList] using h
theorem consts_mkOr {as : List Formula} {q : ℚ} (h : q ∈ consts (mkOr as)) : ∃ a ∈ as, q ∈ consts a := by
  unfold mkOr at h; split at h
  · simp [consts] at h
  · exact ⟨_, by simp, h⟩
  · simpa [consts, mem_constsList] using h
theorem consts_mkPlus {as : List Formula} {f : Formula} (hf : mkPlus as = .ok f) {q : ℚ} (h : q ∈ consts f) :
    ∃ a ∈ as, q ∈ consts a := by
  unfold mkPlus at hf; split at hf <;> simp at hf <;> subst hf
  · exact ⟨_, by simp, h⟩
  · simpa [consts, mem_constsList] using h
theorem consts_mkTimes {as : List Formula} {f : Formula} (hf : mkTimes as = .ok f) {q : ℚ} (h : q ∈ consts f) :
    ∃ a ∈ as, q ∈ consts a := by
  unfold mkTimes at hf; split at hf <;> simp at hf <;> subst hf
  · exact ⟨_, by simp, h⟩
  · simpa [consts, mem_constsList] using h
theorem consts_mkNot (a : Formula) : consts (mkNot a) = consts a := by
  unfold mkNot; split <;> simp [consts]

end Pywmi
