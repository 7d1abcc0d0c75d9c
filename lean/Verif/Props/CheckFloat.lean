import Verif.Smt.CheckFloat
import Verif.Props.Check
import Verif.Props.PolyFloat

set_option linter.unusedSectionVars false
set_option linter.unusedSimpArgs false

/-!
# C112: evaluation with floats
-/

namespace Pywmi
open Formula Prog
variable {rd : ℚ → ℚ} {powF : ℚ → ℚ → ℚ}

/-! ## The value of a formula in float arithmetic -/

mutual
/-- SPEC: truth of a formula when numbers are rounded after every operation. -/
def truthF (rd : ℚ → ℚ) (powF : ℚ → ℚ → ℚ) (σ : Env ℚ) : Formula → Bool
  | .and as => truthFAll rd powF σ as
  | .or as => truthFAny rd powF σ as
  | .implies l r => !truthF rd powF σ l || truthF rd powF σ r
  | .not a => !truthF rd powF σ a
  | .ite c t e => if truthF rd powF σ c then truthF rd powF σ t else truthF rd powF σ e
  | .le l r => decide (valueF rd powF σ l ≤ valueF rd powF σ r)
  | .lt l r => decide (valueF rd powF σ l < valueF rd powF σ r)
  | .equals l r => decide (valueF rd powF σ l = valueF rd powF σ r)
  | .iff l r => truthF rd powF σ l == truthF rd powF σ r
  | .sym n _ => σ.b n
  | .boolC b => b
  | _ => false
/-- SPEC: value of a term when numbers are rounded after every operation, sums and products from the left. -/
def valueF (rd : ℚ → ℚ) (powF : ℚ → ℚ → ℚ) (σ : Env ℚ) : Formula → ℚ
  | .times as => prodF rd powF σ 1 as
  | .plus as => sumF rd powF σ 0 as
  | .minus l r => rd (valueF rd powF σ l - valueF rd powF σ r)
  | .ite c t e => if truthF rd powF σ c then valueF rd powF σ t else valueF rd powF σ e
  | .pow b (.realC q) => powF (valueF rd powF σ b) (rd q)
  | .sym n _ => σ.r n
  | .realC q => rd q
  | _ => 0
/-- SPEC: all formulas of a list are true. -/
def truthFAll (rd : ℚ → ℚ) (powF : ℚ → ℚ → ℚ) (σ : Env ℚ) : List Formula → Bool
  | [] => true
  | a :: as => truthF rd powF σ a && truthFAll rd powF σ as
/-- SPEC: some formula of a list is true. -/
def truthFAny (rd : ℚ → ℚ) (powF : ℚ → ℚ → ℚ) (σ : Env ℚ) : List Formula → Bool
  | [] => false
  | a :: as => truthF rd powF σ a || truthFAny rd powF σ as
/-- SPEC: rounded sum from the left. -/
def sumF (rd : ℚ → ℚ) (powF : ℚ → ℚ → ℚ) (σ : Env ℚ) : ℚ → List Formula → ℚ
  | x, [] => x
  | x, a :: as => sumF rd powF σ (rd (x + valueF rd powF σ a)) as
/-- SPEC: rounded product from the left. -/
def prodF (rd : ℚ → ℚ) (powF : ℚ → ℚ → ℚ) (σ : Env ℚ) : ℚ → List Formula → ℚ
  | x, [] => x
  | x, a :: as => prodF rd powF σ (rd (x * valueF rd powF σ a)) as
end

/-- SPEC: the value of a well-typed formula in float arithmetic. -/
def denF (rd : ℚ → ℚ) (powF : ℚ → ℚ → ℚ) (σ : Env ℚ) : Ty → Formula → Val ℚ
  | .bool, f => .b (truthF rd powF σ f)
  | .real, f => .r (valueF rd powF σ f)

/-! ## Lemmas -/

theorem truthFAll_eq (σ : Env ℚ) (as : List Formula) : truthFAll rd powF σ as = as.all (truthF rd powF σ) := by
  induction as with
  | nil => rfl
  | cons a as ih => simp [truthFAll, ih]
theorem truthFAny_eq (σ : Env ℚ) (as : List Formula) : truthFAny rd powF σ as = as.any (truthF rd powF σ) := by
  induction as with
  | nil => rfl
  | cons a as ih => simp [truthFAny, ih]
theorem sumF_eq (σ : Env ℚ) (as : List Formula) (x : ℚ) :
    sumF rd powF σ x as = (as.map (valueF rd powF σ)).foldl (fun a b => rd (a + b)) x := by
  induction as generalizing x with
  | nil => rfl
  | cons a as ih => simp [sumF, ih]
theorem prodF_eq (σ : Env ℚ) (as : List Formula) (x : ℚ) :
    prodF rd powF σ x as = (as.map (valueF rd powF σ)).foldl (fun a b => rd (a * b)) x := by
  induction as generalizing x with
  | nil => rfl
  | cons a as ih => simp [prodF, ih]

theorem mapE_asB_F (σ : Env ℚ) (as : List Formula) : mapE asB (as.map (denF rd powF σ .bool)) = .ok (as.map (truthF rd powF σ)) := by
  induction as with
  | nil => rfl
  | cons a as ih => simp [mapE, asB, ih, denF]
theorem mapE_asR_F (σ : Env ℚ) (as : List Formula) : mapE asR (as.map (denF rd powF σ .real)) = .ok (as.map (valueF rd powF σ)) := by
  induction as with
  | nil => rfl
  | cons a as ih => simp [mapE, asR, ih, denF]

theorem pyAll_denF (σ : Env ℚ) (as : List Formula) : pyAll (as.map (denF rd powF σ .bool)) = .ok (denF rd powF σ .bool (.and as)) := by
  simp [pyAll, mapE_asB_F, denF, truthF, truthFAll_eq]
theorem pyAny_denF (σ : Env ℚ) (as : List Formula) : pyAny (as.map (denF rd powF σ .bool)) = .ok (denF rd powF σ .bool (.or as)) := by
  simp [pyAny, mapE_asB_F, denF, truthF, truthFAny_eq]
theorem pySum_denF (σ : Env ℚ) (as : List Formula) : pySumFloat rd (as.map (denF rd powF σ .real)) = .ok (denF rd powF σ .real (.plus as)) := by
  simp only [pySumFloat, mapE_asR_F, denF, valueF, sumF_eq]
theorem pyProd_denF (σ : Env ℚ) {as : List Formula} (h : as ≠ []) :
    pyProdFloat rd (as.map (denF rd powF σ .real)) = .ok (denF rd powF σ .real (.times as)) := by
  have h' : (as.map (denF rd powF σ .real)).isEmpty = false := by cases as <;> simp_all
  rw [pyProdFloat, h']
  simp only [mapE_asR_F, denF, valueF, prodF_eq, Bool.false_eq_true, if_false]

theorem denF_implies (σ : Env ℚ) (l r : Formula) : denF rd powF σ .bool (.or [.not l, r]) = denF rd powF σ .bool (.implies l r) := by
  simp [denF, truthF, truthFAny]
theorem denF_mkOr (σ : Env ℚ) (l r : Formula) : denF rd powF σ .bool (mkOr [mkNot l, r]) = denF rd powF σ .bool (.implies l r) := by
  rw [← denF_implies]
  cases l <;> simp [mkOr, mkNot, denF, truthF, truthFAny]
theorem denF_iff (σ : Env ℚ) (l r : Formula) : denF rd powF σ .bool (.and [.implies l r, .implies r l]) = denF rd powF σ .bool (.iff l r) := by
  simp only [denF, truthF, truthFAll_eq, List.all_cons, List.all_nil, Bool.and_true]
  cases truthF rd powF σ l <;> cases truthF rd powF σ r <;> rfl

theorem checkerFloatW_decr {pypow : ℚ → ℚ → Except PyErr ℚ} {asg : String → Option (AVal ℚ)} : (checkerFloatW rd pypow asg).Decr := by
  refine Walker.decr_of ?_ ?_ ?_ ?_ ?_ ?_ ?_ ?_ ?_ ?_ ?_ ?_ ?_ ?_ ?_
  · exact fun as n h => callsBelow_callAll h fun _ => callsBelow_ofExcept _ _ _
  · exact fun as n h => callsBelow_callAll h fun _ => callsBelow_ofExcept _ _ _
  · intro as n h
    simp only [checkerFloatW]
    split
    · trivial
    · exact callsBelow_callAll h fun _ => callsBelow_ofExcept _ _ _
  · exact fun as n h => callsBelow_callAll h fun _ => callsBelow_ofExcept _ _ _
  · exact fun a n h => ⟨h, fun _ => callsBelow_ofExcept _ _ _⟩
  · exact fun l r => call2_below (by simp only [msize]; omega) (by simp only [msize]; omega) _
  · intro c t e n hc ht he
    refine ⟨hc, fun v => ?_⟩
    simp only []
    split
    · exact ⟨ht, fun _ => trivial⟩
    · exact ⟨he, fun _ => trivial⟩
    · trivial
  · exact fun l r n hl hr => call2_below hl hr _
  · exact fun l r n hl hr => call2_below hl hr _
  · exact fun l r n hl hr => call2_below hl hr _
  · exact fun l r n hl hr => call2_below hl hr _
  · intro m t n
    simp only [checkerFloatW]
    split
    · exact callsBelow_ofExcept _ _ _
    · trivial
  · exact fun _ _ => trivial
  · exact fun _ _ => trivial
  · exact fun l r => Walker.implies_default_below l r

theorem singleFloatW_decr {pypow : ℚ → ℚ → Except PyErr ℚ} {vars : List String} {row : List ℚ} : (singleFloatW rd pypow vars row).Decr := by
  refine Walker.decr_of ?_ ?_ ?_ ?_ ?_ ?_ ?_ ?_ ?_ ?_ ?_ ?_ ?_ ?_ ?_
  · exact fun as n h => callsBelow_callAll h fun _ => callsBelow_ofExcept _ _ _
  · exact fun as n h => callsBelow_callAll h fun _ => callsBelow_ofExcept _ _ _
  · intro as n h
    simp only [singleFloatW]
    split
    · trivial
    · exact callsBelow_callAll h fun _ => callsBelow_ofExcept _ _ _
  · exact fun as n h => callsBelow_callAll h fun _ => callsBelow_ofExcept _ _ _
  · exact fun a n h => ⟨h, fun _ => callsBelow_ofExcept _ _ _⟩
  · exact fun l r => call2_below (by simp only [msize]; omega) (by simp only [msize]; omega) _
  · intro c t e n hc ht he
    refine ⟨hc, fun v => ⟨ht, fun v' => ⟨he, fun v'' => ?_⟩⟩⟩
    simp only []
    split <;> trivial
  · exact fun l r n hl hr => call2_below hl hr _
  · exact fun l r n hl hr => call2_below hl hr _
  · exact fun l r n hl hr => call2_below hl hr _
  · exact fun l r n hl hr => call2_below hl hr _
  · intro m t n
    simp only [singleFloatW]
    split
    · trivial
    · split <;> trivial
  · exact fun _ _ => trivial
  · exact fun _ _ => trivial
  · exact fun l r => Walker.implies_default_below l r

/-- The assignment holds an acceptable value for the symbol, whose rounding is the value in `σ`. -/
def AsgFloat (rd : ℚ → ℚ) (asg : String → Option (AVal ℚ)) (σ : Env ℚ) : String × Ty → Prop
  | (n, .bool) => asg n = some (.pyBool (σ.b n)) ∨ asg n = some (.fBool (σ.b n))
  | (n, .real) => ∃ q, (asg n = some (.num q) ∨ asg n = some (.fReal q)) ∧ σ.r n = rd q

/-- `evaluate_assignment` computes the value in float arithmetic. -/
theorem assignment_float {pypow : ℚ → ℚ → Except PyErr ℚ} (hpow : ∀ x y, pypow x y = .ok (powF x y)) {asg : String → Option (AVal ℚ)} {σ : Env ℚ}
    {ty : Ty} {f : Formula} (hwt : wt ty f = true) (hs : ∀ p ∈ syms f, AsgFloat rd asg σ p) :
    evaluateAssignmentFloat rd pypow asg f = .ok (denF rd powF σ ty f) := by
  have := Walker.sound (checkerFloatW_decr (rd := rd) (pypow := pypow) (asg := asg)) (AsgFloat rd asg σ)
    (fun ty f r => r = denF rd powF σ ty f)
    (hAnd := ?_) (hOr := ?_) (hTimes := ?_) (hPlus := ?_) (hNot := ?_) (hMinus := ?_) (hIte := ?_)
    (hPow := ?_) (hLe := ?_) (hLt := ?_) (hEq := ?_) (hSym := ?_) (hBool := ?_) (hReal := ?_)
    (hImpl := fun _ _ => rfl) (hDI := fun l r x h => h.trans (denF_mkOr σ l r))
    (hDiff := fun l r x h => h.trans (denF_iff σ l r)) f ty hwt hs
  · obtain ⟨r, h1, h2⟩ := this
    rw [evaluateAssignmentFloat, h1, h2]
  · intro g as rs _ _ hg hD
    refine ⟨_, ?_, rfl⟩
    simp only [checkerFloatW, interp_callAll, hg, interp_ofExcept, forall₂_fun hD, pyAll_denF]
  · intro g as rs _ _ hg hD
    refine ⟨_, ?_, rfl⟩
    simp only [checkerFloatW, interp_callAll, hg, interp_ofExcept, forall₂_fun hD, pyAny_denF]
  · intro g as rs hne hg hD
    refine ⟨_, ?_, rfl⟩
    have : as.isEmpty = false := by simpa using hne
    simp only [checkerFloatW, this, Bool.false_eq_true, if_false, interp_callAll, hg, interp_ofExcept,
      forall₂_fun hD, pyProd_denF σ hne]
  · intro g as rs _ hg hD
    refine ⟨_, ?_, rfl⟩
    simp only [checkerFloatW, interp_callAll, hg, interp_ofExcept, forall₂_fun hD, pySum_denF]
  · intro g a ra _ hg hD
    refine ⟨_, ?_, rfl⟩
    simp [checkerFloatW, interp, hg, hD, pyNot, asB, denF, truthF]
  · intro g l r rl rr hl hr hDl hDr
    refine ⟨_, ?_, rfl⟩
    simp [checkerFloatW, call2, interp, hl, hr, hDl, hDr, pyArith, asR, denF, valueF]
  · intro g ty c t e rc rt re _ _ _ hc ht he hDc hDt hDe
    refine ⟨_, ?_, rfl⟩
    simp only [checkerFloatW, interp, hc, hDc, denF, asB]
    cases hc' : truthF rd powF σ c
    · simp only [interp, he, hDe]
      cases ty <;> simp [denF, truthF, valueF, hc']
    · simp only [interp, ht, hDt]
      cases ty <;> simp [denF, truthF, valueF, hc']
  · intro g b q rb rq h1 h2 hb hq hDb hDq
    refine ⟨_, ?_, rfl⟩
    simp [checkerFloatW, call2, interp, hb, hq, hDb, hDq, pyArith, asR, denF, valueF, hpow]
  · intro g l r rl rr _ _ hl hr hDl hDr
    refine ⟨_, ?_, rfl⟩
    simp [checkerFloatW, call2, interp, hl, hr, hDl, hDr, pyCmp, asR, denF, truthF]
  · intro g l r rl rr _ _ hl hr hDl hDr
    refine ⟨_, ?_, rfl⟩
    simp [checkerFloatW, call2, interp, hl, hr, hDl, hDr, pyCmp, asR, denF, truthF]
  · intro g l r rl rr _ _ hl hr hDl hDr
    refine ⟨_, ?_, rfl⟩
    simp [checkerFloatW, call2, interp, hl, hr, hDl, hDr, pyCmp, asR, denF, truthF]
  · intro g n t h
    refine ⟨_, ?_, rfl⟩
    cases t with
    | bool => rcases h with h | h <;> simp [checkerFloatW, h, assignmentConstant, denF, truthF, Except.map, roundVal]
    | real => obtain ⟨q, h | h, hq⟩ := h <;> simp [checkerFloatW, h, assignmentConstant, denF, valueF, hq, Except.map, roundVal]
  · intro g b; exact ⟨_, rfl, rfl⟩
  · intro g q; exact ⟨_, rfl, rfl⟩

/-- The evaluation of a row computes the value in float arithmetic. -/
theorem row_float {pypow : ℚ → ℚ → Except PyErr ℚ} (hpow : ∀ x y, pypow x y = .ok (powF x y)) {vars : List String} (hnd : vars.Nodup)
    {row : List ℚ} (hrow : row.length = vars.length) {ty : Ty} {f : Formula} (hwt : wt ty f = true) (hs : ∀ p ∈ syms f, p.1 ∈ vars) :
    (singleFloatW rd pypow vars row).walk f = .ok (denF rd powF (rowEnv vars row) ty f) := by
  have := Walker.sound (singleFloatW_decr (rd := rd) (pypow := pypow) (vars := vars) (row := row)) (fun p => p.1 ∈ vars)
    (fun ty f r => r = denF rd powF (rowEnv vars row) ty f)
    (hAnd := ?_) (hOr := ?_) (hTimes := ?_) (hPlus := ?_) (hNot := ?_) (hMinus := ?_) (hIte := ?_)
    (hPow := ?_) (hLe := ?_) (hLt := ?_) (hEq := ?_) (hSym := ?_) (hBool := ?_) (hReal := ?_)
    (hImpl := fun _ _ => rfl) (hDI := fun l r x h => h.trans (denF_mkOr _ l r))
    (hDiff := fun l r x h => h.trans (denF_iff _ l r)) f ty hwt hs
  · obtain ⟨r, h1, h2⟩ := this
    rw [h1, h2]
  · intro g as rs _ _ hg hD
    refine ⟨_, ?_, rfl⟩
    simp only [singleFloatW, interp_callAll, hg, interp_ofExcept, forall₂_fun hD, pyAll_denF]
  · intro g as rs _ _ hg hD
    refine ⟨_, ?_, rfl⟩
    simp only [singleFloatW, interp_callAll, hg, interp_ofExcept, forall₂_fun hD, pyAny_denF]
  · intro g as rs hne hg hD
    refine ⟨_, ?_, rfl⟩
    have : as.isEmpty = false := by simpa using hne
    simp only [singleFloatW, this, Bool.false_eq_true, if_false, interp_callAll, hg, interp_ofExcept,
      forall₂_fun hD, pyProd_denF _ hne]
  · intro g as rs _ hg hD
    refine ⟨_, ?_, rfl⟩
    simp only [singleFloatW, interp_callAll, hg, interp_ofExcept, forall₂_fun hD, pySum_denF]
  · intro g a ra _ hg hD
    refine ⟨_, ?_, rfl⟩
    simp [singleFloatW, interp, hg, hD, pyNot, asB, denF, truthF]
  · intro g l r rl rr hl hr hDl hDr
    refine ⟨_, ?_, rfl⟩
    simp [singleFloatW, call2, interp, hl, hr, hDl, hDr, pyArith, asR, denF, valueF]
  · intro g ty c t e rc rt re _ _ _ hc ht he hDc hDt hDe
    refine ⟨_, ?_, rfl⟩
    simp only [singleFloatW, interp, hc, ht, he, hDc, denF, asB]
    cases hc' : truthF rd powF (rowEnv vars row) c
    · simp only [interp, hDe]
      cases ty <;> simp [denF, truthF, valueF, hc']
    · simp only [interp, hDt]
      cases ty <;> simp [denF, truthF, valueF, hc']
  · intro g b q rb rq h1 h2 hb hq hDb hDq
    refine ⟨_, ?_, rfl⟩
    simp [singleFloatW, call2, interp, hb, hq, hDb, hDq, pyArith, asR, denF, valueF, hpow]
  · intro g l r rl rr _ _ hl hr hDl hDr
    refine ⟨_, ?_, rfl⟩
    simp [singleFloatW, call2, interp, hl, hr, hDl, hDr, pyCmp, asR, denF, truthF]
  · intro g l r rl rr _ _ hl hr hDl hDr
    refine ⟨_, ?_, rfl⟩
    simp [singleFloatW, call2, interp, hl, hr, hDl, hDr, pyCmp, asR, denF, truthF]
  · intro g l r rl rr _ _ hl hr hDl hDr
    refine ⟨_, ?_, rfl⟩
    simp [singleFloatW, call2, interp, hl, hr, hDl, hDr, pyCmp, asR, denF, truthF]
  · intro g n t h
    refine ⟨_, ?_, rfl⟩
    have hlt : vars.idxOf n < row.length := by rw [hrow]; exact List.idxOf_lt_length_iff.2 h
    simp only [singleFloatW, lookup_indices hnd h, List.getElem?_eq_getElem hlt]
    cases t <;> simp [interp, denF, truthF, valueF, rowEnv, List.getD_eq_getElem?_getD, hlt]
  · intro g b; exact ⟨_, rfl, rfl⟩
  · intro g q; exact ⟨_, rfl, rfl⟩

/-- **C112**: for every rounding, `evaluate_assignment` and the evaluation of the row with the same floats give the same result. -/
theorem evaluators_float_agree {pypow : ℚ → ℚ → Except PyErr ℚ} (hpow : ∀ x y, pypow x y = .ok (powF x y)) {vars : List String} (hnd : vars.Nodup)
    {row : List ℚ} (hrow : row.length = vars.length) {ty : Ty} {f : Formula} (hwt : wt ty f = true) (hs : ∀ p ∈ syms f, p.1 ∈ vars)
    {asg : String → Option (AVal ℚ)} (ha : ∀ p ∈ syms f, AsgFloat rd asg (rowEnv vars row) p) :
    evaluateAssignmentFloat rd pypow asg f = (singleFloatW rd pypow vars row).walk f :=
  (assignment_float hpow hwt ha).trans (row_float hpow hnd hrow hwt hs).symm

/-! ## Small whole numbers -/

/-- Python's power is exact when base, exponent and result are whole and the result is within 2^53. -/
def PowWhole (powF : ℚ → ℚ → ℚ) : Prop := ∀ (z : ℤ) (n : ℕ), |(z : ℚ) ^ n| ≤ 9007199254740992 → powF z n = (z : ℚ) ^ n

mutual
/-- SPEC: an upper bound for every number met while a formula is evaluated, at least 1 everywhere. -/
def checkSize (σ : Env ℚ) : Formula → ℚ
  | .realC q => max 1 |q|
  | .sym n _ => max 1 |σ.r n|
  | .plus as => max 1 (checkSizeSum σ as)
  | .and as => max 1 (checkSizeSum σ as)
  | .or as => max 1 (checkSizeSum σ as)
  | .times as => checkSizeProd σ as
  | .minus l r => checkSize σ l + checkSize σ r
  | .le l r => checkSize σ l + checkSize σ r
  | .lt l r => checkSize σ l + checkSize σ r
  | .equals l r => checkSize σ l + checkSize σ r
  | .implies l r => checkSize σ l + checkSize σ r
  | .iff l r => checkSize σ l + checkSize σ r
  | .not a => checkSize σ a
  | .ite c t e => checkSize σ c + checkSize σ t + checkSize σ e
  | .pow b (.realC q) => checkSize σ b ^ max 1 q.num.toNat
  | _ => 1
/-- SPEC: sum of the bounds. -/
def checkSizeSum (σ : Env ℚ) : List Formula → ℚ
  | [] => 0
  | a :: as => checkSize σ a + checkSizeSum σ as
/-- SPEC: product of the bounds. -/
def checkSizeProd (σ : Env ℚ) : List Formula → ℚ
  | [] => 1
  | a :: as => checkSize σ a * checkSizeProd σ as
end

mutual
/-- SPEC: constants are whole, exponents are natural and at most 2^53. -/
def wholeConsts : Formula → Bool
  | .realC q => decide (q.den = 1)
  | .plus as => wholeConstsAll as
  | .and as => wholeConstsAll as
  | .or as => wholeConstsAll as
  | .times as => wholeConstsAll as
  | .minus l r => wholeConsts l && wholeConsts r
  | .le l r => wholeConsts l && wholeConsts r
  | .lt l r => wholeConsts l && wholeConsts r
  | .equals l r => wholeConsts l && wholeConsts r
  | .implies l r => wholeConsts l && wholeConsts r
  | .iff l r => wholeConsts l && wholeConsts r
  | .not a => wholeConsts a
  | .ite c t e => wholeConsts c && (wholeConsts t && wholeConsts e)
  | .pow b (.realC q) => wholeConsts b && (decide (q.den = 1) && (decide (0 ≤ q.num) && decide (q.num ≤ 9007199254740992)))
  | _ => true
/-- SPEC: the same for a list. -/
def wholeConstsAll : List Formula → Bool
  | [] => true
  | a :: as => wholeConsts a && wholeConstsAll as
end

theorem wholeConstsAll_iff (as : List Formula) : wholeConstsAll as = true ↔ ∀ a ∈ as, wholeConsts a = true := by
  induction as with
  | nil => simp [wholeConstsAll]
  | cons a as ih => simp [wholeConstsAll, ih]

theorem checkSize_one (σ : Env ℚ) (f : Formula) : 1 ≤ checkSize σ f := by
  induction f using Formula.induct with
  | times as ih =>
    simp only [checkSize]
    induction as with
    | nil => simp [checkSizeProd]
    | cons a as ih' =>
      simp only [checkSizeProd]
      exact one_le_mul_of_one_le_of_one_le (ih a (by simp)) (ih' fun x hx => ih x (by simp [hx]))
  | pow b e ihb _ =>
    cases e with
    | realC q => simp only [checkSize]; exact one_le_pow₀ ihb
    | _ => simp [checkSize]
  | not a ih => simpa [checkSize] using ih
  | _ => first | (simp [checkSize]; done) | (simp only [checkSize]; linarith)

theorem checkSizeSum_nonneg (σ : Env ℚ) (as : List Formula) : 0 ≤ checkSizeSum σ as := by
  induction as with
  | nil => exact le_rfl
  | cons a as ih => simp only [checkSizeSum]; linarith [checkSize_one σ a]
theorem checkSizeProd_one (σ : Env ℚ) (as : List Formula) : 1 ≤ checkSizeProd σ as := checkSize_one σ (.times as)
theorem checkSize_le_sum {σ : Env ℚ} {a : Formula} {as : List Formula} (h : a ∈ as) : checkSize σ a ≤ checkSizeSum σ as := by
  induction as with
  | nil => cases h
  | cons b as ih =>
    simp only [checkSizeSum]
    rcases List.mem_cons.1 h with rfl | h
    · linarith [checkSizeSum_nonneg σ as]
    · linarith [ih h, checkSize_one σ b]
theorem checkSize_le_prod {σ : Env ℚ} {a : Formula} {as : List Formula} (h : a ∈ as) : checkSize σ a ≤ checkSizeProd σ as := by
  induction as with
  | nil => cases h
  | cons b as ih =>
    simp only [checkSizeProd]
    have h1 := checkSizeProd_one σ as
    have h2 := checkSize_one σ b
    rcases List.mem_cons.1 h with rfl | h
    · nlinarith
    · nlinarith [ih h]

/-- What is shown for every formula. -/
def SameValue (rd : ℚ → ℚ) (powF : ℚ → ℚ → ℚ) (σ : Env ℚ) (f : Formula) : Prop :=
  truthF rd powF σ f = truth σ f ∧ valueF rd powF σ f = value σ f ∧ Whole (value σ f) ∧ |value σ f| ≤ checkSize σ f

theorem whole_zero : Whole 0 := ⟨0, by simp⟩
theorem whole_one : Whole 1 := ⟨1, by simp⟩

theorem sum_whole (h : ExactWhole rd) {σ : Env ℚ} {as : List Formula} (ha : ∀ a ∈ as, SameValue rd powF σ a) :
    ∀ x s : ℚ, Whole x → |x| ≤ s → s + checkSizeSum σ as ≤ 9007199254740992 →
      sumF rd powF σ x as = x + valueSum σ as ∧ Whole (x + valueSum σ as) ∧ |x + valueSum σ as| ≤ s + checkSizeSum σ as := by
  induction as with
  | nil => intro x s hx hs _; simpa [sumF, valueSum, checkSizeSum] using ⟨hx, hs⟩
  | cons a as ih =>
    intro x s hx hs hb
    simp only [checkSizeSum] at hb ⊢
    obtain ⟨_, v1, v2, v3⟩ := ha a (by simp)
    have h0 := checkSizeSum_nonneg σ as
    have hab := abs_add_le x (value σ a)
    simp only [sumF, valueSum, v1]
    rw [h.at (hx.add v2) (by linarith), ← add_assoc, ← add_assoc]
    exact ih (fun y hy => ha y (by simp [hy])) _ _ (hx.add v2) (by linarith) (by linarith)

theorem prod_whole (h : ExactWhole rd) {σ : Env ℚ} {as : List Formula} (ha : ∀ a ∈ as, SameValue rd powF σ a) :
    ∀ x s : ℚ, Whole x → |x| ≤ s → s * checkSizeProd σ as ≤ 9007199254740992 →
      prodF rd powF σ x as = x * valueProd σ as ∧ Whole (x * valueProd σ as) ∧ |x * valueProd σ as| ≤ s * checkSizeProd σ as := by
  induction as with
  | nil => intro x s hx hs _; simpa [prodF, valueProd, checkSizeProd] using ⟨hx, hs⟩
  | cons a as ih =>
    intro x s hx hs hb
    simp only [checkSizeProd] at hb ⊢
    obtain ⟨_, v1, v2, v3⟩ := ha a (by simp)
    have h0 := checkSizeProd_one σ as
    have h1 := checkSize_one σ a
    have hs0 : 0 ≤ s := (abs_nonneg x).trans hs
    have hm : |x * value σ a| ≤ s * checkSize σ a := by rw [abs_mul]; exact mul_le_mul hs v3 (abs_nonneg _) hs0
    rw [← mul_assoc] at hb ⊢
    have hp : 0 ≤ s * checkSize σ a := mul_nonneg hs0 (by linarith)
    simp only [prodF, valueProd, v1]
    rw [h.at (hx.mul v2) (by nlinarith), ← mul_assoc]
    exact ih (fun y hy => ha y (by simp [hy])) _ _ (hx.mul v2) hm hb

theorem sameValue (h : ExactWhole rd) (hp : PowWhole powF) {σ : Env ℚ} (hσ : ∀ n, Whole (σ.r n)) (f : Formula) :
    wholeConsts f = true → checkSize σ f ≤ 9007199254740992 → SameValue rd powF σ f := by
  have nil : ∀ g : Formula, |(0 : ℚ)| ≤ checkSize σ g := fun g => by simp; linarith [checkSize_one σ g]
  have two : ∀ l r : Formula, checkSize σ l + checkSize σ r ≤ 9007199254740992 → checkSize σ l ≤ 9007199254740992 ∧ checkSize σ r ≤ 9007199254740992 :=
    fun l r h => ⟨by linarith [checkSize_one σ r], by linarith [checkSize_one σ l]⟩
  induction f using Formula.induct with
  | and as ih =>
    intro hw hs
    simp only [wholeConsts, wholeConstsAll_iff] at hw
    have hs' : checkSizeSum σ as ≤ _ := (le_max_right _ _).trans hs
    refine ⟨?_, rfl, whole_zero, nil _⟩
    simp only [truthF, truth, truthFAll_eq, truthAll_eq]
    rw [Bool.eq_iff_iff, List.all_eq_true, List.all_eq_true]
    exact forall₂_congr fun a ha => by rw [(ih a ha (hw a ha) ((checkSize_le_sum ha).trans hs')).1]
  | or as ih =>
    intro hw hs
    simp only [wholeConsts, wholeConstsAll_iff] at hw
    have hs' : checkSizeSum σ as ≤ _ := (le_max_right _ _).trans hs
    refine ⟨?_, rfl, whole_zero, nil _⟩
    simp only [truthF, truth, truthFAny_eq, truthAny_eq]
    rw [Bool.eq_iff_iff, List.any_eq_true, List.any_eq_true]
    exact exists_congr fun a => and_congr_right fun ha => by rw [(ih a ha (hw a ha) ((checkSize_le_sum ha).trans hs')).1]
  | plus as ih =>
    intro hw hs
    simp only [wholeConsts, wholeConstsAll_iff] at hw
    have hs' : checkSizeSum σ as ≤ _ := (le_max_right _ _).trans hs
    obtain ⟨s1, s2, s3⟩ := sum_whole (powF := powF) h (fun a ha => ih a ha (hw a ha) ((checkSize_le_sum ha).trans hs')) 0 0 whole_zero (by simp) (by linarith)
    rw [zero_add] at s1 s2 s3
    refine ⟨rfl, s1, s2, ?_⟩
    simp only [value, checkSize]
    exact s3.trans (by rw [zero_add]; exact le_max_right _ _)
  | times as ih =>
    intro hw hs
    simp only [wholeConsts, wholeConstsAll_iff] at hw
    simp only [checkSize] at hs
    obtain ⟨s1, s2, s3⟩ := prod_whole (powF := powF) h (fun a ha => ih a ha (hw a ha) ((checkSize_le_prod ha).trans hs)) 1 1 whole_one (by simp) (by linarith)
    rw [one_mul] at s1 s2 s3
    rw [one_mul] at s3
    exact ⟨rfl, s1, s2, s3⟩
  | minus l r ihl ihr =>
    intro hw hs
    simp only [wholeConsts, Bool.and_eq_true] at hw
    simp only [checkSize] at hs
    obtain ⟨_, l1, l2, l3⟩ := ihl hw.1 (two _ _ hs).1
    obtain ⟨_, r1, r2, r3⟩ := ihr hw.2 (two _ _ hs).2
    have hw' : Whole (value σ l - value σ r) := by rw [sub_eq_add_neg]; exact l2.add r2.neg
    have hb : |value σ l - value σ r| ≤ checkSize σ l + checkSize σ r := (abs_sub _ _).trans (add_le_add l3 r3)
    refine ⟨rfl, ?_, hw', hb⟩
    simp only [valueF, value, l1, r1]
    exact h.at hw' (hb.trans hs)
  | le l r ihl ihr =>
    intro hw hs
    simp only [wholeConsts, Bool.and_eq_true] at hw
    simp only [checkSize] at hs
    refine ⟨?_, rfl, whole_zero, nil _⟩
    simp only [truthF, truth, (ihl hw.1 (two _ _ hs).1).2.1, (ihr hw.2 (two _ _ hs).2).2.1]
  | lt l r ihl ihr =>
    intro hw hs
    simp only [wholeConsts, Bool.and_eq_true] at hw
    simp only [checkSize] at hs
    refine ⟨?_, rfl, whole_zero, nil _⟩
    simp only [truthF, truth, (ihl hw.1 (two _ _ hs).1).2.1, (ihr hw.2 (two _ _ hs).2).2.1]
  | equals l r ihl ihr =>
    intro hw hs
    simp only [wholeConsts, Bool.and_eq_true] at hw
    simp only [checkSize] at hs
    refine ⟨?_, rfl, whole_zero, nil _⟩
    simp only [truthF, truth, (ihl hw.1 (two _ _ hs).1).2.1, (ihr hw.2 (two _ _ hs).2).2.1]
  | implies l r ihl ihr =>
    intro hw hs
    simp only [wholeConsts, Bool.and_eq_true] at hw
    simp only [checkSize] at hs
    refine ⟨?_, rfl, whole_zero, nil _⟩
    simp only [truthF, truth, (ihl hw.1 (two _ _ hs).1).1, (ihr hw.2 (two _ _ hs).2).1]
  | iff l r ihl ihr =>
    intro hw hs
    simp only [wholeConsts, Bool.and_eq_true] at hw
    simp only [checkSize] at hs
    refine ⟨?_, rfl, whole_zero, nil _⟩
    simp only [truthF, truth, (ihl hw.1 (two _ _ hs).1).1, (ihr hw.2 (two _ _ hs).2).1]
  | not a ih =>
    intro hw hs
    simp only [wholeConsts] at hw
    simp only [checkSize] at hs
    refine ⟨?_, rfl, whole_zero, nil _⟩
    simp only [truthF, truth, (ih hw hs).1]
  | ite c t e ihc iht ihe =>
    intro hw hs
    simp only [wholeConsts, Bool.and_eq_true] at hw
    simp only [checkSize] at hs
    have hc := checkSize_one σ c
    have ht := checkSize_one σ t
    have he := checkSize_one σ e
    obtain ⟨c1, _⟩ := ihc hw.1 (by linarith)
    obtain ⟨t1, t2, t3, t4⟩ := iht hw.2.1 (by linarith)
    obtain ⟨e1, e2, e3, e4⟩ := ihe hw.2.2 (by linarith)
    unfold SameValue
    simp only [truthF, truth, valueF, value, checkSize, c1, t1, t2, e1, e2]
    refine ⟨trivial, trivial, ?_, ?_⟩
    · split_ifs <;> assumption
    · split_ifs <;> linarith
  | pow b e ihb _ =>
    intro hw hs
    cases e with
    | realC q =>
      simp only [wholeConsts, Bool.and_eq_true, decide_eq_true_eq] at hw
      obtain ⟨hb, hden, h0, hN⟩ := hw
      simp only [checkSize] at hs
      have h1 := checkSize_one σ b
      have hq : rd q = q := h.at (whole_of_den hden) (by
        rw [← Rat.coe_int_num_of_den_eq_one hden, abs_of_nonneg (by exact_mod_cast h0)]; exact_mod_cast hN)
      obtain ⟨_, b1, b2, b3⟩ := ihb hb ((le_self_pow₀ h1 (by omega)).trans hs)
      have hle : |value σ b ^ q.num.toNat| ≤ checkSize σ b ^ max 1 q.num.toNat := by
        rw [abs_pow]
        exact (pow_le_pow_left₀ (abs_nonneg _) b3 _).trans (pow_le_pow_right₀ h1 (le_max_right _ _))
      unfold SameValue
      simp only [truthF, truth, valueF, value, checkSize, b1, hden, h0, and_self, if_true, hq]
      obtain ⟨z, hz⟩ := b2
      refine ⟨trivial, ?_, ?_, hle⟩
      · rw [show (q : ℚ) = ((q.num.toNat : ℕ) : ℚ) by simpa using cast_nat_exponent (K := ℚ) hden h0]
        rw [hz] at hle ⊢
        exact hp z q.num.toNat (hle.trans hs)
      · exact ⟨z ^ q.num.toNat, by rw [hz]; push_cast; rfl⟩
    | _ => exact ⟨rfl, rfl, whole_zero, nil _⟩
  | sym n t => exact fun _ _ => ⟨rfl, rfl, hσ n, by simp only [value, checkSize]; exact le_max_right _ _⟩
  | boolC b => exact fun _ _ => ⟨rfl, rfl, whole_zero, nil _⟩
  | realC q =>
    intro hw hs
    simp only [wholeConsts, decide_eq_true_eq] at hw
    simp only [checkSize] at hs
    refine ⟨rfl, ?_, ?_, ?_⟩
    · simp only [valueF, value]
      simpa using h.at (whole_of_den hw) ((le_max_right _ _).trans hs)
    · simpa [value] using whole_of_den hw
    · simp [value, checkSize]

/-- **C112, partial**: formulas with whole constants at whole points, in which no number gets above 2^53, are evaluated exactly by floats. -/
theorem assignment_float_partial (h : ExactWhole rd) (hp : PowWhole powF) {pypow : ℚ → ℚ → Except PyErr ℚ} (hpow : ∀ x y, pypow x y = .ok (powF x y))
    {asg : String → Option (AVal ℚ)} {σ : Env ℚ} (hσ : ∀ n, Whole (σ.r n)) {ty : Ty} {f : Formula} (hwt : wt ty f = true)
    (hs : ∀ p ∈ syms f, AsgFloat rd asg σ p) (hw : wholeConsts f = true) (hb : checkSize σ f ≤ 9007199254740992) :
    evaluateAssignmentFloat rd pypow asg f = .ok (den σ ty f) := by
  rw [assignment_float hpow hwt hs]
  obtain ⟨h1, h2, _⟩ := sameValue h hp hσ f hw hb
  cases ty with
  | bool => simp only [denF, den, h1]
  | real => simp only [denF, den, h2]

/-! ## What goes wrong above 2^53 -/

/-- **C112, negation**: at `x = 10^16` the constraint `x + 1 <= x`, which never holds, is evaluated to true. -/
theorem assignment_float_wrong (h : RoundsWhole rd) {pypow : ℚ → ℚ → Except PyErr ℚ} (hpow : ∀ x y, pypow x y = .ok (powF x y)) :
    evaluateAssignmentFloat rd pypow (fun _ => some (.num 10000000000000000)) (.le (.plus [.sym "x" .real, .realC 1]) (.sym "x" .real)) = .ok (.b true) ∧
      ∀ σ : Env ℚ, truth σ (.le (.plus [.sym "x" .real, .realC 1]) (.sym "x" .real)) = false := by
  obtain ⟨r1, r2, r3, r4⟩ := wide_rd h
  refine ⟨?_, ?_⟩
  · rw [assignment_float (σ := ⟨fun _ => false, fun _ => 10000000000000000⟩) (ty := .bool) hpow (by decide)]
    · simp only [denF, truthF, valueF, sumF, zero_add, r1, r4, show (10000000000000000 : ℚ) + 1 = 10000000000000001 by norm_num, r2]
      simp
    · intro p hp
      simp only [syms, symsList, List.append_nil, List.mem_append, List.mem_cons, List.not_mem_nil, or_false, or_self] at hp
      subst hp
      exact ⟨_, .inl rfl, r1.symm⟩
  · intro σ
    simp [truth, value, valueSum]

/-- **C112, negation**: the order of the summands matters: `10^16 + 1 + 1` is `10^16`, `1 + 1 + 10^16` is `10^16 + 2`. -/
theorem assignment_float_order (h : RoundsWhole rd) {pypow : ℚ → ℚ → Except PyErr ℚ} (hpow : ∀ x y, pypow x y = .ok (powF x y))
    (asg : String → Option (AVal ℚ)) :
    evaluateAssignmentFloat rd pypow asg (.plus [.realC 10000000000000000, .realC 1, .realC 1]) = .ok (.r 10000000000000000) ∧
      evaluateAssignmentFloat rd pypow asg (.plus [.realC 1, .realC 1, .realC 10000000000000000]) = .ok (.r 10000000000000002) := by
  obtain ⟨r1, r2, r3, r4⟩ := wide_rd h
  have r5 : rd 2 = 2 := by
    have := h 2
    rw [show floatNat 2 = 2 by decide +kernel] at this
    exact_mod_cast this
  have r6 : rd 10000000000000002 = 10000000000000002 := by
    have := h 10000000000000002
    rw [show floatNat 10000000000000002 = 10000000000000002 by decide +kernel] at this
    exact_mod_cast this
  constructor
  · rw [assignment_float (powF := powF) (σ := ⟨fun _ => false, fun _ => 0⟩) (ty := .real) hpow (by decide) (by simp [syms, symsList])]
    simp only [denF, valueF, sumF, zero_add, r1, r4, show (10000000000000000 : ℚ) + 1 = 10000000000000001 by norm_num, r2]
  · rw [assignment_float (powF := powF) (σ := ⟨fun _ => false, fun _ => 0⟩) (ty := .real) hpow (by decide) (by simp [syms, symsList])]
    simp only [denF, valueF, sumF, zero_add, r1, r4, show (1 : ℚ) + 1 = 2 by norm_num, r5,
      show (2 : ℚ) + 10000000000000000 = 10000000000000002 by norm_num, r6]

/-! ## Without rounding -/

theorem denF_id (hp : ∀ (x : ℚ) (n : ℕ), powF x n = x ^ n) (σ : Env ℚ) (f : Formula) : ∀ ty, wt ty f = true → denF id powF σ ty f = den σ ty f := by
  have tr : ∀ g, (∀ ty, wt ty g = true → denF id powF σ ty g = den σ ty g) → wt .bool g = true → truthF id powF σ g = truth σ g :=
    fun g h hw => by simpa [denF, den] using h .bool hw
  have va : ∀ g, (∀ ty, wt ty g = true → denF id powF σ ty g = den σ ty g) → wt .real g = true → valueF id powF σ g = value σ g :=
    fun g h hw => by simpa [denF, den] using h .real hw
  induction f using Formula.induct with
  | and as ih =>
    intro ty hw
    cases ty <;> simp only [wt, Bool.and_eq_true, wtAll_iff, Bool.false_eq_true] at hw
    simp only [denF, den, truthF, truth, truthFAll_eq, truthAll_eq]
    congr 1
    rw [Bool.eq_iff_iff, List.all_eq_true, List.all_eq_true]
    exact forall₂_congr fun a ha => by rw [tr a (ih a ha) (hw.2 a ha)]
  | or as ih =>
    intro ty hw
    cases ty <;> simp only [wt, Bool.and_eq_true, wtAll_iff, Bool.false_eq_true] at hw
    simp only [denF, den, truthF, truth, truthFAny_eq, truthAny_eq]
    congr 1
    rw [Bool.eq_iff_iff, List.any_eq_true, List.any_eq_true]
    exact exists_congr fun a => and_congr_right fun ha => by rw [tr a (ih a ha) (hw.2 a ha)]
  | plus as ih =>
    intro ty hw
    cases ty <;> simp only [wt, Bool.and_eq_true, wtAll_iff, Bool.false_eq_true] at hw
    simp only [denF, den, valueF, value]
    congr 1
    have : ∀ (x : ℚ) (bs : List Formula), (∀ b ∈ bs, valueF id powF σ b = value σ b) → sumF id powF σ x bs = x + valueSum σ bs := by
      intro x bs hb
      induction bs generalizing x with
      | nil => simp [sumF, valueSum]
      | cons b bs ihb =>
        simp only [sumF, valueSum, id]
        rw [ihb _ fun y hy => hb y (by simp [hy]), hb b (by simp), add_assoc]
    rw [this 0 as fun a ha => va a (ih a ha) (hw.2 a ha), zero_add]
  | times as ih =>
    intro ty hw
    cases ty <;> simp only [wt, Bool.and_eq_true, wtAll_iff, Bool.false_eq_true] at hw
    simp only [denF, den, valueF, value]
    congr 1
    have : ∀ (x : ℚ) (bs : List Formula), (∀ b ∈ bs, valueF id powF σ b = value σ b) → prodF id powF σ x bs = x * valueProd σ bs := by
      intro x bs hb
      induction bs generalizing x with
      | nil => simp [prodF, valueProd]
      | cons b bs ihb =>
        simp only [prodF, valueProd, id]
        rw [ihb _ fun y hy => hb y (by simp [hy]), hb b (by simp), mul_assoc]
    rw [this 1 as fun a ha => va a (ih a ha) (hw.2 a ha), one_mul]
  | minus l r ihl ihr =>
    intro ty hw
    cases ty <;> simp only [wt, Bool.and_eq_true, Bool.false_eq_true] at hw
    simp only [denF, den, valueF, value, va l ihl hw.1, va r ihr hw.2, id]
  | le l r ihl ihr =>
    intro ty hw
    cases ty <;> simp only [wt, Bool.and_eq_true, Bool.false_eq_true] at hw
    simp only [denF, den, truthF, truth, va l ihl hw.1, va r ihr hw.2]
  | lt l r ihl ihr =>
    intro ty hw
    cases ty <;> simp only [wt, Bool.and_eq_true, Bool.false_eq_true] at hw
    simp only [denF, den, truthF, truth, va l ihl hw.1, va r ihr hw.2]
  | equals l r ihl ihr =>
    intro ty hw
    cases ty <;> simp only [wt, Bool.and_eq_true, Bool.false_eq_true] at hw
    simp only [denF, den, truthF, truth, va l ihl hw.1, va r ihr hw.2]
  | implies l r ihl ihr =>
    intro ty hw
    cases ty <;> simp only [wt, Bool.and_eq_true, Bool.false_eq_true] at hw
    simp only [denF, den, truthF, truth, tr l ihl hw.1, tr r ihr hw.2]
  | iff l r ihl ihr =>
    intro ty hw
    cases ty <;> simp only [wt, Bool.and_eq_true, Bool.false_eq_true] at hw
    simp only [denF, den, truthF, truth, tr l ihl hw.1, tr r ihr hw.2]
  | not a ih =>
    intro ty hw
    cases ty <;> simp only [wt, Bool.false_eq_true] at hw
    simp only [denF, den, truthF, truth, tr a ih hw]
  | ite c t e ihc iht ihe =>
    intro ty hw
    cases ty <;> simp only [wt, Bool.and_eq_true] at hw
    · simp only [denF, den, truthF, truth, tr c ihc hw.1.1, tr t iht hw.1.2, tr e ihe hw.2]
    · simp only [denF, den, valueF, value, tr c ihc hw.1.1, va t iht hw.1.2, va e ihe hw.2]
  | pow b e ihb _ =>
    intro ty hw
    cases e with
    | realC q =>
      cases ty <;> simp only [wt, Bool.and_eq_true, decide_eq_true_eq, Bool.false_eq_true] at hw
      obtain ⟨hb, hden, h0⟩ := hw
      simp only [denF, den, valueF, value, va b ihb hb, id, hden, h0, and_self, if_true]
      congr 1
      rw [show (q : ℚ) = ((q.num.toNat : ℕ) : ℚ) by simpa using cast_nat_exponent (K := ℚ) hden h0]
      exact hp _ _
    | _ => cases ty <;> simp [wt] at hw
  | sym n t => intro ty _; cases ty <;> rfl
  | boolC b => intro ty _; cases ty <;> rfl
  | realC q => intro ty _; cases ty <;> rfl

/-- Without rounding and with exact powers, `evaluate_assignment` on floats is that of C01. -/
theorem assignment_float_id {pypow : ℚ → ℚ → Except PyErr ℚ} (hpow : ∀ x y, pypow x y = .ok (powF x y))
    (hp : ∀ (x : ℚ) (n : ℕ), powF x n = x ^ n) {asg : String → Option (AVal ℚ)} {σ : Env ℚ} {ty : Ty} {f : Formula} (hwt : wt ty f = true)
    (hs : ∀ p ∈ syms f, AsgFloat id asg σ p) : evaluateAssignmentFloat id pypow asg f = .ok (den σ ty f) := by
  rw [assignment_float hpow hwt hs, denF_id hp σ f ty hwt]

/-! ## Bounds -/

/-- **C112 for bounds**: if rounding is monotone, a float point within the bounds `a <= x` and `x <= b` is never rejected, and one outside is only
accepted if it is the rounded bound. -/
theorem bounds_float (hm : Monotone rd) {σ : Env ℚ} {n : String} (hx : rd (σ.r n) = σ.r n) (a b : ℚ) :
    let f : Formula := .and [.le (.realC a) (.sym n .real), .le (.sym n .real) (.realC b)]
    (truth σ f = true → truthF rd powF σ f = true) ∧
      (truthF rd powF σ f = true → truth σ f = true ∨ σ.r n = rd a ∨ σ.r n = rd b) := by
  simp only [truth, truthAll, truthF, truthFAll, value, valueF, Bool.and_true, Bool.and_eq_true, decide_eq_true_eq, Rat.cast_id]
  constructor
  · rintro ⟨h1, h2⟩
    have e1 := hm (of_decide_eq_true h1)
    have e2 := hm (of_decide_eq_true h2)
    rw [hx] at e1 e2
    exact ⟨decide_eq_true e1, decide_eq_true e2⟩
  · rintro ⟨h1, h2⟩
    replace h1 := of_decide_eq_true h1
    replace h2 := of_decide_eq_true h2
    by_cases c1 : a ≤ σ.r n
    · by_cases c2 : σ.r n ≤ b
      · exact .inl ⟨decide_eq_true c1, decide_eq_true c2⟩
      · have := hm (not_le.1 c2).le
        rw [hx] at this
        exact .inr (.inr (le_antisymm h2 this))
    · have := hm (not_le.1 c1).le
      rw [hx] at this
      exact .inr (.inl (le_antisymm this h1))

/-! ## Examples -/

/-- A power of floats. -/
def floatPow (x y : ℚ) : ℚ := floatRd (x ^ y.num.toNat)

theorem floatPow_whole : PowWhole floatPow := fun z n hz => by
  have e : floatPow z n = floatRd ((z ^ n : ℤ) : ℚ) := by simp [floatPow]
  rw [e, floatRd_exact (z ^ n) (by exact_mod_cast hz)]
  push_cast; rfl

/-- `(x - 3)^2 + 2x <= 40` or the Boolean `a`, at `x = 5`. -/
def floatCheck : Formula :=
  .or [.le (.plus [.pow (.minus (.sym "x" .real) (.realC 3)) (.realC 2), .times [.realC 2, .sym "x" .real]]) (.realC 40), .sym "a" .bool]
/-- `x = 5`, not `a`. -/
def floatPoint : Env ℚ := ⟨fun _ => false, fun n => if n = "x" then 5 else 0⟩

/-- A monotone rounding, up to whole numbers: 3 is accepted for the bound `x <= 8/3`. -/
example : Monotone (fun q : ℚ => (⌈q⌉ : ℚ)) ∧ (⌈(3 : ℚ)⌉ : ℚ) = 3 ∧ ¬ (3 : ℚ) ≤ 8 / 3 ∧ (3 : ℚ) ≤ (⌈(8 / 3 : ℚ)⌉ : ℚ) := by
  refine ⟨fun a b h => by show (⌈a⌉ : ℚ) ≤ ⌈b⌉; exact_mod_cast Int.ceil_mono h, by simp, by norm_num, ?_⟩
  exact_mod_cast (Int.lt_ceil.2 (by norm_num) : (2 : ℤ) < ⌈(8 / 3 : ℚ)⌉)
example : wt .bool floatCheck = true ∧ wholeConsts floatCheck = true ∧ checkSize floatPoint floatCheck = 115 := by decide +kernel
example : evaluateAssignmentFloat floatRd (fun x y => .ok (floatPow x y)) (fun n => if n = "x" then some (.num 5) else some (.pyBool false)) floatCheck =
    .ok (.b true) := by decide +kernel
example : (singleFloatW floatRd (fun x y => .ok (floatPow x y)) ["a", "x"] [0, 5]).walk floatCheck = .ok (.b true) := by decide +kernel
example : evaluateAssignmentFloat floatRd (fun x y => .ok (floatPow x y)) (fun _ => some (.num 10000000000000000))
    (.le (.plus [.sym "x" .real, .realC 1]) (.sym "x" .real)) = .ok (.b true) := (assignment_float_wrong (powF := floatPow) floatRd_rounds fun _ _ => rfl).1

end Pywmi
