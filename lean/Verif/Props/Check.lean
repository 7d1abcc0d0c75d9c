import Verif.Smt.Check
import Verif.Smt.Sound

/-!
# C01, C02: formula evaluation

Property C01: the three evaluators compute the mathematical truth value / number of the formula.
Property C02: the memo table of a cached walker never changes an answer.
-/

set_option linter.unusedSectionVars false
set_option linter.unusedSimpArgs false

namespace Pywmi
open Formula Prog

section
variable {K : Type} [Field K] [LinearOrder K]

/-- SPEC: the value of a well-typed formula as a Python value. -/
def den (σ : Env K) : Ty → Formula → Val K
  | .bool, f => .b (truth σ f)
  | .real, f => .r (value σ f)

/-- SPEC: the assignment described by a row of a table whose columns are named by `vars`: a variable has
the value in its column, a Boolean is true iff that value is not zero. -/
def rowEnv (vars : List String) (row : List K) : Env K where
  b n := decide (row.getD (vars.idxOf n) 0 ≠ 0)
  r n := row.getD (vars.idxOf n) 0

/-- Assumption on Python's `**`: a natural exponent is repeated multiplication. -/
def PowOk (pypow : K → K → Except PyErr K) : Prop := ∀ x (n : ℕ), pypow x (n : K) = .ok (x ^ n)

/-! ## lemmas -/

theorem cast_nat_exponent {q : ℚ} (h1 : q.den = 1) (h2 : 0 ≤ q.num) :
    ((q : ℚ) : K) = ((q.num.toNat : ℕ) : K) := by
  have : q = ((q.num.toNat : ℕ) : ℚ) := by
    conv_lhs => rw [← Rat.num_div_den q, h1]
    have : ((q.num.toNat : ℕ) : ℤ) = q.num := Int.toNat_of_nonneg h2
    rw [← Int.cast_natCast (R := ℚ) q.num.toNat, this]; simp
  conv_lhs => rw [this]
  simp

theorem mapE_asB (σ : Env K) (as : List Formula) :
    mapE asB (as.map fun a => (Val.b (truth σ a) : Val K)) = .ok (as.map (truth σ)) := by
  induction as with
  | nil => rfl
  | cons a as ih => simp [mapE, asB, ih]

theorem mapE_asR (σ : Env K) (as : List Formula) :
    mapE asR (as.map fun a => Val.r (value σ a)) = .ok (as.map (value σ)) := by
  induction as with
  | nil => rfl
  | cons a as ih => simp [mapE, asR, ih]

theorem foldl_add (l : List K) (x : K) : l.foldl (· + ·) x = x + l.sum := by
  induction l generalizing x with
  | nil => simp
  | cons a l ih => simp [ih, add_assoc]

theorem foldl_mul (l : List K) (x : K) : l.foldl (· * ·) x = x * l.prod := by
  induction l generalizing x with
  | nil => simp
  | cons a l ih => simp [ih, mul_assoc]

theorem pyAll_den (σ : Env K) (as : List Formula) :
    pyAll (as.map (den σ .bool)) = .ok (den σ .bool (.and as)) := by
  have : as.map (den σ .bool) = as.map fun a => Val.b (truth σ a) := rfl
  simp [pyAll, this, mapE_asB, den, truth, truthAll_eq]

theorem pyAny_den (σ : Env K) (as : List Formula) :
    pyAny (as.map (den σ .bool)) = .ok (den σ .bool (.or as)) := by
  have : as.map (den σ .bool) = as.map fun a => Val.b (truth σ a) := rfl
  simp [pyAny, this, mapE_asB, den, truth, truthAny_eq]

theorem pySum_den (σ : Env K) (as : List Formula) :
    pySum (as.map (den σ .real)) = .ok (den σ .real (.plus as)) := by
  have : as.map (den σ .real) = as.map fun a => Val.r (value σ a) := rfl
  simp [pySum, this, mapE_asR, den, value, valueSum_eq, foldl_add]

theorem pyProd_den (σ : Env K) {as : List Formula} (h : as ≠ []) :
    pyProd (as.map (den σ .real)) = .ok (den σ .real (.times as)) := by
  have : as.map (den σ .real) = as.map fun a => Val.r (value σ a) := rfl
  have h' : (as.map (den σ .real)).isEmpty = false := by cases as <;> simp_all
  rw [pyProd, h']
  simp [this, mapE_asR, den, value, valueProd_eq, foldl_mul]

theorem den_implies (σ : Env K) (l r : Formula) :
    den σ .bool (mkOr [mkNot l, r]) = den σ .bool (.implies l r) := by
  simp [den, truth]

theorem den_iff (σ : Env K) (l r : Formula) :
    den σ .bool (.and [.implies l r, .implies r l]) = den σ .bool (.iff l r) := by
  simp only [den, truth, truthAll_eq, List.all_cons, List.all_nil, Bool.and_true]
  cases truth σ l <;> cases truth σ r <;> rfl

/-! ## C01 -/

/-- The assignment mapping stores an acceptable value for the symbol: a Python bool or constant node for
Booleans, a number or constant node for reals, equal to the value in `σ`. -/
def AsgOk (asg : String → Option (AVal K)) (σ : Env K) : String × Ty → Prop
  | (n, .bool) => asg n = some (.pyBool (σ.b n)) ∨ asg n = some (.fBool (σ.b n))
  | (n, .real) => asg n = some (.num (σ.r n)) ∨ ∃ q, asg n = some (.fReal q) ∧ σ.r n = (q : K)

/-- **C01 (assignment)**: `evaluate_assignment` returns the mathematical value of every
well-typed formula whose symbols are assigned. -/
theorem evaluateAssignment_correct {pypow : K → K → Except PyErr K} (hpow : PowOk pypow)
    {asg : String → Option (AVal K)} {σ : Env K} {ty : Ty} {f : Formula}
    (hwt : wt ty f = true) (hs : ∀ p ∈ syms f, AsgOk asg σ p) :
    evaluateAssignment pypow asg f = .ok (den σ ty f) := by
  have := Walker.sound (checkerW_decr pypow asg) (AsgOk asg σ) (fun ty f r => r = den σ ty f)
    (hAnd := ?_) (hOr := ?_) (hTimes := ?_) (hPlus := ?_) (hNot := ?_) (hMinus := ?_) (hIte := ?_)
    (hPow := ?_) (hLe := ?_) (hLt := ?_) (hEq := ?_) (hSym := ?_) (hBool := ?_) (hReal := ?_)
    (hImpl := fun _ _ => rfl) (hDI := fun l r x h => h.trans (den_implies σ l r))
    (hDiff := fun l r x h => h.trans (den_iff σ l r)) f ty hwt hs
  · obtain ⟨r, h1, h2⟩ := this
    rw [evaluateAssignment, h1, h2]
  · intro g as rs _ _ hg hD
    refine ⟨_, ?_, rfl⟩
    simp only [checkerW, interp_callAll, hg, interp_ofExcept, forall₂_fun hD, pyAll_den]
  · intro g as rs _ _ hg hD
    refine ⟨_, ?_, rfl⟩
    simp only [checkerW, interp_callAll, hg, interp_ofExcept, forall₂_fun hD, pyAny_den]
  · intro g as rs hne hg hD
    refine ⟨_, ?_, rfl⟩
    have : as.isEmpty = false := by simpa using hne
    simp only [checkerW, this, Bool.false_eq_true, if_false, interp_callAll, hg, interp_ofExcept,
      forall₂_fun hD, pyProd_den σ hne]
  · intro g as rs _ hg hD
    refine ⟨_, ?_, rfl⟩
    simp only [checkerW, interp_callAll, hg, interp_ofExcept, forall₂_fun hD, pySum_den]
  · intro g a ra _ hg hD
    refine ⟨_, ?_, rfl⟩
    simp [checkerW, interp, hg, hD, pyNot, asB, den, truth]
  · intro g l r rl rr hl hr hDl hDr
    refine ⟨_, ?_, rfl⟩
    simp [checkerW, call2, interp, hl, hr, hDl, hDr, pyArith, asR, den, value]
  · intro g ty c t e rc rt re _ _ _ hc ht he hDc hDt hDe
    refine ⟨_, ?_, rfl⟩
    simp only [checkerW, interp, hc, hDc, den, asB]
    cases hc' : truth σ c
    · simp only [interp, he, hDe]
      cases ty <;> simp [den, truth, value, hc']
    · simp only [interp, ht, hDt]
      cases ty <;> simp [den, truth, value, hc']
  · intro g b q rb rq h1 h2 hb hq hDb hDq
    refine ⟨_, ?_, rfl⟩
    simp [checkerW, call2, interp, hb, hq, hDb, hDq, pyArith, asR, den, value, h1, h2,
      cast_nat_exponent h1 h2, hpow _ _]
  · intro g l r rl rr _ _ hl hr hDl hDr
    refine ⟨_, ?_, rfl⟩
    simp [checkerW, call2, interp, hl, hr, hDl, hDr, pyCmp, asR, den, truth]
  · intro g l r rl rr _ _ hl hr hDl hDr
    refine ⟨_, ?_, rfl⟩
    simp [checkerW, call2, interp, hl, hr, hDl, hDr, pyCmp, asR, den, truth]
  · intro g l r rl rr _ _ hl hr hDl hDr
    refine ⟨_, ?_, rfl⟩
    simp [checkerW, call2, interp, hl, hr, hDl, hDr, pyCmp, asR, den, truth]
  · intro g n t h
    refine ⟨_, ?_, rfl⟩
    cases t with
    | bool =>
      rcases h with h | h <;> simp [checkerW, h, assignmentConstant, den, truth]
    | real =>
      rcases h with h | ⟨q, h, hq⟩
      · simp [checkerW, h, assignmentConstant, den, value]
      · simp [checkerW, h, assignmentConstant, den, value, hq]
  · intro g b; exact ⟨_, rfl, rfl⟩
  · intro g q; exact ⟨_, rfl, rfl⟩

theorem lookup_indices_aux {n : String} : ∀ (vars : List String) (k : ℕ), vars.Nodup → n ∈ vars →
    (vars.zipIdx k).reverse.lookup n = some (k + vars.idxOf n) := by
  intro vars
  induction vars with
  | nil => intro k _ h; cases h
  | cons v vs ih =>
    intro k hnd hmem
    rw [List.nodup_cons] at hnd
    rw [List.zipIdx_cons, List.reverse_cons, List.lookup_append]
    by_cases hv : v = n
    · subst hv
      have : (vs.zipIdx (k + 1)).reverse.lookup v = none := by
        rw [List.lookup_eq_none_iff]
        intro p hp
        have : p.1 ∈ vs := by
          have := List.mem_reverse.mp hp
          have := List.mem_zipIdx this
          rw [this.2.2]; exact List.getElem_mem _
        rw [bne_iff_ne]
        intro h
        exact hnd.1 (h ▸ this)
      simp [this, List.lookup]
    · have hmem' : n ∈ vs := by
        rcases List.mem_cons.mp hmem with h | h
        · exact absurd h.symm hv
        · exact h
      rw [ih (k + 1) hnd.2 hmem']
      simp only [Option.some_or, List.idxOf_cons, beq_iff_eq, hv, cond_eq_ite]
      rw [if_neg (by simp [hv])]
      congr 1; omega

theorem lookup_indices {vars : List String} {n : String} (hnd : vars.Nodup) (h : n ∈ vars) :
    (indices vars).lookup n = some (vars.idxOf n) := by
  simpa [indices] using lookup_indices_aux vars 0 hnd h

/-- **C01 (single row)**: the row evaluator returns the mathematical value at the assignment described by
the row. -/
theorem evaluateSingle_correct {pypow : K → K → Except PyErr K} (hpow : PowOk pypow)
    {vars : List String} (hnd : vars.Nodup) {row : List K} (hrow : row.length = vars.length)
    {ty : Ty} {f : Formula} (hwt : wt ty f = true) (hs : ∀ p ∈ syms f, p.1 ∈ vars) :
    (singleW pypow vars row).walk f = .ok (den (rowEnv vars row) ty f) := by
  have := Walker.sound (singleW_decr pypow vars row) (fun p => p.1 ∈ vars)
    (fun ty f r => r = den (rowEnv vars row) ty f)
    (hAnd := ?_) (hOr := ?_) (hTimes := ?_) (hPlus := ?_) (hNot := ?_) (hMinus := ?_) (hIte := ?_)
    (hPow := ?_) (hLe := ?_) (hLt := ?_) (hEq := ?_) (hSym := ?_) (hBool := ?_) (hReal := ?_)
    (hImpl := fun _ _ => rfl) (hDI := fun l r x h => h.trans (den_implies _ l r))
    (hDiff := fun l r x h => h.trans (den_iff _ l r)) f ty hwt hs
  · obtain ⟨r, h1, h2⟩ := this
    rw [h1, h2]
  · intro g as rs _ _ hg hD
    refine ⟨_, ?_, rfl⟩
    simp only [singleW, interp_callAll, hg, interp_ofExcept, forall₂_fun hD, pyAll_den]
  · intro g as rs _ _ hg hD
    refine ⟨_, ?_, rfl⟩
    simp only [singleW, interp_callAll, hg, interp_ofExcept, forall₂_fun hD, pyAny_den]
  · intro g as rs hne hg hD
    refine ⟨_, ?_, rfl⟩
    have : as.isEmpty = false := by simpa using hne
    simp only [singleW, this, Bool.false_eq_true, if_false, interp_callAll, hg, interp_ofExcept,
      forall₂_fun hD, pyProd_den _ hne]
  · intro g as rs _ hg hD
    refine ⟨_, ?_, rfl⟩
    simp only [singleW, interp_callAll, hg, interp_ofExcept, forall₂_fun hD, pySum_den]
  · intro g a ra _ hg hD
    refine ⟨_, ?_, rfl⟩
    simp [singleW, interp, hg, hD, pyNot, asB, den, truth]
  · intro g l r rl rr hl hr hDl hDr
    refine ⟨_, ?_, rfl⟩
    simp [singleW, call2, interp, hl, hr, hDl, hDr, pyArith, asR, den, value]
  · intro g ty c t e rc rt re _ _ _ hc ht he hDc hDt hDe
    refine ⟨_, ?_, rfl⟩
    simp only [singleW, interp, hc, ht, he, hDc, hDt, hDe, den, asB]
    cases hc' : truth (rowEnv vars row) c
    · simp only [interp]
      cases ty <;> simp [den, truth, value, hc']
    · simp only [interp]
      cases ty <;> simp [den, truth, value, hc']
  · intro g b q rb rq h1 h2 hb hq hDb hDq
    refine ⟨_, ?_, rfl⟩
    simp [singleW, call2, interp, hb, hq, hDb, hDq, pyArith, asR, den, value, h1, h2,
      cast_nat_exponent h1 h2, hpow _ _]
  · intro g l r rl rr _ _ hl hr hDl hDr
    refine ⟨_, ?_, rfl⟩
    simp [singleW, call2, interp, hl, hr, hDl, hDr, pyCmp, asR, den, truth]
  · intro g l r rl rr _ _ hl hr hDl hDr
    refine ⟨_, ?_, rfl⟩
    simp [singleW, call2, interp, hl, hr, hDl, hDr, pyCmp, asR, den, truth]
  · intro g l r rl rr _ _ hl hr hDl hDr
    refine ⟨_, ?_, rfl⟩
    simp [singleW, call2, interp, hl, hr, hDl, hDr, pyCmp, asR, den, truth]
  · intro g n t h
    refine ⟨_, ?_, rfl⟩
    have hlt : vars.idxOf n < row.length := by rw [hrow]; exact List.idxOf_lt_length_of_mem h
    simp only [singleW, lookup_indices hnd h, List.getElem?_eq_getElem hlt]
    cases t <;> simp [interp, den, truth, value, rowEnv, List.getD_eq_getElem?_getD, hlt]
  · intro g b; exact ⟨_, rfl, rfl⟩
  · intro g q; exact ⟨_, rfl, rfl⟩

/-- SPEC: the array whose entry `i` is the value of the formula at row `i`. -/
def denRows (vars : List String) (rows : List (List K)) : Ty → Formula → Arr K
  | .bool, f => .b (rows.map fun row => truth (rowEnv vars row) f)
  | .real, f => .r (rows.map fun row => value (rowEnv vars row) f)

theorem elementwise_map {α β γ δ : Type} (op : α → β → γ) (l : List δ) (f : δ → α) (g : δ → β) :
    elementwise op (l.map f) (l.map g) = .ok (l.map fun x => op (f x) (g x)) := by
  simp [elementwise, List.zipWith_map]

theorem foldlM_and (vars : List String) (rows : List (List K)) (op : Bool → Bool → Bool)
    (as : List Formula) (h0 : List K → Bool) :
    (as.map (denRows vars rows .bool)).foldlM
      (fun (acc : List Bool) (x : Arr K) => (do elementwise op acc (← arrB x) : Except PyErr _))
      (rows.map h0) =
    .ok (rows.map fun row => as.foldl (fun acc a => op acc (truth (rowEnv vars row) a)) (h0 row)) := by
  induction as generalizing h0 with
  | nil => rfl
  | cons a as ih =>
    simp only [List.map_cons, List.foldlM_cons, List.foldl_cons]
    have : (do elementwise op (rows.map h0) (← arrB (denRows vars rows .bool a)) : Except PyErr _) =
        .ok (rows.map fun row => op (h0 row) (truth (rowEnv vars row) a)) := by
      simp only [denRows, arrB]
      exact elementwise_map op rows _ _
    rw [this]
    exact ih _

theorem foldlM_arith (vars : List String) (rows : List (List K)) (op : K → K → K)
    (as : List Formula) (h0 : List K → K) :
    (as.map (denRows vars rows .real)).foldlM
      (fun (acc : List K) (x : Arr K) => (do elementwise op acc (← arrR x) : Except PyErr _))
      (rows.map h0) =
    .ok (rows.map fun row => as.foldl (fun acc a => op acc (value (rowEnv vars row) a)) (h0 row)) := by
  induction as generalizing h0 with
  | nil => rfl
  | cons a as ih =>
    simp only [List.map_cons, List.foldlM_cons, List.foldl_cons]
    have : (do elementwise op (rows.map h0) (← arrR (denRows vars rows .real a)) : Except PyErr _) =
        .ok (rows.map fun row => op (h0 row) (value (rowEnv vars row) a)) := by
      simp only [denRows, arrR]
      exact elementwise_map op rows _ _
    rw [this]
    exact ih _

theorem foldl_and_truth (σ : Env K) (as : List Formula) (x : Bool) :
    as.foldl (fun acc a => acc && truth σ a) x = (x && as.all (truth σ)) := by
  induction as generalizing x with
  | nil => simp
  | cons a as ih => simp [ih, Bool.and_assoc]

theorem foldl_or_truth (σ : Env K) (as : List Formula) (x : Bool) :
    as.foldl (fun acc a => acc || truth σ a) x = (x || as.any (truth σ)) := by
  induction as generalizing x with
  | nil => simp
  | cons a as ih => simp [ih, Bool.or_assoc]

theorem foldl_add_value (σ : Env K) (as : List Formula) (x : K) :
    as.foldl (fun acc a => acc + value σ a) x = x + (as.map (value σ)).sum := by
  induction as generalizing x with
  | nil => simp
  | cons a as ih => simp [ih, add_assoc]

theorem foldl_mul_value (σ : Env K) (as : List Formula) (x : K) :
    as.foldl (fun acc a => acc * value σ a) x = x * (as.map (value σ)).prod := by
  induction as generalizing x with
  | nil => simp
  | cons a as ih => simp [ih, mul_assoc]

theorem accumulateB_and (vars : List String) (rows : List (List K)) {as : List Formula}
    (h : as ≠ []) : accumulateB (· && ·) (as.map (denRows vars rows .bool)) =
      .ok (denRows vars rows .bool (.and as)) := by
  cases as with
  | nil => exact absurd rfl h
  | cons a as =>
    simp only [List.map_cons, accumulateB]
    have h1 : arrB (denRows vars rows .bool a) =
      .ok (rows.map fun row => truth (rowEnv vars row) a) := rfl
    have h2 := foldlM_and vars rows (· && ·) as (fun row => truth (rowEnv vars row) a)
    simp only [h1, bind, Except.bind] at h2 ⊢
    rw [h2]
    simp only [foldl_and_truth]
    simp only [denRows, truth, truthAll_eq, List.all_cons]

theorem accumulateB_or (vars : List String) (rows : List (List K)) {as : List Formula}
    (h : as ≠ []) : accumulateB (· || ·) (as.map (denRows vars rows .bool)) =
      .ok (denRows vars rows .bool (.or as)) := by
  cases as with
  | nil => exact absurd rfl h
  | cons a as =>
    simp only [List.map_cons, accumulateB]
    have h1 : arrB (denRows vars rows .bool a) =
      .ok (rows.map fun row => truth (rowEnv vars row) a) := rfl
    have h2 := foldlM_and vars rows (· || ·) as (fun row => truth (rowEnv vars row) a)
    simp only [h1, bind, Except.bind] at h2 ⊢
    rw [h2]
    simp only [foldl_or_truth]
    simp only [denRows, truth, truthAny_eq, List.any_cons]

theorem replicate_eq_map (rows : List (List K)) {α : Type} (x : α) :
    List.replicate rows.length x = rows.map fun _ => x := by
  induction rows with
  | nil => rfl
  | cons r rows ih => simp [List.replicate_succ, ih]

theorem sumArr_den (vars : List String) (rows : List (List K)) {as : List Formula} (h : as ≠ []) :
    sumArr rows.length (as.map (denRows vars rows .real)) = .ok (denRows vars rows .real (.plus as)) := by
  cases as with
  | nil => exact absurd rfl h
  | cons a as =>
    have h2 := foldlM_arith vars rows (· + ·) (a :: as) (fun _ => 0)
    simp only [sumArr, List.map_cons] at h2 ⊢
    rw [replicate_eq_map, h2]
    simp only [foldl_add_value, zero_add]
    simp only [denRows, value, valueSum_eq]
    rfl

theorem prodArr_den (vars : List String) (rows : List (List K)) {as : List Formula} (h : as ≠ []) :
    prodArr rows.length (as.map (denRows vars rows .real)) = .ok (denRows vars rows .real (.times as)) := by
  cases as with
  | nil => exact absurd rfl h
  | cons a as =>
    have h2 := foldlM_arith vars rows (· * ·) (a :: as) (fun _ => 1)
    simp only [prodArr, List.map_cons] at h2 ⊢
    rw [replicate_eq_map, h2]
    simp only [foldl_mul_value, one_mul]
    simp only [denRows, value, valueProd_eq]
    rfl

theorem cmpArr_den (vars : List String) (rows : List (List K)) (op : K → K → Bool) (l r : Formula) :
    cmpArr op (denRows vars rows .real l) (denRows vars rows .real r) =
      .ok (.b (rows.map fun row => op (value (rowEnv vars row) l) (value (rowEnv vars row) r))) := by
  have := elementwise_map op rows (fun row => value (rowEnv vars row) l)
    (fun row => value (rowEnv vars row) r)
  simp only [cmpArr, denRows, arrR]
  show (do Except.ok (Arr.b (← elementwise _ _ _))) = _
  rw [this]; rfl

theorem subArr_den (vars : List String) (rows : List (List K)) (l r : Formula) :
    subArr (denRows vars rows .real l) (denRows vars rows .real r) =
      .ok (.r (rows.map fun row => value (rowEnv vars row) l - value (rowEnv vars row) r)) := by
  have := elementwise_map (· - ·) rows (fun row => value (rowEnv vars row) l)
    (fun row => value (rowEnv vars row) r)
  simp only [subArr, denRows, arrR]
  show (do Except.ok (Arr.r (← elementwise _ _ _))) = _
  rw [this]; rfl

theorem powAll_map {pypow : K → K → Except PyErr K} (hpow : PowOk pypow) (n : ℕ)
    (rows : List (List K)) (f : List K → K) :
    powAll pypow (rows.map f) (rows.map fun _ => (n : K)) = .ok (rows.map fun row => f row ^ n) := by
  induction rows with
  | nil => rfl
  | cons r rows ih => simp [powAll, hpow _ _, ih]

theorem whereArr_den (vars : List String) (rows : List (List K)) (ty : Ty) (c t e : Formula) :
    whereArr (denRows vars rows .bool c) (denRows vars rows ty t) (denRows vars rows ty e) =
      .ok (denRows vars rows ty (.ite c t e)) := by
  cases ty with
  | bool =>
    have h1 := elementwise_map (Prod.mk (α := Bool) (β := Bool)) rows
      (fun row => truth (rowEnv vars row) t) (fun row => truth (rowEnv vars row) e)
    have h2 := elementwise_map (fun (x : Bool) (p : Bool × Bool) => if x then p.1 else p.2) rows
      (fun row => truth (rowEnv vars row) c)
      (fun row => (truth (rowEnv vars row) t, truth (rowEnv vars row) e))
    simp only [whereArr, denRows, arrB, truth]
    simp only [bind, Except.bind, h1, h2]
  | real =>
    have h1 := elementwise_map (Prod.mk (α := K) (β := K)) rows
      (fun row => value (rowEnv vars row) t) (fun row => value (rowEnv vars row) e)
    have h2 := elementwise_map (fun (x : Bool) (p : K × K) => if x then p.1 else p.2) rows
      (fun row => truth (rowEnv vars row) c)
      (fun row => (value (rowEnv vars row) t, value (rowEnv vars row) e))
    simp only [whereArr, denRows, arrB, value]
    simp only [bind, Except.bind, h1, h2]

/-- The batch walker without its cache. -/
theorem batchWalk_correct {pypow : K → K → Except PyErr K} (hpow : PowOk pypow)
    {vars : List String} (hnd : vars.Nodup) {rows : List (List K)}
    {ty : Ty} {f : Formula} (hwt : wt ty f = true) (hs : ∀ p ∈ syms f, p.1 ∈ vars) :
    (batchW pypow vars rows.length (Values.table rows vars.length).column).walk f =
      .ok (denRows vars rows ty f) := by
  have := Walker.sound (batchW_decr pypow vars rows.length (Values.table rows vars.length).column)
    (fun p => p.1 ∈ vars) (fun ty f r => r = denRows vars rows ty f)
    (hAnd := ?_) (hOr := ?_) (hTimes := ?_) (hPlus := ?_) (hNot := ?_) (hMinus := ?_) (hIte := ?_)
    (hPow := ?_) (hLe := ?_) (hLt := ?_) (hEq := ?_) (hSym := ?_) (hBool := ?_) (hReal := ?_)
    (hImpl := fun _ _ => rfl) (hDI := ?_) (hDiff := ?_) f ty hwt hs
  · obtain ⟨r, h1, h2⟩ := this
    rw [h1, h2]
  · intro g as rs hne _ hg hD
    refine ⟨_, ?_, rfl⟩
    simp only [batchW, interp_callAll, hg, interp_ofExcept, forall₂_fun hD]
    exact accumulateB_and vars rows hne
  · intro g as rs hne _ hg hD
    refine ⟨_, ?_, rfl⟩
    simp only [batchW, interp_callAll, hg, interp_ofExcept, forall₂_fun hD]
    exact accumulateB_or vars rows hne
  · intro g as rs hne hg hD
    refine ⟨_, ?_, rfl⟩
    have : as.isEmpty = false := by simpa using hne
    simp only [batchW, this, Bool.false_eq_true, if_false, interp_callAll, hg, interp_ofExcept,
      forall₂_fun hD]
    exact prodArr_den vars rows hne
  · intro g as rs hne hg hD
    refine ⟨_, ?_, rfl⟩
    simp only [batchW, interp_callAll, hg, interp_ofExcept, forall₂_fun hD]
    exact sumArr_den vars rows hne
  · intro g a ra _ hg hD
    refine ⟨_, ?_, rfl⟩
    simp only [batchW, interp, hg, hD, interp_ofExcept, notArr, denRows, arrB, truth, bind, Except.bind,
      List.map_map]
    rfl
  · intro g l r rl rr hl hr hDl hDr
    refine ⟨_, ?_, rfl⟩
    simp only [batchW, call2, interp, hl, hr, hDl, hDr, interp_ofExcept, subArr_den]
    simp [denRows, value]
  · intro g ty c t e rc rt re _ _ _ hc ht he hDc hDt hDe
    refine ⟨_, ?_, rfl⟩
    simp only [batchW, interp, hc, ht, he, hDc, hDt, hDe, interp_ofExcept, whereArr_den]
  · intro g b q rb rq h1 h2 hb hq hDb hDq
    refine ⟨_, ?_, rfl⟩
    have := powAll_map hpow q.num.toNat rows (fun row => value (rowEnv vars row) b)
    simp only [batchW, call2, interp, hb, hq, hDb, hDq, interp_ofExcept, powArr, denRows, arrR,
      value, cast_nat_exponent h1 h2, h1, h2, bind, Except.bind, this]
    simp
  · intro g l r rl rr _ _ hl hr hDl hDr
    refine ⟨_, ?_, rfl⟩
    simp only [batchW, call2, interp, hl, hr, hDl, hDr, interp_ofExcept, cmpArr_den]
    simp [denRows, truth]
  · intro g l r rl rr _ _ hl hr hDl hDr
    refine ⟨_, ?_, rfl⟩
    simp only [batchW, call2, interp, hl, hr, hDl, hDr, interp_ofExcept, cmpArr_den]
    simp [denRows, truth]
  · intro g l r rl rr _ _ hl hr hDl hDr
    refine ⟨_, ?_, rfl⟩
    simp only [batchW, call2, interp, hl, hr, hDl, hDr, interp_ofExcept, cmpArr_den]
    simp [denRows, truth]
  · intro g n t h
    refine ⟨_, ?_, rfl⟩
    have hlt : vars.idxOf n < vars.length := List.idxOf_lt_length_of_mem h
    simp only [batchW, lookup_indices hnd h, Values.column, hlt, if_true, interp]
    cases t <;> simp [denRows, truth, value, rowEnv]
  · intro g b; exact ⟨_, rfl, by simp [denRows, truth, replicate_eq_map]⟩
  · intro g q; exact ⟨_, rfl, by simp [denRows, value, replicate_eq_map]⟩
  · intro l r x h
    rw [h]; simp [denRows, truth]
  · intro l r x h
    rw [h]
    simp only [denRows, truth, truthAll_eq, List.all_cons, List.all_nil, Bool.and_true]
    congr 1
    apply List.map_congr_left
    intro row _
    cases truth (rowEnv vars row) l <;> cases truth (rowEnv vars row) r <;> rfl

/-! ## C02 -/

/-- **C02**: for every walker whose recursion is well-founded and every cache key that determines the answer,
any history of calls on one cached walker object (starting with an empty cache) gives, call by
call, the answers of the uncached walker. -/
theorem cached_history_eq_uncached {I R Key : Type} [DecidableEq Key] {body : I → Prog I R}
    {μ : I → ℕ} (hd : Decreasing body μ) {key : I → Key}
    (hkey : ∀ i j, key i = key j → walkOn body μ i = walkOn body μ j) (calls : List I) :
    (chistory body μ key calls []).1 = calls.map (walkOn body μ) := by
  suffices H : ∀ c, CacheSound body μ key c →
      (chistory body μ key calls c).1 = calls.map (walkOn body μ) from
    H [] (fun i r h => by simp at h)
  induction calls with
  | nil => intro c _; rfl
  | cons i is ih =>
    intro c hc
    obtain ⟨h1, h2⟩ := crun_sound hd hkey (μ i + 1) i c (Nat.lt_succ_self _) hc
    simp only [chistory, List.map_cons]
    rw [show (cwalk body μ key i c).1 = walkOn body μ i from h1, ih (cwalk body μ key i c).2 h2]

/-- **C02 for the batch evaluator**: reusing one `SmtBatchChecker` for any sequence of formulas gives the
uncached answers. -/
theorem batch_history_eq_uncached (pypow : K → K → Except PyErr K) (vars : List String) (len : ℕ)
    (column : ℕ → Except PyErr (List K)) (fs : List Formula) :
    (chistory (batchW pypow vars len column).dispatch msize id fs []).1 =
      fs.map (batchW pypow vars len column).walk :=
  cached_history_eq_uncached (batchW_decr pypow vars len column) (fun i j h => by
    have : i = j := h
    rw [this]) fs

/-! ## C01 continued -/

/-- **C01 (table)**: `evaluate` on a table returns, row by row, the mathematical value at that row. -/
theorem evaluate_table_correct {pypow : K → K → Except PyErr K} (hpow : PowOk pypow)
    {vars : List String} (hnd : vars.Nodup) {rows : List (List K)}
    {ty : Ty} {f : Formula} (hwt : wt ty f = true) (hs : ∀ p ∈ syms f, p.1 ∈ vars) :
    evaluate pypow vars f (.table rows vars.length) = .ok (.batch (denRows vars rows ty f)) := by
  have h := batch_history_eq_uncached pypow vars rows.length
    (Values.table rows vars.length).column [f]
  simp only [chistory, List.map_cons, List.map_nil, List.cons.injEq, and_true] at h
  simp only [evaluate, Values.len]
  rw [h, batchWalk_correct hpow hnd hwt hs]

/-- **C01 (row)**: `evaluate` on a single row of a domain with more than one variable. -/
theorem evaluate_row_correct {pypow : K → K → Except PyErr K} (hpow : PowOk pypow)
    {vars : List String} (hnd : vars.Nodup) (hlen : 1 < vars.length)
    {row : List K} (hrow : row.length = vars.length)
    {ty : Ty} {f : Formula} (hwt : wt ty f = true) (hs : ∀ p ∈ syms f, p.1 ∈ vars) :
    evaluate pypow vars f (.vec row) = .ok (.single (den (rowEnv vars row) ty f)) := by
  simp only [evaluate, gt_iff_lt, hlen, if_true]
  rw [evaluateSingle_correct hpow hnd hrow hwt hs]

/-- Entry `i` of an array as a Python value. -/
def Arr.get? : Arr K → ℕ → Option (Val K)
  | .b v, i => (v[i]?).map .b
  | .r v, i => (v[i]?).map .r

/-- **C01 (agreement)**: entry `i` of the table evaluation, the evaluation of row `i` alone, and the
evaluation of the corresponding mapping are one and the same value, the mathematical one. -/
theorem evaluators_agree {pypow : K → K → Except PyErr K} (hpow : PowOk pypow)
    {vars : List String} (hnd : vars.Nodup) (hlen : 1 < vars.length) {rows : List (List K)}
    (hrows : ∀ row ∈ rows, row.length = vars.length)
    {ty : Ty} {f : Formula} (hwt : wt ty f = true) (hs : ∀ p ∈ syms f, p.1 ∈ vars)
    {asg : String → Option (AVal K)} (i : ℕ) (hi : i < rows.length)
    (hasg : ∀ p ∈ syms f, AsgOk asg (rowEnv vars rows[i]) p) :
    ∃ arr v, evaluate pypow vars f (.table rows vars.length) = .ok (.batch arr) ∧
      arr.get? i = some v ∧
      evaluate pypow vars f (.vec rows[i]) = .ok (.single v) ∧
      evaluateAssignment pypow asg f = .ok v ∧
      v = den (rowEnv vars rows[i]) ty f := by
  refine ⟨_, den (rowEnv vars rows[i]) ty f, evaluate_table_correct hpow hnd hwt hs, ?_,
    evaluate_row_correct hpow hnd hlen (hrows _ (List.getElem_mem hi)) hwt hs,
    evaluateAssignment_correct hpow hwt hasg, rfl⟩
  cases ty <;> simp [denRows, Arr.get?, den, hi]

end

/-! ## Concrete cases meeting the hypotheses -/

/-- Exact power on rationals for natural exponents (a concrete `pypow`). -/
def ratPow (x e : ℚ) : Except PyErr ℚ :=
  if e.den = 1 ∧ 0 ≤ e.num then .ok (x ^ e.num.toNat) else .error .other

theorem ratPow_ok : PowOk ratPow := by
  intro x n
  simp [ratPow]

/-- A formula with nested structure: `(a -> x*2 + y^2 < 3) <-> ite(a, y <= x, b)`. -/
def sampleFormula : Formula :=
  .iff (.implies (.sym "a" .bool)
      (.lt (.plus [.times [.sym "x" .real, .realC 2], .pow (.sym "y" .real) (.realC 2)]) (.realC 3)))
    (.ite (.sym "a" .bool) (.le (.sym "y" .real) (.sym "x" .real)) (.not (.sym "b" .bool)))

example : wt .bool sampleFormula = true := by rfl
example : ∀ p ∈ syms sampleFormula, p.1 ∈ ["a", "b", "x", "y"] := by decide
example : evaluate ratPow ["a", "b", "x", "y"] sampleFormula
    (.table [[1, 0, 1/2, 1], [0, 1, 2, 0], [1, 1, 5, 0]] 4) = .ok (.batch (.b [false, false, false])) := by
  decide +kernel
example : evaluate ratPow ["a", "b", "x", "y"] sampleFormula
    (.table [[1, 0, 1, 1/2], [0, 0, 2, 0]] 4) = .ok (.batch (.b [true, true])) := by
  decide +kernel

end Pywmi
