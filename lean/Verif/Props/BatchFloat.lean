import Verif.Smt.BatchFloat
import Verif.Props.CheckFloat

set_option linter.unusedSectionVars false
set_option linter.unusedSimpArgs false

/-!
# C112: evaluation of tables with floats
-/

namespace Pywmi
open Formula Prog
variable {rd : ℚ → ℚ} {powF : ℚ → ℚ → ℚ}

/-- SPEC: the array whose entry `i` is the value of the formula at row `i` in float arithmetic. -/
def denRowsF (rd : ℚ → ℚ) (powF : ℚ → ℚ → ℚ) (vars : List String) (rows : List (List ℚ)) : Ty → Formula → Arr ℚ
  | .bool, f => .b (rows.map fun row => truthF rd powF (rowEnv vars row) f)
  | .real, f => .r (rows.map fun row => valueF rd powF (rowEnv vars row) f)

theorem batchFloatW_decr (rd : ℚ → ℚ) (pypow : ℚ → ℚ → Except PyErr ℚ) (vars : List String) (len : ℕ)
    (column : ℕ → Except PyErr (List ℚ)) : (batchFloatW rd pypow vars len column).Decr := by
  refine Walker.decr_of ?_ ?_ ?_ ?_ ?_ ?_ ?_ ?_ ?_ ?_ ?_ ?_ ?_ ?_ ?_
  · exact fun as n h => callsBelow_callAll h fun _ => callsBelow_ofExcept _ _ _
  · exact fun as n h => callsBelow_callAll h fun _ => callsBelow_ofExcept _ _ _
  · intro as n h
    simp only [batchFloatW]
    split
    · trivial
    · exact callsBelow_callAll h fun _ => callsBelow_ofExcept _ _ _
  · exact fun as n h => callsBelow_callAll h fun _ => callsBelow_ofExcept _ _ _
  · exact fun a n h => ⟨h, fun _ => callsBelow_ofExcept _ _ _⟩
  · exact fun l r => call2_below (by simp only [msize]; omega) (by simp only [msize]; omega) _
  · exact fun c t e n hc ht he =>
      ⟨hc, fun v => ⟨ht, fun v' => ⟨he, fun v'' => callsBelow_ofExcept _ _ _⟩⟩⟩
  · exact fun l r n hl hr => call2_below hl hr _
  · exact fun l r n hl hr => call2_below hl hr _
  · exact fun l r n hl hr => call2_below hl hr _
  · exact fun l r n hl hr => call2_below hl hr _
  · intro m t n
    simp only [batchFloatW]
    split
    · trivial
    · split <;> trivial
  · exact fun _ _ => trivial
  · exact fun _ _ => trivial
  · exact fun l r => Walker.implies_default_below l r

theorem foldlM_andF (vars : List String) (rows : List (List ℚ)) (op : Bool → Bool → Bool)
    (as : List Formula) (h0 : List ℚ → Bool) :
    (as.map (denRowsF rd powF vars rows .bool)).foldlM
      (fun (acc : List Bool) (x : Arr ℚ) => (do elementwise op acc (← arrB x) : Except PyErr _))
      (rows.map h0) =
    .ok (rows.map fun row => as.foldl (fun acc a => op acc (truthF rd powF (rowEnv vars row) a)) (h0 row)) := by
  induction as generalizing h0 with
  | nil => rfl
  | cons a as ih =>
    simp only [List.map_cons, List.foldlM_cons, List.foldl_cons]
    have : (do elementwise op (rows.map h0) (← arrB (denRowsF rd powF vars rows .bool a)) : Except PyErr _) =
        .ok (rows.map fun row => op (h0 row) (truthF rd powF (rowEnv vars row) a)) := by
      simp only [denRowsF, arrB]
      exact elementwise_map op rows _ _
    rw [this]
    exact ih _

theorem foldlM_arithF (vars : List String) (rows : List (List ℚ)) (op : ℚ → ℚ → ℚ)
    (as : List Formula) (h0 : List ℚ → ℚ) :
    (as.map (denRowsF rd powF vars rows .real)).foldlM
      (fun (acc : List ℚ) (x : Arr ℚ) => (do elementwise op acc (← arrR x) : Except PyErr _))
      (rows.map h0) =
    .ok (rows.map fun row => as.foldl (fun acc a => op acc (valueF rd powF (rowEnv vars row) a)) (h0 row)) := by
  induction as generalizing h0 with
  | nil => rfl
  | cons a as ih =>
    simp only [List.map_cons, List.foldlM_cons, List.foldl_cons]
    have : (do elementwise op (rows.map h0) (← arrR (denRowsF rd powF vars rows .real a)) : Except PyErr _) =
        .ok (rows.map fun row => op (h0 row) (valueF rd powF (rowEnv vars row) a)) := by
      simp only [denRowsF, arrR]
      exact elementwise_map op rows _ _
    rw [this]
    exact ih _

theorem foldl_and_truthF (σ : Env ℚ) (as : List Formula) (x : Bool) :
    as.foldl (fun acc a => acc && truthF rd powF σ a) x = (x && as.all (truthF rd powF σ)) := by
  induction as generalizing x with
  | nil => simp
  | cons a as ih => simp [ih, Bool.and_assoc]

theorem foldl_or_truthF (σ : Env ℚ) (as : List Formula) (x : Bool) :
    as.foldl (fun acc a => acc || truthF rd powF σ a) x = (x || as.any (truthF rd powF σ)) := by
  induction as generalizing x with
  | nil => simp
  | cons a as ih => simp [ih, Bool.or_assoc]

theorem accumulateB_andF (vars : List String) (rows : List (List ℚ)) {as : List Formula}
    (h : as ≠ []) : accumulateB (· && ·) (as.map (denRowsF rd powF vars rows .bool)) =
      .ok (denRowsF rd powF vars rows .bool (.and as)) := by
  cases as with
  | nil => exact absurd rfl h
  | cons a as =>
    simp only [List.map_cons, accumulateB]
    have h1 : arrB (denRowsF rd powF vars rows .bool a) =
      .ok (rows.map fun row => truthF rd powF (rowEnv vars row) a) := rfl
    have h2 := foldlM_andF (rd := rd) (powF := powF) vars rows (· && ·) as (fun row => truthF rd powF (rowEnv vars row) a)
    simp only [h1, bind, Except.bind] at h2 ⊢
    rw [h2]
    simp only [foldl_and_truthF]
    simp only [denRowsF, truthF, truthFAll_eq, List.all_cons]

theorem accumulateB_orF (vars : List String) (rows : List (List ℚ)) {as : List Formula}
    (h : as ≠ []) : accumulateB (· || ·) (as.map (denRowsF rd powF vars rows .bool)) =
      .ok (denRowsF rd powF vars rows .bool (.or as)) := by
  cases as with
  | nil => exact absurd rfl h
  | cons a as =>
    simp only [List.map_cons, accumulateB]
    have h1 : arrB (denRowsF rd powF vars rows .bool a) =
      .ok (rows.map fun row => truthF rd powF (rowEnv vars row) a) := rfl
    have h2 := foldlM_andF (rd := rd) (powF := powF) vars rows (· || ·) as (fun row => truthF rd powF (rowEnv vars row) a)
    simp only [h1, bind, Except.bind] at h2 ⊢
    rw [h2]
    simp only [foldl_or_truthF]
    simp only [denRowsF, truthF, truthFAny_eq, List.any_cons]

theorem sumArr_denF (vars : List String) (rows : List (List ℚ)) {as : List Formula} (h : as ≠ []) :
    sumArrFloat rd rows.length (as.map (denRowsF rd powF vars rows .real)) = .ok (denRowsF rd powF vars rows .real (.plus as)) := by
  cases as with
  | nil => exact absurd rfl h
  | cons a as =>
    have h2 := foldlM_arithF (rd := rd) (powF := powF) vars rows (fun a b => rd (a + b)) (a :: as) (fun _ => 0)
    simp only [sumArrFloat, List.map_cons] at h2 ⊢
    rw [replicate_eq_map, h2]
    simp only [denRowsF, valueF, sumF_eq, List.foldl_map]
    rfl

theorem prodArr_denF (vars : List String) (rows : List (List ℚ)) {as : List Formula} (h : as ≠ []) :
    prodArrFloat rd rows.length (as.map (denRowsF rd powF vars rows .real)) = .ok (denRowsF rd powF vars rows .real (.times as)) := by
  cases as with
  | nil => exact absurd rfl h
  | cons a as =>
    have h2 := foldlM_arithF (rd := rd) (powF := powF) vars rows (fun a b => rd (a * b)) (a :: as) (fun _ => 1)
    simp only [prodArrFloat, List.map_cons] at h2 ⊢
    rw [replicate_eq_map, h2]
    simp only [denRowsF, valueF, prodF_eq, List.foldl_map]
    rfl

theorem cmpArr_denF (vars : List String) (rows : List (List ℚ)) (op : ℚ → ℚ → Bool) (l r : Formula) :
    cmpArr op (denRowsF rd powF vars rows .real l) (denRowsF rd powF vars rows .real r) =
      .ok (.b (rows.map fun row => op (valueF rd powF (rowEnv vars row) l) (valueF rd powF (rowEnv vars row) r))) := by
  have := elementwise_map op rows (fun row => valueF rd powF (rowEnv vars row) l)
    (fun row => valueF rd powF (rowEnv vars row) r)
  simp only [cmpArr, denRowsF, arrR]
  show (do Except.ok (Arr.b (← elementwise _ _ _))) = _
  rw [this]; rfl

theorem subArr_denF (vars : List String) (rows : List (List ℚ)) (l r : Formula) :
    subArrFloat rd (denRowsF rd powF vars rows .real l) (denRowsF rd powF vars rows .real r) =
      .ok (.r (rows.map fun row => rd (valueF rd powF (rowEnv vars row) l - valueF rd powF (rowEnv vars row) r))) := by
  have := elementwise_map (fun x y => rd (x - y)) rows (fun row => valueF rd powF (rowEnv vars row) l)
    (fun row => valueF rd powF (rowEnv vars row) r)
  simp only [subArrFloat, denRowsF, arrR]
  show (do Except.ok (Arr.r (← elementwise _ _ _))) = _
  rw [this]; rfl

theorem powAll_mapF {pypow : ℚ → ℚ → Except PyErr ℚ} (hpow : ∀ x y, pypow x y = .ok (powF x y)) (e : ℚ) (rows : List (List ℚ)) (f : List ℚ → ℚ) :
    powAll pypow (rows.map f) (rows.map fun _ => e) = .ok (rows.map fun row => powF (f row) e) := by
  induction rows with
  | nil => rfl
  | cons r rows ih => simp only [List.map_cons, powAll, hpow, ih]

theorem whereArr_denF (vars : List String) (rows : List (List ℚ)) (ty : Ty) (c t e : Formula) :
    whereArr (denRowsF rd powF vars rows .bool c) (denRowsF rd powF vars rows ty t) (denRowsF rd powF vars rows ty e) =
      .ok (denRowsF rd powF vars rows ty (.ite c t e)) := by
  cases ty with
  | bool =>
    have h1 := elementwise_map (Prod.mk (α := Bool) (β := Bool)) rows
      (fun row => truthF rd powF (rowEnv vars row) t) (fun row => truthF rd powF (rowEnv vars row) e)
    have h2 := elementwise_map (fun (x : Bool) (p : Bool × Bool) => if x then p.1 else p.2) rows
      (fun row => truthF rd powF (rowEnv vars row) c)
      (fun row => (truthF rd powF (rowEnv vars row) t, truthF rd powF (rowEnv vars row) e))
    simp only [whereArr, denRowsF, arrB, truthF]
    simp only [bind, Except.bind, h1, h2]
  | real =>
    have h1 := elementwise_map (Prod.mk (α := ℚ) (β := ℚ)) rows
      (fun row => valueF rd powF (rowEnv vars row) t) (fun row => valueF rd powF (rowEnv vars row) e)
    have h2 := elementwise_map (fun (x : Bool) (p : ℚ × ℚ) => if x then p.1 else p.2) rows
      (fun row => truthF rd powF (rowEnv vars row) c)
      (fun row => (valueF rd powF (rowEnv vars row) t, valueF rd powF (rowEnv vars row) e))
    simp only [whereArr, denRowsF, arrB, valueF]
    simp only [bind, Except.bind, h1, h2]

theorem batchWalk_correctF {pypow : ℚ → ℚ → Except PyErr ℚ} (hpow : ∀ x y, pypow x y = .ok (powF x y))
    {vars : List String} (hnd : vars.Nodup) {rows : List (List ℚ)}
    {ty : Ty} {f : Formula} (hwt : wt ty f = true) (hs : ∀ p ∈ syms f, p.1 ∈ vars) :
    (batchFloatW rd pypow vars rows.length (Values.table rows vars.length).column).walk f =
      .ok (denRowsF rd powF vars rows ty f) := by
  have := Walker.sound (batchFloatW_decr rd pypow vars rows.length (Values.table rows vars.length).column)
    (fun p => p.1 ∈ vars) (fun ty f r => r = denRowsF rd powF vars rows ty f)
    (hAnd := ?_) (hOr := ?_) (hTimes := ?_) (hPlus := ?_) (hNot := ?_) (hMinus := ?_) (hIte := ?_)
    (hPow := ?_) (hLe := ?_) (hLt := ?_) (hEq := ?_) (hSym := ?_) (hBool := ?_) (hReal := ?_)
    (hImpl := fun _ _ => rfl) (hDI := ?_) (hDiff := ?_) f ty hwt hs
  · obtain ⟨r, h1, h2⟩ := this
    rw [h1, h2]
  · intro g as rs hne _ hg hD
    refine ⟨_, ?_, rfl⟩
    simp only [batchFloatW, interp_callAll, hg, interp_ofExcept, forall₂_fun hD]
    exact accumulateB_andF vars rows hne
  · intro g as rs hne _ hg hD
    refine ⟨_, ?_, rfl⟩
    simp only [batchFloatW, interp_callAll, hg, interp_ofExcept, forall₂_fun hD]
    exact accumulateB_orF vars rows hne
  · intro g as rs hne hg hD
    refine ⟨_, ?_, rfl⟩
    have : as.isEmpty = false := by simpa using hne
    simp only [batchFloatW, this, Bool.false_eq_true, if_false, interp_callAll, hg, interp_ofExcept,
      forall₂_fun hD]
    exact prodArr_denF vars rows hne
  · intro g as rs hne hg hD
    refine ⟨_, ?_, rfl⟩
    simp only [batchFloatW, interp_callAll, hg, interp_ofExcept, forall₂_fun hD]
    exact sumArr_denF vars rows hne
  · intro g a ra _ hg hD
    refine ⟨_, ?_, rfl⟩
    simp only [batchFloatW, interp, hg, hD, interp_ofExcept, notArr, denRowsF, arrB, truthF, bind, Except.bind,
      List.map_map]
    rfl
  · intro g l r rl rr hl hr hDl hDr
    refine ⟨_, ?_, rfl⟩
    simp only [batchFloatW, call2, interp, hl, hr, hDl, hDr, interp_ofExcept, subArr_denF]
    simp [denRowsF, valueF]
  · intro g ty c t e rc rt re _ _ _ hc ht he hDc hDt hDe
    refine ⟨_, ?_, rfl⟩
    simp only [batchFloatW, interp, hc, ht, he, hDc, hDt, hDe, interp_ofExcept, whereArr_denF]
  · intro g b q rb rq h1 h2 hb hq hDb hDq
    refine ⟨_, ?_, rfl⟩
    have := powAll_mapF hpow (rd q) rows (fun row => valueF rd powF (rowEnv vars row) b)
    simp only [batchFloatW, call2, interp, hb, hq, hDb, hDq, interp_ofExcept, powArr, denRowsF, arrR,
      valueF, bind, Except.bind, this]
  · intro g l r rl rr _ _ hl hr hDl hDr
    refine ⟨_, ?_, rfl⟩
    simp only [batchFloatW, call2, interp, hl, hr, hDl, hDr, interp_ofExcept, cmpArr_denF]
    simp [denRowsF, truthF]
  · intro g l r rl rr _ _ hl hr hDl hDr
    refine ⟨_, ?_, rfl⟩
    simp only [batchFloatW, call2, interp, hl, hr, hDl, hDr, interp_ofExcept, cmpArr_denF]
    simp [denRowsF, truthF]
  · intro g l r rl rr _ _ hl hr hDl hDr
    refine ⟨_, ?_, rfl⟩
    simp only [batchFloatW, call2, interp, hl, hr, hDl, hDr, interp_ofExcept, cmpArr_denF]
    simp [denRowsF, truthF]
  · intro g n t h
    refine ⟨_, ?_, rfl⟩
    have hlt : vars.idxOf n < vars.length := List.idxOf_lt_length_of_mem h
    simp only [batchFloatW, lookup_indices hnd h, Values.column, hlt, if_true, interp]
    cases t <;> simp [denRowsF, truthF, valueF, rowEnv]
  · intro g b; exact ⟨_, rfl, by simp only [denRowsF, truthF, replicate_eq_map]⟩
  · intro g q; exact ⟨_, rfl, by simp only [denRowsF, valueF, replicate_eq_map]⟩
  · intro l r x h
    rw [h]
    simp only [denRowsF]
    congr 1
    apply List.map_congr_left
    intro row _
    have := denF_mkOr (rd := rd) (powF := powF) (rowEnv vars row) l r
    simpa only [denF, Val.b.injEq] using this
  · intro l r x h
    rw [h]
    simp only [denRowsF]
    congr 1
    apply List.map_congr_left
    intro row _
    have := denF_iff (rd := rd) (powF := powF) (rowEnv vars row) l r
    simpa only [denF, Val.b.injEq] using this

/-- **C112 (table)**: for every rounding, `evaluate` on a table of floats gives, row by row, the value of the formula in float arithmetic. -/
theorem table_float {pypow : ℚ → ℚ → Except PyErr ℚ} (hpow : ∀ x y, pypow x y = .ok (powF x y)) {vars : List String} (hnd : vars.Nodup)
    {rows : List (List ℚ)} {ty : Ty} {f : Formula} (hwt : wt ty f = true) (hs : ∀ p ∈ syms f, p.1 ∈ vars) :
    evaluateFloat rd pypow vars f (.table rows vars.length) = .ok (.batch (denRowsF rd powF vars rows ty f)) := by
  have h := cached_history_eq_uncached (batchFloatW_decr rd pypow vars rows.length (Values.table rows vars.length).column) (key := id)
    (fun i j h => by have : i = j := h; rw [this]) [f]
  simp only [chistory, List.map_cons, List.map_nil, List.cons.injEq, and_true] at h
  simp only [evaluateFloat, Values.len]
  rw [h]
  have hb := batchWalk_correctF (rd := rd) hpow hnd (rows := rows) hwt hs
  simp only [Walker.walk] at hb
  rw [hb]

/-- **C112 (agreement)**: for every rounding, entry `i` of the evaluation of a table, the evaluation of row `i` alone and the evaluation of the
assignment with the same floats are the same float, the value of the formula in float arithmetic. -/
theorem evaluators_float_same {pypow : ℚ → ℚ → Except PyErr ℚ} (hpow : ∀ x y, pypow x y = .ok (powF x y)) {vars : List String} (hnd : vars.Nodup)
    (hlen : 1 < vars.length) {rows : List (List ℚ)} (hrows : ∀ row ∈ rows, row.length = vars.length) {ty : Ty} {f : Formula}
    (hwt : wt ty f = true) (hs : ∀ p ∈ syms f, p.1 ∈ vars) {asg : String → Option (AVal ℚ)} (i : ℕ) (hi : i < rows.length)
    (hasg : ∀ p ∈ syms f, AsgFloat rd asg (rowEnv vars rows[i]) p) :
    ∃ arr v, evaluateFloat rd pypow vars f (.table rows vars.length) = .ok (.batch arr) ∧ arr.get? i = some v ∧
      evaluateFloat rd pypow vars f (.vec rows[i]) = .ok (.single v) ∧ evaluateAssignmentFloat rd pypow asg f = .ok v ∧
      v = denF rd powF (rowEnv vars rows[i]) ty f := by
  refine ⟨_, denF rd powF (rowEnv vars rows[i]) ty f, table_float hpow hnd hwt hs, ?_, ?_, assignment_float hpow hwt hasg, rfl⟩
  · cases ty <;> simp [denRowsF, Arr.get?, denF, hi]
  · simp only [evaluateFloat, gt_iff_lt, hlen, if_true]
    rw [row_float hpow hnd (hrows _ (List.getElem_mem hi)) hwt hs]

/-- **C112, partial (table)**: where the constants and the table are whole and no number met gets above 2^53, the table is evaluated exactly. -/
theorem table_float_partial (h : ExactWhole rd) (hp : PowWhole powF) {pypow : ℚ → ℚ → Except PyErr ℚ} (hpow : ∀ x y, pypow x y = .ok (powF x y))
    {vars : List String} (hnd : vars.Nodup) {rows : List (List ℚ)} (hrows : ∀ row ∈ rows, ∀ x ∈ row, Whole x) {ty : Ty} {f : Formula}
    (hwt : wt ty f = true) (hs : ∀ p ∈ syms f, p.1 ∈ vars) (hw : wholeConsts f = true)
    (hb : ∀ row ∈ rows, checkSize (rowEnv vars row) f ≤ 9007199254740992) :
    evaluateFloat rd pypow vars f (.table rows vars.length) = .ok (.batch (denRows vars rows ty f)) := by
  rw [table_float hpow hnd hwt hs]
  replace hrows : ∀ row ∈ rows, ∀ n, Whole ((rowEnv vars row).r n) := by
    intro row hr n
    simp only [rowEnv, List.getD_eq_getElem?_getD]
    cases e : row[vars.idxOf n]? with
    | none => exact ⟨0, by simp⟩
    | some x => exact hrows row hr x (List.mem_of_getElem? e)
  congr 2
  cases ty with
  | bool =>
    simp only [denRowsF, denRows]
    congr 1
    exact List.map_congr_left fun row hr => (sameValue h hp (hrows row hr) f hw (hb row hr)).1
  | real =>
    simp only [denRowsF, denRows]
    congr 1
    exact List.map_congr_left fun row hr => (sameValue h hp (hrows row hr) f hw (hb row hr)).2.1

/-! ## Concrete cases -/

/-- Rounding down to tenths: `1/4 + x*y` at two rows, where both the constant and the product are rounded. -/
example : evaluateFloat (fun q => (⌊q * 10⌋ : ℚ) / 10) ratPow ["x", "y"] (.plus [.realC (1/4), .times [.sym "x" .real, .sym "y" .real]])
    (.table [[1/2, 1/2], [3, 2]] 2) = .ok (.batch (.r [2/5, 31/5])) := by decide +kernel
example : wt .real (.plus [.realC (1/4), .times [.sym "x" .real, .sym "y" .real]]) = true := by decide
example : ∀ p ∈ syms (.plus [.realC (1/4), .times [.sym "x" .real, .sym "y" .real]]), p.1 ∈ ["x", "y"] := by decide
example : evaluateFloat floatRd (fun x y => .ok (floatPow x y)) ["a", "x"] floatCheck (.table [[0, 5], [0, 12], [1, 12]] 2) =
    .ok (.batch (.b [true, false, true])) := by decide +kernel
example : ∀ row ∈ ([[0, 5], [0, 12], [1, 12]] : List (List ℚ)), checkSize (rowEnv ["a", "x"] row) floatCheck ≤ 9007199254740992 := by decide +kernel
example : ∀ row ∈ ([[0, 5], [0, 12], [1, 12]] : List (List ℚ)), row.length = ["a", "x"].length := by decide
example : ∀ p ∈ syms floatCheck, p.1 ∈ ["a", "x"] := by decide

end Pywmi
