import Verif.Smt.CheckFloat

/-!
# Evaluation of tables with floats (/repo/pywmi/smt_check.py:68-136)

`batchW` (Smt/Check.lean) with every constant, sum, difference and product rounded by `rd`.  The table holds floats and is not rounded.  The
element-wise power of numpy is the same parameter as Python's `**`.
-/

namespace Pywmi

/-- `sum(list of arrays)` on floats (/repo/pywmi/smt_check.py:105-106). -/
def sumArrFloat (rd : ℚ → ℚ) (len : ℕ) : List (Arr ℚ) → Except PyErr (Arr ℚ)
  | [] => .error .other
  | as => do
    let out ← as.foldlM (fun acc x => do elementwise (fun a b => rd (a + b)) acc (← arrR x)) (List.replicate len (0 : ℚ))
    .ok (.r out)

/-- `walk_times` on arrays of floats (/repo/pywmi/smt_check.py:111-117). -/
def prodArrFloat (rd : ℚ → ℚ) (len : ℕ) : List (Arr ℚ) → Except PyErr (Arr ℚ)
  | [] => .error .runtimeError
  | as => do
    let out ← as.foldlM (fun acc x => do elementwise (fun a b => rd (a * b)) acc (← arrR x)) (List.replicate len (1 : ℚ))
    .ok (.r out)

/-- Element-wise difference of arrays of floats (/repo/pywmi/smt_check.py:108-109). -/
def subArrFloat (rd : ℚ → ℚ) (a b : Arr ℚ) : Except PyErr (Arr ℚ) := do
  .ok (.r (← elementwise (fun x y => rd (x - y)) (← arrR a) (← arrR b)))

/-- `SmtBatchChecker` on floats (/repo/pywmi/smt_check.py:68-136). -/
def batchFloatW (rd : ℚ → ℚ) (pypow : ℚ → ℚ → Except PyErr ℚ) (vars : List String) (len : ℕ) (column : ℕ → Except PyErr (List ℚ)) :
    Walker (Arr ℚ) where
  onAnd as := .callAll as fun vs => .ofExcept (accumulateB (· && ·) vs)
  onOr as := .callAll as fun vs => .ofExcept (accumulateB (· || ·) vs)
  onNot a := .call a fun v => .ofExcept (notArr v)
  onTimes as := if as.isEmpty then .fail .runtimeError else .callAll as fun vs => .ofExcept (prodArrFloat rd len vs)
  onPlus as := .callAll as fun vs => .ofExcept (sumArrFloat rd len vs)
  onMinus l r := call2 l r (subArrFloat rd)
  onIte c t e := .call c fun vc => .call t fun vt => .call e fun ve => .ofExcept (whereArr vc vt ve)
  onPow b e := call2 b e (powArr pypow)
  onLte l r := call2 l r (cmpArr fun x y => decide (x ≤ y))
  onLt l r := call2 l r (cmpArr fun x y => decide (x < y))
  onEquals l r := call2 l r (cmpArr fun x y => decide (x = y))
  onSymbol n t :=
    match (indices vars).lookup n with
    | none => .fail .keyError
    | some i => match column i with
      | .error e => .fail e
      | .ok col => .done (match t with
        | .bool => .b (col.map fun v => decide (v ≠ 0))
        | .real => .r col)
  onBool b := .done (.b (List.replicate len b))
  onReal q := .done (.r (List.replicate len (rd q)))

/-- `evaluate` on floats (/repo/pywmi/smt_check.py:204-207), with a fresh cached walker for tables. -/
def evaluateFloat (rd : ℚ → ℚ) (pypow : ℚ → ℚ → Except PyErr ℚ) (vars : List String) (f : Formula) (values : Values ℚ) :
    Except PyErr (EvalResult ℚ) :=
  let batch :=
    match (cwalk (batchFloatW rd pypow vars values.len values.column).dispatch Formula.msize id f []).1 with
    | .ok a => .ok (.batch a)
    | .error e => .error e
  match values with
  | .vec row =>
    if vars.length > 1 then
      match (singleFloatW rd pypow vars row).walk f with
      | .ok v => .ok (.single v)
      | .error e => .error e
    else batch
  | .table _ _ => batch

end Pywmi
