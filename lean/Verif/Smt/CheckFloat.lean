import Verif.Smt.Check

/-!
# Evaluation of formulas with floats (/repo/pywmi/smt_check.py)

`checkerW` and `singleW` (Smt/Check.lean) compute exactly.  Here constants, assigned values, sums, differences and products are rounded by `rd`, and
`pypow` is Python's `**` on floats.  Simplified: `sum` adds from the left and rounds every time (Python before 3.12); infinities and NaN are left out.
-/

namespace Pywmi

/-- Python `sum(list)` of floats (/repo/pywmi/smt_check.py:12, 165). -/
def pySumFloat (rd : ℚ → ℚ) (vs : List (Val ℚ)) : Except PyErr (Val ℚ) :=
  match Prog.mapE asR vs with
  | .ok rs => .ok (.r (rs.foldl (fun a b => rd (a + b)) 0))
  | .error e => .error e

/-- `walk_times` on floats (/repo/pywmi/smt_check.py:53-59, 170-176). -/
def pyProdFloat (rd : ℚ → ℚ) (vs : List (Val ℚ)) : Except PyErr (Val ℚ) :=
  if vs.isEmpty then .error .runtimeError
  else match Prog.mapE asR vs with
  | .ok rs => .ok (.r (rs.foldl (fun a b => rd (a * b)) 1))
  | .error e => .error e

/-- A value with its number rounded, `float(value)` (/repo/pywmi/smt_check.py:36, 38). -/
def roundVal (rd : ℚ → ℚ) : Val ℚ → Val ℚ
  | .b v => .b v
  | .r v => .r (rd v)

/-- `SmtChecker` on floats (/repo/pywmi/smt_check.py:7-65). -/
def checkerFloatW (rd : ℚ → ℚ) (pypow : ℚ → ℚ → Except PyErr ℚ) (asg : String → Option (AVal ℚ)) : Walker (Val ℚ) where
  onAnd as := .callAll as fun vs => .ofExcept (pyAll vs)
  onOr as := .callAll as fun vs => .ofExcept (pyAny vs)
  onNot a := .call a fun v => .ofExcept (pyNot v)
  onTimes as := if as.isEmpty then .fail .runtimeError else .callAll as fun vs => .ofExcept (pyProdFloat rd vs)
  onPlus as := .callAll as fun vs => .ofExcept (pySumFloat rd vs)
  onMinus l r := call2 l r (pyArith fun x y => .ok (rd (x - y)))
  onIte c t e := .call c fun v =>
    match asB v with
    | .ok true => .call t .done
    | .ok false => .call e .done
    | .error x => .fail x
  onPow b e := call2 b e (pyArith pypow)
  onLte l r := call2 l r (pyCmp fun x y => decide (x ≤ y))
  onLt l r := call2 l r (pyCmp fun x y => decide (x < y))
  onEquals l r := call2 l r (pyCmp fun x y => decide (x = y))
  onSymbol n t :=
    match asg n with
    | some v => .ofExcept ((assignmentConstant v t).map (roundVal rd))
    | none => .fail .keyError
  onBool b := .done (.b b)
  onReal q := .done (.r (rd q))

/-- `evaluate_assignment` on floats (/repo/pywmi/smt_check.py:200-201). -/
def evaluateAssignmentFloat (rd : ℚ → ℚ) (pypow : ℚ → ℚ → Except PyErr ℚ) (asg : String → Option (AVal ℚ)) (f : Formula) : Except PyErr (Val ℚ) :=
  (checkerFloatW rd pypow asg).walk f

/-- `SmtSingleChecker` on floats (/repo/pywmi/smt_check.py:139-197).  The row is a numpy array of floats and is not rounded. -/
def singleFloatW (rd : ℚ → ℚ) (pypow : ℚ → ℚ → Except PyErr ℚ) (vars : List String) (row : List ℚ) : Walker (Val ℚ) where
  onAnd as := .callAll as fun vs => .ofExcept (pyAll vs)
  onOr as := .callAll as fun vs => .ofExcept (pyAny vs)
  onNot a := .call a fun v => .ofExcept (pyNot v)
  onTimes as := if as.isEmpty then .fail .runtimeError else .callAll as fun vs => .ofExcept (pyProdFloat rd vs)
  onPlus as := .callAll as fun vs => .ofExcept (pySumFloat rd vs)
  onMinus l r := call2 l r (pyArith fun x y => .ok (rd (x - y)))
  onIte c t e := .call c fun vc => .call t fun vt => .call e fun ve =>
    match asB vc with
    | .ok true => .done vt
    | .ok false => .done ve
    | .error x => .fail x
  onPow b e := call2 b e (pyArith pypow)
  onLte l r := call2 l r (pyCmp fun x y => decide (x ≤ y))
  onLt l r := call2 l r (pyCmp fun x y => decide (x < y))
  onEquals l r := call2 l r (pyCmp fun x y => decide (x = y))
  onSymbol n t :=
    match (indices vars).lookup n with
    | none => .fail .keyError
    | some i => match row[i]? with
      | none => .fail .indexError
      | some v => .done (match t with | .bool => .b (decide (v ≠ 0)) | .real => .r v)
  onBool b := .done (.b b)
  onReal q := .done (.r (rd q))

end Pywmi
