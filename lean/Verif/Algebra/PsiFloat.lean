import Verif.Engine.Convex

/-!
# Numbers of the PSI back-end

Model of the conversions between Python numbers and PSI values in /repo/pywmi/engines/algebraic_backend.py.  PSI itself is
not modelled: a value is its text.
-/

namespace Pywmi.Psi
open Prog

/-- `t[:k]`; a negative `k` counts from the end. -/
def pyTake {α : Type} (t : List α) (k : ℤ) : List α := if 0 ≤ k then t.take k.toNat else t.take (t.length - (-k).toNat)

/-- `float(text)` on the texts of integers, idealised to the exact value.  No digits at all is a ValueError, so are other
texts here; `float` accepts more of them, none occurs. -/
def floatText (t : List Char) : Except PyErr ℚ :=
  let (neg, ds) := stripMinus t
  if ds = [] ∨ ds.all Rx.isDigit = false then .error .valueError
  else .ok (if neg then -(decNat ds : ℚ) else decNat ds)

/-- The quotient of two texts, cut to a common length (/repo/pywmi/engines/algebraic_backend.py:290-300). -/
def cutQuotient (num den : List Char) : Except PyErr ℚ :=
  let a : ℤ := num.length
  let b : ℤ := den.length
  let (num, den) :=
    if a > b then (pyTake num 250, pyTake den (250 - (a - b)))
    else (pyTake num (250 - (b - a)), pyTake den 250)
  match floatText num with
  | .error e => .error e
  | .ok x =>
    match floatText den with
    | .error e => .error e
    | .ok y => if y = 0 then .error .zeroDivision else .ok (x / y)

/-- `PsiPolynomialAlgebra.to_float` (/repo/pywmi/engines/algebraic_backend.py:284-300).  `direct` is PSI's own conversion,
`text` the text of the simplified value.  Every exception of PSI's conversion is caught. -/
def toFloat (direct : Except PyErr ℚ) (text : List Char) : Except PyErr ℚ :=
  match direct with
  | .ok q => .ok q
  | .error _ =>
    match text.splitOn '/' with
    | [num, den] => cutQuotient num den
    | _ => .error .valueError

/-- The text of a constant, `PsiPolynomialAlgebra.real` and `PsiPiecewisePolynomialAlgebra.real`
(/repo/pywmi/engines/algebraic_backend.py:219-227, 274-282): an integer as it is, a float as a quotient, also when it is whole. -/
def realText (isInt : Bool) (q : ℚ) : List Char :=
  if isInt then Latte.intText q.num else Latte.intText q.num ++ '/' :: Latte.natText q.den

end Pywmi.Psi
