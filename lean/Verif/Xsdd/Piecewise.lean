import Verif.Math.Poly
import Verif.Algebra.Backend

/-!
# Piecewise functions

Model of /repo/pywmi/engines/xsdd/piecewise.py with the algebra that the XSDD engines pass to it,
`PolynomialAlgebra` (/repo/pywmi/smt_math.py:136-145, /repo/pywmi/engines/xsdd/engine.py:325-326).
`simp` stands for pysmt's simplifier.
-/

namespace Pywmi

/-- Values occurring as keys of `PiecewiseFunction.pieces`: polynomials, or the Python integers that
`PolynomialAlgebra.times(2, e)` returns when `e` is the polynomial 1 (the shortcut at
/repo/pywmi/engines/algebraic_backend.py:39-40 returns the argument 2 itself). -/
inductive PExpr where
  | int (n : ℤ)
  | poly (d : Dict)
deriving DecidableEq, Repr

namespace PExpr

/-- `==`: `Polynomial.__eq__` (/repo/pywmi/smt_math.py:123-124) is false for anything but polynomials. -/
def eq : PExpr → PExpr → Bool
  | .int n, .int m => n == m
  | .poly p, .poly q => polyEq p q
  | _, _ => false

/-- `PolynomialAlgebra.zero()` (/repo/pywmi/engines/algebraic_backend.py:22-23, /repo/pywmi/smt_math.py:140-141). -/
def zero : PExpr := .poly (polyConst 0)
/-- `PolynomialAlgebra.one()` (/repo/pywmi/engines/algebraic_backend.py:25-26). -/
def one : PExpr := .poly (polyConst 1)

/-- `Polynomial.__mul__` on polynomials (/repo/pywmi/smt_math.py:71-80).  The multiplication of polynomials never
raises (`dictTimes_false`); the second case is unreachable. -/
def mulDict (p q : Dict) : Dict :=
  match polyMul p q with
  | .ok d => d
  | .error _ => []

/-- `a * b`: integers, `Polynomial.__mul__` and `Polynomial.__rmul__` (/repo/pywmi/smt_math.py:71-85). -/
def mul : PExpr → PExpr → PExpr
  | .int n, .int m => .int (n * m)
  | .int n, .poly q => .poly (mulDict q (polyConst n))
  | .poly p, .int m => .poly (mulDict p (polyConst m))
  | .poly p, .poly q => .poly (mulDict p q)

/-- `AlgebraBackend.times` (/repo/pywmi/engines/algebraic_backend.py:34-42), inherited by `PolynomialAlgebra`. -/
def times (a b : PExpr) : PExpr :=
  if a.eq zero || b.eq zero then zero
  else if a.eq one then b
  else if b.eq one then a
  else mul a b

/-- `AlgebraBackend.negate` (/repo/pywmi/engines/algebraic_backend.py:58-59). -/
def negate (a : PExpr) : PExpr := times a (.poly (polyConst (-1)))

/-- `self.algebra.times(2, e)` (/repo/pywmi/engines/xsdd/piecewise.py:83-88). -/
def double (e : PExpr) : PExpr := times (.int 2) e

end PExpr

/-- The dictionary `pieces`: expression -> support (/repo/pywmi/engines/xsdd/piecewise.py:17). -/
abbrev Pieces := List (PExpr × Formula)

namespace Pieces

/-- `pieces[e]` of an existing key. -/
def get (P : Pieces) (e : PExpr) : Option Formula := (P.find? fun p => p.1.eq e).map (·.2)

/-- `pieces[e] = c`; an existing key object keeps its place. -/
def set : Pieces → PExpr → Formula → Pieces
  | [], e, c => [(e, c)]
  | p :: P, e, c => if p.1.eq e then (p.1, c) :: P else p :: set P e c

/-- `pieces.pop(e, None)`. -/
def del (P : Pieces) (e : PExpr) : Pieces := P.filter fun p => !p.1.eq e

/-- `c.is_false()` of pysmt. -/
def isFalse (c : Formula) : Bool := decide (c = .boolC false)

/-- The two updates of `_addpiece2pieces` for an existing key `e` with support `old`
(/repo/pywmi/engines/xsdd/piecewise.py:74-88). -/
def merge (P : Pieces) (e : PExpr) (c1 c2 : Formula) : Except PyErr Pieces :=
  let P1 := if isFalse c1 then P.del e else P.set e c1
  if isFalse c2 then .ok (P1.del e.double)
  else if (P1.get e.double).isSome then .error .assertionError
  else .ok (P1.set e.double c2)

/-- `PiecewiseFunction._addpiece2pieces` (/repo/pywmi/engines/xsdd/piecewise.py:68-92). -/
def addPiece (simp : Formula → Formula) (P : Pieces) (e : PExpr) (c : Formula) : Except PyErr Pieces :=
  if isFalse c then .ok P
  else
    match P.get e with
    | some old =>
      P.merge e (simp (mkAnd [mkOr [old, c], mkNot (mkAnd [old, c])])) (simp (mkAnd [old, c]))
    | none => .ok (P.set e (simp c))

/-- A way of adding one piece to a dictionary; the code uses `addPiece simp`. -/
abbrev Adder := Pieces → PExpr → Formula → Except PyErr Pieces

/-- Add the pieces of a list one by one. -/
def addAll (ad : Adder) : Pieces → List (PExpr × Formula) → Except PyErr Pieces
  | P, [] => .ok P
  | P, p :: ps =>
    match ad P p.1 p.2 with
    | .ok P' => addAll ad P' ps
    | .error e => .error e

/-- `PiecewiseFunction.__add__` (/repo/pywmi/engines/xsdd/piecewise.py:32-66). -/
def add (ad : Adder) (F G : Pieces) : Except PyErr Pieces :=
  if F.isEmpty then .ok G
  else if G.isEmpty then .ok F
  else addAll ad [] ((F ++ G).filter fun p => !isFalse p.2 && !p.1.eq .zero)

/-- The expression of a pair of pieces (/repo/pywmi/engines/xsdd/piecewise.py:107-112). -/
def timesExpr (e1 e2 : PExpr) : PExpr :=
  if e1.eq .one then e2 else if e2.eq .one then e1 else e1.times e2

/-- The pieces that `__mul__` adds for one pair (/repo/pywmi/engines/xsdd/piecewise.py:101-114). -/
def mulPair (simp : Formula → Formula) (p q : PExpr × Formula) : List (PExpr × Formula) :=
  let sup := simp (mkAnd [p.2, q.2])
  if !p.1.eq .zero && !q.1.eq .zero && !isFalse sup then
    let e := timesExpr p.1 q.1
    if !e.eq .zero then [(e, sup)] else []
  else []

/-- `PiecewiseFunction.__mul__` (/repo/pywmi/engines/xsdd/piecewise.py:94-116); `itertools.product` runs over the pairs
row by row. -/
def mul (simp : Formula → Formula) (ad : Adder) (F G : Pieces) : Except PyErr Pieces :=
  addAll ad [] (F.flatMap fun p => G.flatMap fun q => mulPair simp p q)

/-- `PiecewiseFunction.__neg__` (/repo/pywmi/engines/xsdd/piecewise.py:118-122): a dictionary comprehension, so a later
equal key overwrites an earlier one. -/
def neg (F : Pieces) : Pieces := F.foldl (fun acc p => acc.set p.1.negate p.2) []

/-- `PiecewiseFunction.condition` (/repo/pywmi/engines/xsdd/piecewise.py:124-128). -/
def condition (F : Pieces) (c : Formula) : Pieces := F.map fun p => (p.1, mkAnd [p.2, c])

/-- `PiecewiseFunction.ite` (/repo/pywmi/engines/xsdd/piecewise.py:136-144). -/
def ite (ad : Adder) (c : Formula) (F G : Pieces) : Except PyErr Pieces :=
  add ad (F.condition c) (G.condition (mkNot c))

/-- `functools.reduce` with an operation that may raise: TypeError on an empty list. -/
def reduce (op : Pieces → Pieces → Except PyErr Pieces) : List Pieces → Except PyErr Pieces
  | [] => .error .typeError
  | F :: Fs => go F Fs
where
  /-- The loop of `reduce`. -/
  go : Pieces → List Pieces → Except PyErr Pieces
  | F, [] => .ok F
  | F, G :: Gs =>
    match op F G with
    | .ok H => go H Gs
    | .error e => .error e

/-- `PiecewiseFunction.symbol` (/repo/pywmi/engines/xsdd/piecewise.py:146-149). -/
def symbol (n : String) : Pieces := [(.poly [([n], 1)], .boolC true)]
/-- `PiecewiseFunction.real` (/repo/pywmi/engines/xsdd/piecewise.py:151-156). -/
def real (q : ℚ) : Pieces := [(.poly (polyConst q), .boolC true)]

end Pieces

open Pieces in
/-- `PiecewiseFunctionConverter` (/repo/pywmi/engines/xsdd/piecewise.py:159-280).  Its `boolean_stack` starts as
`[False]` and only ever gets `False` pushed, and only in Boolean mode (line 240), so the Boolean mode is never entered
and every method requiring it raises ValueError. -/
def pieceW (simp : Formula → Formula) (ad : Adder) : Walker Pieces where
  onAnd _ := .fail .valueError
  onOr _ := .fail .valueError
  onNot _ := .fail .valueError
  onTimes as := .callAll as fun Fs => .ofExcept (reduce (mul simp ad) Fs)
  onPlus as := .callAll as fun Fs => .ofExcept (reduce (add ad) Fs)
  onMinus l r := call2 l r fun F G => add ad F (neg G)
  onIte c t e := call2 t e fun F G => ite ad c F G
  onPow b e := .call b fun F =>
    match e with
    | .realC q =>
      if q.den ≠ 1 then .fail .assertionError
      else if q.num = 0 then .done (real 1)
      else .ofExcept (reduce (mul simp ad) (List.replicate q.num.toNat F))
    | _ => .fail .assertionError
  onLte _ _ := .fail .valueError
  onLt _ _ := .fail .valueError
  onEquals _ _ := .fail .runtimeError
  onSymbol n t := match t with
    | .real => .done (symbol n)
    | .bool => .fail .valueError
  onBool _ := .fail .valueError
  onReal q := .done (real q)

/-- `split_up_function` (/repo/pywmi/engines/xsdd/piecewise.py:283-285). -/
def splitUp (simp : Formula → Formula) (f : Formula) : Except PyErr Pieces :=
  (pieceW simp (Pieces.addPiece simp)).walk f

end Pywmi
