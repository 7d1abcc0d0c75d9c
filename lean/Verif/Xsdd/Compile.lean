import Verif.Xsdd.Sdd
import Verif.Xsdd.Vtree
import Verif.Xsdd.Literals
import Verif.Algebra.Backend
import Mathlib.Data.Finset.Card

/-!
# Compiling formulas to SDDs and the semirings of the XSDD engine

Model of /repo/pywmi/engines/xsdd/smt_to_sdd.py and of the two semirings of /repo/pywmi/engines/xsdd/engine.py.
-/

namespace Pywmi
open Formula

/-- The operations of the external `SddManager` that the code calls
(/repo/pywmi/engines/xsdd/smt_to_sdd.py:44, 48, 51, 57-60, 64, 69-71). -/
structure SddManager where
  conjoin : Sdd → Sdd → Sdd
  disjoin : Sdd → Sdd → Sdd
  negate : Sdd → Sdd

/-- `functools.reduce(op, converted)`: a TypeError for an empty list. -/
def reduceSdd (op : Sdd → Sdd → Sdd) : List Sdd → Except PyErr Sdd
  | [] => .error .typeError
  | s :: ss => .ok (ss.foldl op s)

/-- `SddConversionWalker` (/repo/pywmi/engines/xsdd/smt_to_sdd.py:30-92).  `raise NotImplemented()` is a TypeError. -/
def sddW (M : SddManager) (varnums : List (String × ℕ)) : Walker Sdd where
  onAnd as := .callAll as fun rs => .ofExcept (reduceSdd M.conjoin rs)
  onOr as := .callAll as fun rs => .ofExcept (reduceSdd M.disjoin rs)
  onNot a := .call a fun r => .done (M.negate r)
  onIte c t e := .call c fun c => .call t fun t => .call e fun e =>
    .done (M.disjoin (M.conjoin c t) (M.conjoin (M.negate c) e))
  onSymbol n ty :=
    if ty = .bool then
      match varnums.lookup n with
      | some k => .done (.lit k)
      | none => .fail .keyError
    else .fail .assertionError
  onBool b := .done (if b then .tt else .ff)
  onReal _ := .fail .assertionError
  onTimes _ := .fail .typeError
  onPlus _ := .fail .typeError
  onMinus _ _ := .fail .typeError
  onPow _ _ := .fail .typeError
  onLte _ _ := .fail .typeError
  onLt _ _ := .fail .typeError
  onEquals _ _ := .fail .typeError

/-- `compile_to_sdd` (/repo/pywmi/engines/xsdd/smt_to_sdd.py:127-148) for a vtree (given by the caller or by `bami`).
`mgr` is the external `SddManager.from_vtree`. -/
def compileToSdd (mgr : Vtree.Export → SddManager) (f : Formula) (L : LiteralInfo) (vt : Except PyErr (Vtree String)) :
    Except PyErr Sdd :=
  match vt with
  | .error e => .error e
  | .ok t =>
    match t.toPysdd L.numbered with
    | .error e => .error e
    | .ok ex => (cwalk (sddW (mgr ex) L.numbered).dispatch msize id f []).1

/-- `PySmtConversion.positive_weight` (/repo/pywmi/engines/xsdd/smt_to_sdd.py:115-119). The value is a formula or a
string; a string that is not in `booleans` would be returned as it is and fail later (TypeError). -/
def litFormula (L : LiteralInfo) (n : ℕ) : Except PyErr Formula :=
  match L.invNumbered.lookup n with
  | none => .error .keyError
  | some lit =>
    match L.getItem lit with
    | .error e => .error e
    | .ok (.bool name) => if name ∈ L.booleans.map (·.1) then .ok (.sym name .bool) else .error .typeError
    | .ok (.atom f) => .ok f

/-- `PySmtConversion` (/repo/pywmi/engines/xsdd/smt_to_sdd.py:95-119). -/
def smtSemi (L : LiteralInfo) : Semi Formula where
  one := .boolC true
  zero := .boolC false
  times a b := .ok (mkAnd [a, b])
  plus a b := .ok (mkOr [a, b])
  weight := Semi.signed (litFormula L) mkNot

/-- `recover_formula` (/repo/pywmi/engines/xsdd/smt_to_sdd.py:151-160); `simp` is pysmt's simplifier. -/
def recoverFormula (simp : Formula → Formula) (s : Sdd) (L : LiteralInfo) (simplify : Bool) : Except PyErr Formula :=
  match (smtSemi L).amc s with
  | .ok f => .ok (if simplify then simp f else f)
  | .error e => .error e

/-! ### The semirings of the engine -/

/-- What a literal stands for: `self.literals[self.literals.inv_numbered[abs(a)]]`
(/repo/pywmi/engines/xsdd/engine.py:67-68, 114-115). -/
def litValue (L : LiteralInfo) (n : ℕ) : Except PyErr LitVal :=
  match L.invNumbered.lookup n with
  | none => .error .keyError
  | some lit => L.getItem lit

/-- `ConvexWMISemiring.weight` (/repo/pywmi/engines/xsdd/engine.py:66-74). -/
def convexWeight (L : LiteralInfo) (a : ℤ) : Except PyErr (List (Formula × Finset String)) :=
  match litValue L a.natAbs with
  | .error e => .error e
  | .ok (.bool name) => .ok [(.boolC true, {name})]
  | .ok (.atom f) => .ok [(if a < 0 then mkNot f else f, ∅)]

/-- `ConvexWMISemiring.times` (/repo/pywmi/engines/xsdd/engine.py:53-58). -/
def convexTimes (a b : List (Formula × Finset String)) : List (Formula × Finset String) :=
  a.flatMap fun p => b.map fun q => (mkAnd [p.1, q.1], p.2 ∪ q.2)

/-- `ConvexWMISemiring` (/repo/pywmi/engines/xsdd/engine.py:43-77). -/
def convexSemi (L : LiteralInfo) : Semi (List (Formula × Finset String)) where
  one := [(.boolC true, ∅)]
  zero := []
  times a b := .ok (convexTimes a b)
  plus a b := .ok (a ++ b)
  weight := convexWeight L

/-- `algebra.power(algebra.real(2), n)` for a non-negative number `n`. -/
def boolWorlds {E : Type} (A : Algebra E) (n : ℕ) : Except PyErr E := A.power (A.real 2) n

/-- `NonConvexWMISemiring.plus` (/repo/pywmi/engines/xsdd/engine.py:94-108); `FactorizedIntegrator.plus`
(/repo/pywmi/engines/xsdd/engine_factorized.py:121-134) is the same code. -/
def smoothPlus {E : Type} (A : Algebra E) (a b : E × Finset String) : Except PyErr (E × Finset String) :=
  if a.2.card = b.2.card then .ok (A.plus a.1 b.1, a.2 ∪ b.2)
  else
    match boolWorlds A (b.2 \ a.2).card with
    | .error e => .error e
    | .ok wa =>
      match boolWorlds A (a.2 \ b.2).card with
      | .error e => .error e
      | .ok wb => .ok (A.plus (A.times a.1 wa) (A.times b.1 wb), a.2 ∪ b.2)

/-- `NonConvexWMISemiring.weight` (/repo/pywmi/engines/xsdd/engine.py:113-124). -/
def nonConvexWeight {E : Type} (A : Algebra E) (L : LiteralInfo) (a : ℤ) : Except PyErr (E × Finset String) :=
  match litValue L a.natAbs with
  | .error e => .error e
  | .ok (.bool name) => .ok (A.one, {name})
  | .ok (.atom f) =>
    match linFromSmt (if a < 0 then mkNot f else f) with
    | .error e => .error e
    | .ok d => .ok (linToExpr A d, ∅)

/-- `NonConvexWMISemiring` (/repo/pywmi/engines/xsdd/engine.py:80-127). -/
def nonConvexSemi {E : Type} (A : Algebra E) (L : LiteralInfo) : Semi (E × Finset String) where
  one := (A.one, ∅)
  zero := (A.zero, ∅)
  times a b := .ok (A.times a.1 b.1, a.2 ∪ b.2)
  plus := smoothPlus A
  weight := nonConvexWeight A L

/-! ### Labels -/

/-- `get_bool_label` (/repo/pywmi/engines/xsdd/smt_to_sdd.py:166-171). -/
def getBoolLabel : Formula → Option (String × Formula × Formula)
  | .ite (.sym n .bool) t e => some (n, t, e)
  | _ => none

/-- The loop of `extract_labels_and_weight` (/repo/pywmi/engines/xsdd/smt_to_sdd.py:178-186). -/
def labelLoop : List Formula → List (String × Formula × Formula) → List Formula →
    List (String × Formula × Formula) × List Formula
  | [], labels, terms => (labels, terms)
  | a :: as, labels, terms =>
    match getBoolLabel a with
    | some (n, t, e) => labelLoop as (assocSet labels n (t, e)) terms
    | none => labelLoop as labels (terms ++ [a])

/-- `extract_labels_and_weight` (/repo/pywmi/engines/xsdd/smt_to_sdd.py:177-189). -/
def extractLabels : Formula → Except PyErr (List (String × Formula × Formula) × Formula)
  | .times as =>
    match mkTimes (labelLoop as [] []).2 with
    | .ok w => .ok ((labelLoop as [] []).1, w)
    | .error e => .error e
  | w => .ok ([], w)

end Pywmi
