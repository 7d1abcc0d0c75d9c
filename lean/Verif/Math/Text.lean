import Verif.Math.Poly
import Verif.Domain.Domain

/-!
# Texts of polynomials, inequalities and domains

Models the `__str__` methods of /repo/pywmi/smt_math.py:126-132, 216-224 and /repo/pywmi/domain.py:129-132.  `text` is Python's `str` of a number.
-/

namespace Pywmi

/-- One summand of `Polynomial.__str__`: `"*".join(key + (str(value),))` (/repo/pywmi/smt_math.py:128). -/
def polyTermText (text : ℚ → List Char) (e : Mono × ℚ) : List Char := ['*'].intercalate (e.1.map String.toList ++ [text e.2])

/-- `Polynomial.__str__` (/repo/pywmi/smt_math.py:126-129), also `__repr__` (131-132). -/
def polyText (text : ℚ → List Char) (d : Dict) : List Char := [' ', '+', ' '].intercalate (d.map (polyTermText text))

/-- One summand of `LinearInequality.__str__` (/repo/pywmi/smt_math.py:218). -/
def linTermText (text : ℚ → List Char) (e : Mono × ℚ) : List Char := (if e.2 = 1 then [] else text e.2) ++ e.1.flatMap String.toList

/-- `LinearInequality.__str__` (/repo/pywmi/smt_math.py:216-224).  Simplification: a missing constant is printed as the integer 0, here as the
number 0. -/
def linText (text : ℚ → List Char) (d : Dict) : List Char :=
  [' ', '+', ' '].intercalate ((d.filter fun e => e.1 ≠ []).map (linTermText text)) ++ ' ' :: '<' :: ' ' :: text (-linCoef d [])

/-- `str` of a bound, which may be `None`. -/
def boundText (text : ℚ → List Char) : Option ℚ → List Char
  | none => ['N', 'o', 'n', 'e']
  | some q => text q

/-- One variable of `Domain.__str__` (/repo/pywmi/domain.py:131). -/
def domVarText (text : ℚ → List Char) (d : Domain) (v : String) : Except PyErr (List Char) :=
  match d.varTypes.lookup v with
  | none => .error .keyError
  | some .bool => .ok v.toList
  | some .real =>
    match d.varDomains.lookup v with
    | none => .error .keyError
    | some b => .ok (v.toList ++ '[' :: boundText text b.1 ++ ',' :: ' ' :: boundText text b.2 ++ [']'])

/-- `Domain.__str__` (/repo/pywmi/domain.py:129-132). -/
def domText (text : ℚ → List Char) (d : Domain) : Except PyErr (List Char) :=
  match Prog.mapE (domVarText text d) d.vars with
  | .ok ws => .ok ('(' :: [',', ' '].intercalate ws ++ [')'])
  | .error e => .error e

end Pywmi
