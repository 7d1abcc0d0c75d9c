import Verif.Math.Poly

/-!
# Polynomials with rounded coefficients (/repo/pywmi/smt_math.py:87-112, 241-326)

`mathDict` (Math/Poly.lean) computes exactly.  In Python constants are turned into floats and sums, products and quotients of floats are rounded: `rd` is
that rounding.  Simplified: the coefficient 1 of a symbol is an int in Python and stays one until it meets a float; here it is treated as a float.
Infinities and NaN are left out.
-/

namespace Pywmi

/-- `result[key] = result.get(key, 0) + value` on floats (/repo/pywmi/smt_math.py:91-94, 105). -/
def dictAddFloat (rd : ℚ → ℚ) : Dict → Mono → ℚ → Dict
  | [], k, v => [(k, v)]
  | (k', w) :: d, k, v => if k' = k then (k', rd (w + v)) :: d else (k', w) :: dictAddFloat rd d k v

/-- `Polynomial.dict_plus` on floats (/repo/pywmi/smt_math.py:87-95). -/
def dictPlusFloat (rd : ℚ → ℚ) (d1 d2 : Dict) : Dict := d2.foldl (fun acc p => dictAddFloat rd acc p.1 p.2) d1

/-- Inner loop of `dict_times` on floats (/repo/pywmi/smt_math.py:101-105). -/
def dictTimesRowFloat (rd : ℚ → ℚ) (forceLinear : Bool) (k1 : Mono) (v1 : ℚ) : Dict → Dict → Except PyErr Dict
  | [], acc => .ok acc
  | (k2, v2) :: d2, acc =>
    if k1 ≠ [] ∧ k2 ≠ [] ∧ forceLinear = true then .error .valueError
    else dictTimesRowFloat rd forceLinear k1 v1 d2 (dictAddFloat rd acc (sortNames (k1 ++ k2)) (rd (v1 * v2)))

/-- Outer loop of `dict_times` on floats (/repo/pywmi/smt_math.py:100-105). -/
def dictTimesAuxFloat (rd : ℚ → ℚ) (forceLinear : Bool) : Dict → Dict → Dict → Except PyErr Dict
  | [], _, acc => .ok acc
  | (k1, v1) :: d1, d2, acc =>
    match dictTimesRowFloat rd forceLinear k1 v1 d2 acc with
    | .ok acc' => dictTimesAuxFloat rd forceLinear d1 d2 acc'
    | .error e => .error e

/-- `Polynomial.dict_times` on floats (/repo/pywmi/smt_math.py:97-106). -/
def dictTimesFloat (rd : ℚ → ℚ) (forceLinear : Bool) (d1 d2 : Dict) : Except PyErr Dict := dictTimesAuxFloat rd forceLinear d1 d2 []

/-- `reduce(Polynomial.dict_plus, …)` (/repo/pywmi/smt_math.py:252). -/
def reducePlusFloat (rd : ℚ → ℚ) : List Dict → Except PyErr Dict
  | [] => .error .typeError
  | d :: ds => .ok (ds.foldl (dictPlusFloat rd) d)

/-- Left fold of `dict_times` on floats (/repo/pywmi/smt_math.py:261-264). -/
def timesFoldFloat (rd : ℚ → ℚ) (forceLinear : Bool) : Dict → List Dict → Except PyErr Dict
  | acc, [] => .ok acc
  | acc, d :: ds =>
    match dictTimesFloat rd forceLinear acc d with
    | .ok acc' => timesFoldFloat rd forceLinear acc' ds
    | .error e => .error e

/-- `reduce(partial(Polynomial.dict_times, …), …)` (/repo/pywmi/smt_math.py:261-264). -/
def reduceTimesFloat (rd : ℚ → ℚ) (forceLinear : Bool) : List Dict → Except PyErr Dict
  | [] => .error .typeError
  | d :: ds => timesFoldFloat rd forceLinear d ds

/-- The loop of `walk_pow` on floats (/repo/pywmi/smt_math.py:289-292). -/
def powLoopFloat (rd : ℚ → ℚ) (forceLinear : Bool) (base : Dict) : ℕ → Dict → Except PyErr Dict
  | 0, acc => .ok acc
  | n + 1, acc =>
    match dictTimesFloat rd forceLinear acc base with
    | .ok acc' => powLoopFloat rd forceLinear base n acc'
    | .error e => .error e

/-- `walk_lte` on floats (/repo/pywmi/smt_math.py:294-304). -/
def lteDictFloat (rd : ℚ → ℚ) (l r : Dict) : Dict :=
  let result := dictPlusFloat rd l (dictNeg r)
  match firstFactor result (sortedKeys result) with
  | none => [([], 0)]
  | some f => result.map fun p => (p.1, rd (p.2 / f))

/-- `MathDictConverter` on floats (/repo/pywmi/smt_math.py:241-326).  The exponent goes through `float` (line 274). -/
def mathDictFloatW (rd : ℚ → ℚ) (forceLinear : Bool) : Walker Dict where
  onAnd _ := .fail .valueError
  onOr _ := .fail .valueError
  onNot a := .call a fun d => .done (dictNeg d)
  onTimes as := .callAll as fun ds => .ofExcept (reduceTimesFloat rd forceLinear ds)
  onPlus as := .callAll as fun ds => .ofExcept (reducePlusFloat rd ds)
  onMinus l r := call2 l r fun a b => .ok (dictPlusFloat rd a (dictNeg b))
  onIte _ _ _ := .fail .valueError
  onPow b e :=
    match e with
    | .realC q =>
      if (rd q).den ≠ 1 then .fail .valueError
      else if (rd q).num ≠ 1 ∧ forceLinear = true then .fail .valueError
      else .call b fun d => .ofExcept (powLoopFloat rd forceLinear d ((rd q).num - 1).toNat d)
    | _ => .fail .assertionError
  onLte l r := call2 l r fun a b => .ok (lteDictFloat rd a b)
  onLt l r := call2 l r fun a b => .ok (lteDictFloat rd a b)
  onEquals _ _ := .fail .valueError
  onSymbol n t := match t with
    | .real => .done [([n], 1)]
    | .bool => .fail .valueError
  onBool _ := .fail .valueError
  onReal q := .done [([], rd q)]

/-- `MathDictConverter(force_linear).walk_smt(formula)` on floats (/repo/pywmi/smt_math.py:241-326). -/
def mathDictFloat (rd : ℚ → ℚ) (forceLinear : Bool) (f : Formula) : Except PyErr Dict := (mathDictFloatW rd forceLinear).walk f

/-- `Polynomial.from_smt` on floats (/repo/pywmi/smt_math.py:108-112). -/
def polyFromSmtFloat (rd : ℚ → ℚ) (f : Formula) : Except PyErr Dict :=
  match mathDictFloat rd false f with
  | .ok d => .ok (d.filter fun p => p.2 ≠ 0)
  | .error e => .error e

end Pywmi
