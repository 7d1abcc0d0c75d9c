import Mathlib.Data.List.Sort
import Mathlib.Tactic.Ring
import Mathlib.Tactic.Linarith
import Mathlib.Tactic.FieldSimp
import Verif.Smt.Walk
import Verif.Smt.Check

/-!
# Polynomials and linear inequalities as dictionaries

Model of /repo/pywmi/smt_math.py: `Polynomial`, `MathDictConverter`, `LinearInequality`,
`BoundsWalker`.  A Python dictionary is an association list in insertion order.  Floats and fractions are
exact rationals (Python: `float(v)`, /repo/pywmi/smt_math.py:18-20).
-/

namespace Pywmi

/-- Key of a polynomial dictionary: a tuple of variable names (/repo/pywmi/smt_math.py:13, `CONST_KEY = ()`). -/
abbrev Mono := List String

/-- `Dict[Tuple[str], float]`. -/
abbrev Dict := List (Mono × ℚ)

/-- `sorted(key1 + key2)` (/repo/pywmi/smt_math.py:104). -/
def sortNames (m : Mono) : Mono := m.insertionSort (· ≤ ·)

/-- Lexicographic order of tuples of strings, as used by `sorted(result.keys())`
(/repo/pywmi/smt_math.py:297). -/
def keyLe : Mono → Mono → Bool
  | [], _ => true
  | _ :: _, [] => false
  | a :: as, b :: bs => if a < b then true else if b < a then false else keyLe as bs

/-- `sorted(d.keys())`. -/
def sortedKeys (d : Dict) : List Mono := (d.map (·.1)).insertionSort (fun a b => keyLe a b)

/-- `result[key] = result.get(key, 0) + value` (/repo/pywmi/smt_math.py:105), which also models lines 91-94. -/
def dictAdd : Dict → Mono → ℚ → Dict
  | [], k, v => [(k, v)]
  | (k', w) :: d, k, v => if k' = k then (k', w + v) :: d else (k', w) :: dictAdd d k v

/-- `Polynomial.dict_plus` (/repo/pywmi/smt_math.py:87-95). -/
def dictPlus (d1 d2 : Dict) : Dict := d2.foldl (fun acc p => dictAdd acc p.1 p.2) d1

/-- Inner loop of `dict_times` for one entry of the first dictionary
(/repo/pywmi/smt_math.py:101-105). -/
def dictTimesRow (forceLinear : Bool) (k1 : Mono) (v1 : ℚ) : Dict → Dict → Except PyErr Dict
  | [], acc => .ok acc
  | (k2, v2) :: d2, acc =>
    if k1 ≠ [] ∧ k2 ≠ [] ∧ forceLinear = true then .error .valueError
    else dictTimesRow forceLinear k1 v1 d2 (dictAdd acc (sortNames (k1 ++ k2)) (v1 * v2))

/-- Outer loop of `dict_times`. -/
def dictTimesAux (forceLinear : Bool) : Dict → Dict → Dict → Except PyErr Dict
  | [], _, acc => .ok acc
  | (k1, v1) :: d1, d2, acc =>
    match dictTimesRow forceLinear k1 v1 d2 acc with
    | .ok acc' => dictTimesAux forceLinear d1 d2 acc'
    | .error e => .error e

/-- `Polynomial.dict_times` (/repo/pywmi/smt_math.py:97-106). -/
def dictTimes (forceLinear : Bool) (d1 d2 : Dict) : Except PyErr Dict :=
  dictTimesAux forceLinear d1 d2 []

/-- `{name: -value for ...}` (/repo/pywmi/smt_math.py:256, 268). -/
def dictNeg (d : Dict) : Dict := d.map fun p => (p.1, -p.2)

/-- `functools.reduce(dict_plus, list)`: TypeError on an empty list. -/
def reducePlus : List Dict → Except PyErr Dict
  | [] => .error .typeError
  | d :: ds => .ok (ds.foldl dictPlus d)

/-- Left fold of `dict_times`. -/
def timesFold (forceLinear : Bool) : Dict → List Dict → Except PyErr Dict
  | acc, [] => .ok acc
  | acc, d :: ds =>
    match dictTimes forceLinear acc d with
    | .ok acc' => timesFold forceLinear acc' ds
    | .error e => .error e

/-- `functools.reduce(dict_times, list)`. -/
def reduceTimes (forceLinear : Bool) : List Dict → Except PyErr Dict
  | [] => .error .typeError
  | d :: ds => timesFold forceLinear d ds

/-- The loop `for _ in range(exponent - 1)` of `walk_pow` (/repo/pywmi/smt_math.py:289-292). -/
def powLoop (forceLinear : Bool) (base : Dict) : ℕ → Dict → Except PyErr Dict
  | 0, acc => .ok acc
  | n + 1, acc =>
    match dictTimes forceLinear acc base with
    | .ok acc' => powLoop forceLinear base n acc'
    | .error e => .error e

/-- The factor search of `walk_lte` (/repo/pywmi/smt_math.py:296-300). -/
def firstFactor (d : Dict) : List Mono → Option ℚ
  | [] => none
  | k :: ks =>
    match d.lookup k with
    | some v => if v ≠ 0 then some |v| else firstFactor d ks
    | none => firstFactor d ks

/-- The body of `walk_lte` after walking both sides (/repo/pywmi/smt_math.py:294-304). -/
def lteDict (l r : Dict) : Dict :=
  let result := dictPlus l (dictNeg r)
  match firstFactor result (sortedKeys result) with
  | none => [([], 0)]
  | some f => result.map fun p => (p.1, p.2 / f)

/-- `MathDictConverter` (/repo/pywmi/smt_math.py:241-326). -/
def mathDictW (forceLinear : Bool) : Walker Dict where
  onAnd _ := .fail .valueError
  onOr _ := .fail .valueError
  onNot a := .call a fun d => .done (dictNeg d)
  onTimes as := .callAll as fun ds => .ofExcept (reduceTimes forceLinear ds)
  onPlus as := .callAll as fun ds => .ofExcept (reducePlus ds)
  onMinus l r := call2 l r fun a b => .ok (dictPlus a (dictNeg b))
  onIte _ _ _ := .fail .valueError
  onPow b e :=
    match e with
    | .realC q =>
      if q.den ≠ 1 then .fail .valueError
      else if q.num ≠ 1 ∧ forceLinear = true then .fail .valueError
      else .call b fun d => .ofExcept (powLoop forceLinear d (q.num - 1).toNat d)
    | _ => .fail .assertionError
  onLte l r := call2 l r fun a b => .ok (lteDict a b)
  onLt l r := call2 l r fun a b => .ok (lteDict a b)
  onEquals _ _ := .fail .valueError
  onSymbol n t := match t with
    | .real => .done [([n], 1)]
    | .bool => .fail .valueError
  onBool _ := .fail .valueError
  onReal q := .done [([], q)]

/-- `MathDictConverter(force_linear).walk_smt(formula)`. -/
def mathDict (forceLinear : Bool) (f : Formula) : Except PyErr Dict := (mathDictW forceLinear).walk f

/-- `Polynomial.from_smt` (/repo/pywmi/smt_math.py:108-112): zero coefficients are dropped. -/
def polyFromSmt (f : Formula) : Except PyErr Dict :=
  match mathDict false f with
  | .ok d => .ok (d.filter fun p => p.2 ≠ 0)
  | .error e => .error e

/-- `Polynomial.__add__` (/repo/pywmi/smt_math.py:55-64) on two polynomials. -/
def polyAdd (p q : Dict) : Dict := dictPlus p q

/-- `Polynomial.__mul__` (/repo/pywmi/smt_math.py:71-80) on two polynomials. -/
def polyMul (p q : Dict) : Except PyErr Dict := dictTimes false p q

/-- `Polynomial.from_constant` (/repo/pywmi/smt_math.py:114-116), also used for number operands (lines 56-57,
72-73). -/
def polyConst (c : ℚ) : Dict := [([], c)]

/-- One summand of `Polynomial.to_smt` (/repo/pywmi/smt_math.py:32-40). -/
def polyTermSmt (p : Mono × ℚ) : Except PyErr Formula :=
  match (if p.1 = [] then .ok (.realC 1) else mkTimes (p.1.map fun n => .sym n .real)) with
  | .ok t => .ok (if p.2 ≠ 1 then .times [t, .realC p.2] else t)
  | .error e => .error e

/-- `Polynomial.to_smt` (/repo/pywmi/smt_math.py:32-40).  The empty polynomial calls `Plus()`, which is
modelled as an exception. -/
def polyToSmt (d : Dict) : Except PyErr Formula :=
  match Prog.mapE polyTermSmt d with
  | .ok ts => mkPlus ts
  | .error e => .error e

/-- `Polynomial.get_terms` (/repo/pywmi/smt_math.py:52-53). -/
def polyTerms (d : Dict) : List Dict := d.map fun p => [p]

/-- `Polynomial.__eq__` (/repo/pywmi/smt_math.py:123-124): dictionary equality (order of insertion is
irrelevant). -/
def polyEq (p q : Dict) : Bool :=
  p.all (fun e => q.lookup e.1 = some e.2) && q.all (fun e => p.lookup e.1 = some e.2)

/-! ### Linear inequalities -/

/-- `LinearInequality.__init__` (/repo/pywmi/smt_math.py:147-148): drop zero coefficients. -/
def linMk (d : Dict) : Dict := d.filter fun p => p.2 ≠ 0

/-- `LinearInequality.from_smt` (/repo/pywmi/smt_math.py:163-165). -/
def linFromSmt (f : Formula) : Except PyErr Dict :=
  match mathDict true f with
  | .ok d => .ok (linMk d)
  | .error e => .error e

/-- `LinearInequality.coefficient` (/repo/pywmi/smt_math.py:154-155). -/
def linCoef (d : Dict) (k : Mono) : ℚ := (d.lookup k).getD 0

/-- `LinearInequality.b` (/repo/pywmi/smt_math.py:160-161). -/
def linB (d : Dict) : ℚ := -linCoef d []

/-- `LinearInequality.variables` (/repo/pywmi/smt_math.py:150-152), as a list. -/
def linVars (d : Dict) : List String := d.flatMap (·.1)

/-- One summand of `LinearInequality.to_smt` (/repo/pywmi/smt_math.py:173-176). -/
def linTermSmt (p : Mono × ℚ) : Except PyErr Formula :=
  match mkTimes (p.1.map fun n => .sym n .real) with
  | .ok t => .ok (if p.2 ≠ 1 then .times [t, .realC p.2] else t)
  | .error e => .error e

/-- `LinearInequality.to_smt` (/repo/pywmi/smt_math.py:167-179). -/
def linToSmt (d : Dict) : Except PyErr Formula :=
  if d.length = 0 then .ok (.le (.realC 0) (.realC 0))
  else if d.length = 1 ∧ (d.lookup []).isSome then .ok (.le (.realC 0) (.realC (-linCoef d [])))
  else
    match Prog.mapE linTermSmt (d.filter fun p => p.1 ≠ []) with
    | .ok ts =>
      match mkPlus ts with
      | .ok s => .ok (.lt s (.realC (-linCoef d [])))
      | .error e => .error e
    | .error e => .error e

/-- `LinearInequality.normalize` (/repo/pywmi/smt_math.py:226-235). -/
def linNormalize (d : Dict) : Dict :=
  if d.length = 0 then d
  else
    let factor := (d.map fun p => |p.2|).foldl max 0
    if factor = 0 then d else linMk (d.map fun p => (p.1, p.2 / factor))

/-- `LinearInequality.inverted` (/repo/pywmi/smt_math.py:237-238). -/
def linInverted (d : Dict) : Dict := linMk (d.map fun p => (p.1, -p.2))

/-- `LinearInequality.lcm` (/repo/pywmi/smt_math.py:196-198); the float division is idealised as an exact one,
`int` truncates. -/
def linLcm (a b : ℕ) : ℕ := a * b / Nat.gcd a b

/-- `LinearInequality.scale_to_integer` (/repo/pywmi/smt_math.py:200-214).
Simplification: `limit_denominator` is the identity (it is for denominators up to 10^6).  `reduce` on an empty
list raises TypeError. -/
def linScaleToInteger (d : Dict) : Except PyErr Dict :=
  match d with
  | [] => .error .typeError
  | p :: ps =>
    let lcm := (ps.map fun q => q.2.den).foldl linLcm p.2.den
    let scaled := d.map fun q => (q.1, q.2 * (lcm : ℚ))
    match scaled.map fun q => q.2.num.natAbs with
    | [] => .error .typeError
    | n :: ns =>
      let gcd := ns.foldl Nat.gcd n
      if gcd = 0 then .error .zeroDivision
      else .ok (linMk (scaled.map fun q => (q.1, (((q.2 / (gcd : ℚ)).num.tdiv (q.2 / (gcd : ℚ)).den : ℤ) : ℚ))))

/-! ### The value of a dictionary -/

section
variable {K : Type} [Field K]
/-- SPEC: value of a monomial. -/
def monoEval (ρ : String → K) (m : Mono) : K := (m.map ρ).prod
/-- SPEC: value of a polynomial: sum of coefficient times monomial. -/
def polyEval (ρ : String → K) (d : Dict) : K := (d.map fun p => (p.2 : K) * monoEval ρ p.1).sum
end

end Pywmi
