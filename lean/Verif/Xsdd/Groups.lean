import Verif.Xsdd.Piecewise
import Verif.Xsdd.Literals

/-!
# Variable groups

Model of `FactorizedXsddEngine.get_variable_groups_poly` (/repo/pywmi/engines/xsdd/engine_factorized.py:353-388) and
`Polynomial.get_terms` (/repo/pywmi/smt_math.py:52-53).
-/

namespace Pywmi

open PExpr

/-- A group: a set of variables (as a list) and a polynomial. -/
abbrev VarGroup := List String × Dict

/-- `Polynomial.variables` (/repo/pywmi/smt_math.py:23-30), as a list without repetition. -/
def polyVars (d : Dict) : List String := (d.flatMap (·.1)).dedup

/-- `Polynomial.get_terms` (/repo/pywmi/smt_math.py:52-53). -/
def getTerms (d : Dict) : List Dict := d.map fun p => [p]

/-- `result[key] *= factor` on the defaultdict (/repo/pywmi/engines/xsdd/engine_factorized.py:373-383). -/
def groupMul (d : List VarGroup) (k : List String) (q : Dict) : List VarGroup :=
  assocSet d k (mulDict ((d.lookup k).getD (polyConst 1)) q)

/-- The groups of a monomial (/repo/pywmi/engines/xsdd/engine_factorized.py:373-384). -/
def monoGroups (p : Mono × ℚ) : List VarGroup :=
  groupMul (p.1.foldl (fun d v => groupMul d [v] [([v], 1)]) []) [] (polyConst p.2)

/-- `get_variable_groups_poly` with an empty list of variables (/repo/pywmi/engines/xsdd/engine_factorized.py:367-384). -/
def ownGroups (d : Dict) : List VarGroup :=
  match d with
  | [] => [([], polyConst 0)]
  | [p] => monoGroups p
  | d => [(polyVars d, d)]

/-- `get_variable_groups_poly` (/repo/pywmi/engines/xsdd/engine_factorized.py:353-388). -/
def varGroups (d : Dict) (reals : List String) : List VarGroup :=
  (reals.filter fun v => v ∉ polyVars d).map (fun v => ([v], polyConst 1)) ++ ownGroups d

end Pywmi
