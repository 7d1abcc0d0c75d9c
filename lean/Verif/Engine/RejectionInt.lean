import Verif.Engine.Convex
import Verif.Sample.Sample

/-!
# The rejection engine as convex integration back-end

Model of `RejectionIntegrator` in /repo/pywmi/engines/rejection.py:115-181.  `scipy.optimize.linprog` and the standard
deviation are parameters.
-/

namespace Pywmi
open Formula Prog

/-- `c` with a single 1 (/repo/pywmi/engines/rejection.py:138-146). -/
def unitVec (n j : ℕ) (a : ℚ) : List ℚ := (List.range n).map fun i => if i = j then a else 0

/-- `a_matrix` (/repo/pywmi/engines/rejection.py:130-134). -/
def lpMatrix (rs : List String) (is : List Dict) : List (List ℚ) := is.map fun d => rs.map fun v => linCoef d [v]
/-- `b_matrix` (/repo/pywmi/engines/rejection.py:131-135). -/
def lpRight (is : List Dict) : List ℚ := is.map linB

/-- `linprog(c, a_matrix, b_matrix).x[j]` (/repo/pywmi/engines/rejection.py:142-144).  `lp` gives the field `x`, `none` for
Python's `None`, whose subscription is a TypeError. -/
def lpEntry (lp : List ℚ → List (List ℚ) → List ℚ → Option (List ℚ)) (c : List ℚ) (A : List (List ℚ)) (b : List ℚ) (j : ℕ) :
    Except PyErr ℚ :=
  match lp c A b with
  | none => .error .typeError
  | some x =>
    match x[j]? with
    | none => .error .indexError
    | some q => .ok q

/-- The interval of a variable (/repo/pywmi/engines/rejection.py:139-147). -/
def lpInterval (lp : List ℚ → List (List ℚ) → List ℚ → Option (List ℚ)) (rs : List String) (is : List Dict) (j : ℕ) :
    Except PyErr (String × Bounds) :=
  match lpEntry lp (unitVec rs.length j 1) (lpMatrix rs is) (lpRight is) j with
  | .error e => .error e
  | .ok l =>
    match lpEntry lp (unitVec rs.length j (-1)) (lpMatrix rs is) (lpRight is) j with
    | .error e => .error e
    | .ok u => .ok (rs.getD j "", some l, some u)

/-- The intervals, `bounding_box == 1` (/repo/pywmi/engines/rejection.py:129-147). -/
def lpBounds (lp : List ℚ → List (List ℚ) → List ℚ → Option (List ℚ)) (rs : List String) (is : List Dict) :
    Except PyErr (List (String × Bounds)) :=
  mapE (lpInterval lp rs is) (List.range rs.length)

/-- The smallest and the largest number of a column that is not empty, after `samples.sort(axis=0)`. -/
def columnEnds (col : List ℚ) : ℚ × ℚ := (col.foldl min (col.headD 0), col.foldl max (col.headD 0))

/-- The intervals from samples, `bounding_box == 2` (/repo/pywmi/engines/rejection.py:148-164).  `std` is the standard
deviation of the gaps of a sorted column.  An array without rows has no row 0, which is an IndexError: the `except` of the
code only catches ValueErrors.  One row has no gaps, which gives not-a-number; `std` is then arbitrary here. -/
def drawnBounds (std : List ℚ → ℚ) (vars : List String) (rows : List (List ℚ)) : Except PyErr (List (String × Bounds)) :=
  if rows = [] then .error .indexError
  else .ok ((List.range vars.length).map fun j =>
    let col := rows.map fun row => row.getD j 0
    (vars.getD j "", some ((columnEnds col).1 - std col), some ((columnEnds col).2 + std col)))

/-- The domain that is sampled (/repo/pywmi/engines/rejection.py:126-168).  `box` is the argument `bounding_box`, `R` the
generator of the integrator. -/
def integratorDomain (lp : List ℚ → List (List ℚ) → List ℚ → Option (List ℚ)) (std : List ℚ → ℚ) (R : Rng ℚ)
    (pypow : ℚ → ℚ → Except PyErr ℚ) (box : ℤ) (n : ℕ) (D : Domain) (f : Formula) (is : List Dict) (s : R.State) :
    Except PyErr Domain :=
  if box > 0 then
    if box = 1 then
      match D.realVars with
      | .error e => .error e
      | .ok rs =>
        match lpBounds lp rs is with
        | .error e => .error e
        | .ok b => .ok ⟨D.vars, D.varTypes, b⟩
    else if box = 2 then
      match drawPositive R pypow D f n s with
      | .error e => .error e
      | .ok (rows, _) =>
        match drawnBounds std D.vars rows with
        | .error e => .error e
        | .ok b => .ok ⟨D.vars, D.varTypes, b⟩
    else .error .valueError
  else .ok D

/-- `RejectionIntegrator.integrate` (/repo/pywmi/engines/rejection.py:123-176).  The engine has a generator of its own, `R'`
with state `s'`. -/
def rejectionIntegrate {K : Type} [Field K] [LinearOrder K] (lp : List ℚ → List (List ℚ) → List ℚ → Option (List ℚ))
    (std : List ℚ → ℚ) (R : Rng ℚ) (powQ : ℚ → ℚ → Except PyErr ℚ) (R' : Rng K) (powK : K → K → Except PyErr K) (box : ℤ) (n : ℕ)
    (D : Domain) (is : List Dict) (p : Dict) (s : R.State) (s' : R'.State) : Except PyErr (K × R'.State) :=
  match mapE linToSmt is with
  | .error e => .error e
  | .ok fs =>
    match integratorDomain lp std R powQ box n D (mkAnd fs) is s with
    | .error e => .error e
    | .ok D' =>
      match polyToSmt p with
      | .error e => .error e
      | .ok w => rejectionVolume R' powK D' (mkAnd fs) (some w) n none s'

end Pywmi
