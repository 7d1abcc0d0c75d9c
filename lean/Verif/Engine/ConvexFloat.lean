import Verif.Engine.Convex
import Verif.Math.ScaleFloat

/-!
# The LattE back-end with Python's numbers (/repo/pywmi/engines/latte_backend.py:50-88)

As `Latte.integrate` (Engine/Convex.lean), but with the scaling of Math/ScaleFloat.lean and with `limit_denominator` for the polynomial.
-/

namespace Pywmi
namespace Latte

/-- The list `monomials` (/repo/pywmi/engines/latte_backend.py:59-60); `lim` is `Fraction(value).limit_denominator()`. -/
def monomialsFloat (lim : ℚ → ℚ) (vars : List String) (poly : Dict) : List (ℚ × List ℕ) :=
  poly.map fun p => (lim p.2, latteExponents vars p.1)

/-- The loop over the bounds (/repo/pywmi/engines/latte_backend.py:52-57). -/
def prepareFloat (lim : ℚ → ℚ) (vars : List String) : Formula → List (List ℚ) → List Dict → Except PyErr (Formula × List (List ℚ))
  | f, rows, [] => .ok (f, rows)
  | f, rows, d :: ds =>
    match scaleFloat lim d with
    | .error e => .error e
    | .ok i =>
      match linToSmt i with
      | .error e => .error e
      | .ok g => prepareFloat lim vars (.and [f, g]) (rows ++ [linB i :: vars.map fun v => -linCoef i [v]]) ds

/-- `LatteIntegrator.integrate` (/repo/pywmi/engines/latte_backend.py:50-88), see `Latte.integrate`. -/
def integrateFloat (lim : ℚ → ℚ) (run : List Char → List Char → Option (List Char)) (sat : Formula → Bool) (D : Domain) (bounds : List Dict)
    (p : Dict) : Except PyErr ℚ :=
  match D.realVars with
  | .error e => .error e
  | .ok vars =>
    match prepareFloat lim vars (.boolC true) [] bounds with
    | .error e => .error e
    | .ok (f, rows) =>
      match run (polyText (monomialsFloat lim vars p)) (hrepText vars.length rows) with
      | none => if sat f then .error .other else .ok 0
      | some out => readAnswer out

end Latte
end Pywmi
