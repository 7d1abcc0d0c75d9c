import Verif.Domain.Domain
import Verif.Algebra.Backend

/-!
# Integration of polynomials over several variables

Model of the methods `integrate_poly` of /repo/pywmi/engines/algebraic_backend.py.
-/

namespace Pywmi

/-- What `SympyAlgebra` uses of sympy: `sympy.poly(e, x).integrate()`, `subs` and `-`.  `sympy.poly` raises for expressions that are no
polynomials. -/
structure SympyLib (E : Type) where
  antiderivative : E → String → Except PyErr E
  subs : E → String → E → E
  sub : E → E → E

section
variable {E : Type}

/-- `SympyAlgebra.integrate_single` (/repo/pywmi/engines/algebraic_backend.py:186-190). -/
def sympySingle (L : SympyLib E) (e : E) (x : String) (lb ub : E) : Except PyErr E :=
  match L.antiderivative e x with
  | .error err => .error err
  | .ok integrated => .ok (L.sub (L.subs integrated x ub) (L.subs integrated x lb))

/-- `SympyAlgebra.integrate_poly` (/repo/pywmi/engines/algebraic_backend.py:175-183); `sympy.S(name)` is the name. -/
def sympyIntegratePoly (L : SympyLib E) : E → List String → List (String × (E × E)) → Except PyErr E
  | e, [], _ => .ok e
  | e, v :: vs, bounds =>
    match dictGet bounds v with
    | .error err => .error err
    | .ok (lb, ub) =>
      match sympySingle L e v lb ub with
      | .error err => .error err
      | .ok e' => sympyIntegratePoly L e' vs bounds

/-- `PsiPolynomialAlgebra.integrate_poly` (/repo/pywmi/engines/algebraic_backend.py:302-313); `integ` is the method `integrate` of PSI's
polynomials.  The cache that is handed to PSI is left out. -/
def psiIntegratePoly (integ : E → String → E → E → Except PyErr E) : E → List String → List (String × (E × E)) → Except PyErr E
  | e, [], _ => .ok e
  | e, v :: vs, bounds =>
    match dictGet bounds v with
    | .error err => .error err
    | .ok (lb, ub) =>
      match integ e v lb ub with
      | .error err => .error err
      | .ok e' => psiIntegratePoly integ e' vs bounds

/-- The loop that multiplies with the bounds (/repo/pywmi/engines/algebraic_backend.py:112-119). -/
def multBounds (A : Algebra E) : E → List String → List (String × (E × E)) → Except PyErr E
  | e, [], _ => .ok e
  | e, v :: vs, bounds =>
    match dictGet bounds v with
    | .error err => .error err
    | .ok (lb, ub) =>
      multBounds A (A.times (A.lessThanEqual (A.symbol v) ub) (A.times (A.greaterThanEqual (A.symbol v) lb) e)) vs bounds

/-- `PsiPiecewisePolynomialAlgebra.integrate` (/repo/pywmi/engines/algebraic_backend.py:240-244); `integ` is the method `integrate` of PSI's
piecewise polynomials. -/
def psiIntegrate (integ : E → String → Except PyErr E) : E → List String → Except PyErr E
  | e, [] => .ok e
  | e, v :: vs =>
    match integ e v with
    | .error err => .error err
    | .ok e' => psiIntegrate integ e' vs

/-- `IntegrationBackend.integrate_poly` (/repo/pywmi/engines/algebraic_backend.py:109-122); `flat` is `get_flat_expression`. -/
def indicatorIntegratePoly (A : Algebra E) (integ : E → String → Except PyErr E) (flat : E → E) (e : E) (vs : List String) (bounds : List (String × (E × E))) :
    Except PyErr E :=
  match multBounds A e vs bounds with
  | .error err => .error err
  | .ok b =>
    match psiIntegrate integ b vs with
    | .error err => .error err
    | .ok r => .ok (flat r)

end
end Pywmi
