import Verif.Domain.Domain
import Verif.Smt.Transform

/-!
# The engine base class

Model of /repo/pywmi/engine.py.  An engine object is its domain, support and weight; `compute_volume` of the concrete
class is a parameter `vol`, and `copy` builds an object of the same class with the same options.
-/

namespace Pywmi
open Formula Prog

/-- `Engine` (/repo/pywmi/engine.py:17-23).  The options of the concrete classes are part of `vol`. -/
structure EngineObj where
  domain : Domain
  support : Formula
  weight : Option Formula

namespace EngineObj

/-- `copy_with` (/repo/pywmi/engine.py:57-62): `x or self.x`; formulas and domains are always truthy. -/
def copyWith (e : EngineObj) (domain : Option Domain) (support weight : Option Formula) : EngineObj :=
  ⟨domain.getD e.domain, support.getD e.support, match weight with | some w => some w | none => e.weight⟩

/-- `with_constraint` (/repo/pywmi/engine.py:53-55); `&` is pysmt's infix conjunction. -/
def withConstraint (e : EngineObj) (c : Formula) : EngineObj := e.copyWith none (some (.and [e.support, c])) none

section
variable {K : Type} [Field K] [LinearOrder K]

/-- `compute_probabilities` (/repo/pywmi/engine.py:29-33). -/
def computeProbabilities (vol : EngineObj → Bool → Except PyErr K) (e : EngineObj) (queries : List Formula) (addBounds : Bool) :
    Except PyErr (List (Option K)) :=
  match vol e addBounds with
  | .error err => .error err
  | .ok v =>
    mapE (fun q =>
      if v > 0 then
        match vol (e.withConstraint q) addBounds with
        | .error err => .error err
        | .ok vq => .ok (some (vq / v))
      else .ok none) queries

/-- `compute_probability` (/repo/pywmi/engine.py:35-37). -/
def computeProbability (vol : EngineObj → Bool → Except PyErr K) (e : EngineObj) (query : Formula) (addBounds : Bool) :
    Except PyErr (Option K) :=
  match e.computeProbabilities vol [query] addBounds with
  | .error err => .error err
  | .ok (p :: _) => .ok p
  | .ok [] => .error .indexError

end
end EngineObj

mutual
/-- pysmt's `substitute` of Boolean symbols by Boolean constants, used in /repo/pywmi/engine.py:49-50.  The nodes are
rebuilt by pysmt's formula manager. -/
def Formula.substB (m : String → Option Bool) : Formula → Formula
  | .and as => .and (substBList m as)
  | .or as => .or (substBList m as)
  | .implies l r => .implies (substB m l) (substB m r)
  | .not a => mkNot (substB m a)
  | .times as => .times (substBList m as)
  | .plus as => .plus (substBList m as)
  | .minus l r => .minus (substB m l) (substB m r)
  | .ite c t e => .ite (substB m c) (substB m t) (substB m e)
  | .pow b e => .pow (substB m b) (substB m e)
  | .le l r => .le (substB m l) (substB m r)
  | .lt l r => .lt (substB m l) (substB m r)
  | .equals l r => .equals (substB m l) (substB m r)
  | .iff l r => .iff (substB m l) (substB m r)
  | .sym n .bool => match m n with | some v => .boolC v | none => .sym n .bool
  | .sym n .real => .sym n .real
  | .boolC b => .boolC b
  | .realC q => .realC q
/-- Substitution in a list of arguments. -/
def Formula.substBList (m : String → Option Bool) : List Formula → List Formula
  | [] => []
  | a :: as => substB m a :: substBList m as
end

namespace EngineObj

/-- The assertions of `with_evidence` (/repo/pywmi/engine.py:42-46) for one item, and the name and value.  A real
constant passes the assertions; pysmt then builds an ill-typed formula, which is not modelled (`TypeError`). -/
def evidenceItem : Formula × Formula → Except PyErr (String × Bool)
  | (.sym n .bool, .boolC v) => .ok (n, v)
  | (.sym _ .bool, .realC _) => .error .typeError
  | _ => .error .assertionError

/-- An item of the new type dictionary (/repo/pywmi/engine.py:48). -/
def typeItem (D : Domain) (v : String) : Except PyErr (String × Ty) :=
  match dictGet D.varTypes v with
  | .ok t => .ok (v, t)
  | .error err => .error err

/-- `with_evidence` (/repo/pywmi/engine.py:39-51); `simp` is pysmt's `simplify`. -/
def withEvidence (simp : Formula → Formula) (e : EngineObj) (subs : List (Formula × Formula)) : Except PyErr EngineObj :=
  match mapE evidenceItem subs with
  | .error err => .error err
  | .ok ev =>
    let vars := e.domain.vars.filter fun v => v ∉ ev.map (·.1)
    match mapE (typeItem e.domain) vars with
    | .error err => .error err
    | .ok types =>
      let m := fun n => ev.lookup n
      match e.weight with
      | none => .error .attributeError
      | some w => .ok ⟨⟨vars, types, e.domain.varDomains⟩, e.support.substB m, some (simp (w.substB m))⟩

end EngineObj
end Pywmi
