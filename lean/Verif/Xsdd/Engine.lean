import Verif.Xsdd.Compile
import Verif.Xsdd.IntTree
import Verif.Xsdd.Piecewise
import Verif.Engine.Engine
import Mathlib.Data.Real.Basic

/-!
# The XSDD engine

Model of `BoundsWalker` (/repo/pywmi/smt_math.py:329-401) and of `BaseXsddEngine` and `XsddEngine`
(/repo/pywmi/engines/xsdd/engine.py:130-386).
-/

namespace Pywmi
open Formula Prog

/-! ### Collecting inequalities -/

/-- Union of two Python sets, as lists without repetition. -/
def setUnion (a b : List Formula) : List Formula := a ++ b.filter fun x => x ∉ a

/-- `BoundsWalker.collect` after the recursive calls (/repo/pywmi/smt_math.py:333-338). -/
def collectSets : List (List Formula) → Except PyErr (List Formula)
  | [] => .error .indexError
  | s :: ss => .ok (ss.foldl setUnion s)

/-- `BoundsWalker` (/repo/pywmi/smt_math.py:329-396); sets of formulas are lists without repetition. -/
def boundsW (allowOr : Bool) : Walker (List Formula) where
  onAnd as := .callAll as fun rs => .ofExcept (collectSets rs)
  onOr as := if allowOr then .callAll as fun rs => .ofExcept (collectSets rs) else .fail .valueError
  onPlus _ := if allowOr then .done [] else .fail .valueError
  onMinus _ _ := if allowOr then .done [] else .fail .valueError
  onTimes _ := if allowOr then .done [] else .fail .valueError
  onNot a := .call a fun s => .done (s.map mkNot).dedup
  onIte _ _ _ := .fail .valueError
  onPow _ _ := .fail .valueError
  onLte l r := .done [.lt l r]
  onLt l r := .done [.lt l r]
  onEquals _ _ := .fail .valueError
  onSymbol _ ty := if !allowOr && ty != .bool then .fail .valueError else .done []
  onBool _ := .done []
  onReal _ := if !allowOr then .fail .valueError else .done []

/-- `BoundsWalker.get_inequalities` (/repo/pywmi/smt_math.py:398-401).  `ord` is the order in which Python lists the
elements of a set. -/
def getInequalities (ord : List Formula → List Formula) (f : Formula) : Except PyErr (List Dict) :=
  match (boundsW false).walk f with
  | .error e => .error e
  | .ok s => mapE linFromSmt (ord s)

/-- A loop that may raise. -/
def foldE {α β : Type} (f : β → α → Except PyErr β) : β → List α → Except PyErr β
  | b, [] => .ok b
  | b, a :: as =>
    match f b a with
    | .error e => .error e
    | .ok b' => foldE f b' as

/-- The external parts and options of an engine object (/repo/pywmi/engines/xsdd/engine.py:131-161, 282-307). -/
structure XsddOpts (E : Type) where
  /-- pysmt's simplifier -/
  simp : Formula → Formula
  /-- `SddManager.from_vtree` of pysdd -/
  mgr : Vtree.Export → SddManager
  /-- orders of Python sets of variables and ties in `bami` -/
  ord : List String → List String
  tie : List String → List String
  /-- order of Python sets of inequalities -/
  setOrd : List Formula → List Formula
  /-- `self.algebra` -/
  alg : Algebra E
  /-- `algebra.real` of a computed number (floats are idealised to reals) -/
  realF : ℝ → E
  toFloat : E → Except PyErr ℝ
  /-- `algebra.integrate(domain, expression, variables)` -/
  integrate : Domain → E → List String → Except PyErr E
  /-- `convex_backend.integrate(domain, inequalities, polynomial)`, if a convex back-end was given -/
  backend : Option (Domain → List Dict → Dict → Except PyErr ℝ)
  /-- `vtree_strategy` -/
  vtree : LiteralInfo → Except PyErr (Vtree String)
  findConflicts : Bool
  /-- `implies` (/repo/pywmi/smt_math.py:404-417), answered by an SMT solver -/
  implies : Formula → Formula → Except PyErr Bool

namespace XsddOpts
variable {E : Type}

/-! ### Pruning -/

/-- `if implies(a, b): conflicts.append(Implies(a, b))` (/repo/pywmi/engines/xsdd/engine.py:178-180). -/
def askConflict (o : XsddOpts E) (acc : List Formula) (q : Formula × Formula) : Except PyErr (List Formula) :=
  match o.implies q.1 q.2 with
  | .error e => .error e
  | .ok true => .ok (acc ++ [.implies q.1 q.2])
  | .ok false => .ok acc

/-- The body of the inner loop (/repo/pywmi/engines/xsdd/engine.py:174-189). -/
def pairConflicts (o : XsddOpts E) (acc : List Formula) (q : Formula × Formula) : Except PyErr (List Formula) :=
  let (a, b) := q
  if (syms a).toFinset = (syms b).toFinset then
    foldE o.askConflict acc [(a, b), (mkNot a, b), (b, a), (mkNot b, a)]
  else .ok acc

/-- The pairs `(i, j)` with `i < j`, in the order of the two loops (/repo/pywmi/engines/xsdd/engine.py:172-173). -/
def indexPairs : List Formula → List (Formula × Formula)
  | [] => []
  | a :: as => (as.map fun b => (a, b)) ++ indexPairs as

/-- `collect_conflicts` (/repo/pywmi/engines/xsdd/engine.py:166-190). -/
def collectConflicts (o : XsddOpts E) (support weight : Formula) : Except PyErr (List Formula) :=
  match (boundsW true).walk support with
  | .error e => .error e
  | .ok s =>
    match (boundsW true).walk weight with
    | .error e => .error e
    | .ok t => foldE o.pairConflicts [] (indexPairs (o.setOrd (setUnion s t)))

/-- The base support (/repo/pywmi/engines/xsdd/engine.py:209-211). -/
def baseSupport (o : XsddOpts E) (support weight : Formula) : Except PyErr Formula :=
  if o.findConflicts then
    match o.collectConflicts support weight with
    | .error e => .error e
    | .ok cs => .ok (.and [mkAnd cs, support])
  else .ok support

/-! ### Volumes -/

/-- `Domain(real_vars, {v: REAL for v in real_vars}, var_domains)` (/repo/pywmi/engines/xsdd/engine.py:372-376). -/
def realDomain (D : Domain) (reals : List String) : Domain :=
  ⟨reals, dictOf (reals.map fun v => (v, .real)), D.varDomains⟩

/-- `w_weight.to_smt()` for a key of the pieces (/repo/pywmi/engines/xsdd/engine.py:364): a Python integer has no such
method. -/
def keySmt : PExpr → Except PyErr Formula
  | .int _ => .error .attributeError
  | .poly d => polyToSmt d

/-- The body of the `try` block of `integrate_convex` (/repo/pywmi/engines/xsdd/engine.py:371-381). -/
def tryConvex (o : XsddOpts E) (integ : Domain → List Dict → Dict → Except PyErr ℝ) (D : Domain) (region weight : Formula) :
    Except PyErr ℝ :=
  match D.realVars with
  | .error e => .error e
  | .ok rs =>
    match getInequalities o.setOrd region with
    | .error e => .error e
    | .ok is =>
      match polyFromSmt weight with
      | .error e => .error e
      | .ok p => integ (realDomain D rs) is p

/-- `integrate_convex` (/repo/pywmi/engines/xsdd/engine.py:370-383). -/
def integrateConvex (o : XsddOpts E) (integ : Domain → List Dict → Dict → Except PyErr ℝ) (D : Domain)
    (region weight : Formula) : Except PyErr ℝ :=
  match o.tryConvex integ D region weight with
  | .error .zeroDivision => .ok 0
  | r => r

/-- One convex region (/repo/pywmi/engines/xsdd/engine.py:361-367).  `2 ** n` is a power of two for negative `n` too. -/
noncomputable def convexRegion (o : XsddOpts E) (integ : Domain → List Dict → Dict → Except PyErr ℝ) (D : Domain)
    (key : PExpr) (vol : E) (q : Formula × Finset String) : Except PyErr E :=
  match D.boolVars with
  | .error e => .error e
  | .ok bs =>
    match keySmt key with
    | .error e => .error e
    | .ok w =>
      match o.integrateConvex integ D q.1 w with
      | .error e => .error e
      | .ok v => .ok (o.alg.plus vol (o.realF (v * (2 : ℝ) ^ ((bs.length : ℤ) - q.2.card))))

/-- One piece, with a convex back-end (/repo/pywmi/engines/xsdd/engine.py:354-367). -/
noncomputable def convexPiece (o : XsddOpts E) (integ : Domain → List Dict → Dict → Except PyErr ℝ) (D : Domain)
    (base : Formula) (vol : E) (p : PExpr × Formula) : Except PyErr E :=
  match extractLiterals (mkAnd [p.2, base]) with
  | .error e => .error e
  | .ok (g, L) =>
    match compileToSdd o.mgr g L (Bami.bami o.ord o.tie L []) with
    | .error e => .error e
    | .ok s =>
      match (convexSemi L).amc s with
      | .error e => .error e
      | .ok rs => foldE (o.convexRegion integ D p.1) vol rs

/-- One piece, without a convex back-end (/repo/pywmi/engines/xsdd/engine.py:328-352). -/
def nonConvexPiece (o : XsddOpts E) (D : Domain) (base : Formula) (vol : E) (p : PExpr × Formula) : Except PyErr E :=
  match extractLiterals (mkAnd [p.2, base]) with
  | .error e => .error e
  | .ok (g, L) =>
    match compileToSdd o.mgr g L (o.vtree L) with
    | .error e => .error e
    | .ok s =>
      match (nonConvexSemi o.alg L).amc s with
      | .error e => .error e
      | .ok (ex, vs) =>
        match p.1 with
        | .int _ => .error .attributeError
        | .poly d =>
          match D.realVars with
          | .error e => .error e
          | .ok rs =>
            match o.integrate D (o.alg.times ex (polyToExpr o.alg d)) rs with
            | .error e => .error e
            | .ok v =>
              match D.boolVars with
              | .error e => .error e
              | .ok bs =>
                match o.alg.power (o.alg.real 2) ((bs.length : ℚ) - vs.card) with
                | .error e => .error e
                | .ok w => .ok (o.alg.plus vol (o.alg.times v w))

/-- `compute_volume_from_pieces` (/repo/pywmi/engines/xsdd/engine.py:322-368). -/
noncomputable def fromPieces (o : XsddOpts E) (D : Domain) (base : Formula) (P : Pieces) : Except PyErr E :=
  match o.backend with
  | some integ => foldE (o.convexPiece integ D base) o.alg.zero P
  | none => foldE (o.nonConvexPiece D base) o.alg.zero P

/-- `compute_volume(add_bounds=False)` (/repo/pywmi/engines/xsdd/engine.py:203-234).  Simplification: the registration of
the literals in the pool of a `PyXaddAlgebra` (lines 220-228) is left out; `PoolOpts.volumeCore` has it.  An
engine without weight fails when the weight is split. -/
noncomputable def volumeCore (o : XsddOpts E) (e : EngineObj) : Except PyErr ℝ :=
  match e.weight with
  | none => .error .attributeError
  | some w =>
    match o.baseSupport e.support w with
    | .error err => .error err
    | .ok base =>
      match splitUp o.simp w with
      | .error err => .error err
      | .ok P =>
        match o.fromPieces e.domain base P with
        | .error err => .error err
        | .ok v => o.toFloat v

/-- `compute_volume` (/repo/pywmi/engines/xsdd/engine.py:195-234). -/
noncomputable def computeVolume (o : XsddOpts E) (e : EngineObj) (addBounds : Bool) : Except PyErr ℝ :=
  if addBounds then
    match e.domain.getBounds with
    | .error err => .error err
    | .ok b => o.volumeCore (e.withConstraint b)
  else o.volumeCore e

end XsddOpts

end Pywmi
