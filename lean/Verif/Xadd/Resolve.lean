import Verif.Xadd.Reduce

set_option linter.unusedSectionVars false
set_option linter.unusedSimpArgs false

/-!
# Integration by bound resolution

Model of `ResolveIntegrator` (/repo/pywmi/engines/pyxadd/resolve.py).  The alternative of symbolic integration is switched off
in the code (line 41) and left out.  Logging and the statistics of the cache are left out.  A variable is a name with a type;
`str(var)` (line 189) is taken to be the name, which pysmt prints without quotes for plain names.
-/

namespace Pywmi
open Formula

/-- A `ResolveIntegrator` (/repo/pywmi/engines/pyxadd/resolve.py:28-51): its pool's surroundings, the order in which the set
`LinearInequality.variables` is iterated, the three flags of the reduction strategy and `cache_result`. -/
structure RCtx (E : Type) where
  X : XCtx E
  ord : List String → List String
  s0 : Bool
  s1 : Bool
  s2 : Bool
  cache : Bool

section
variable {E : Type} [DecidableEq E]

/-- `self.method` (/repo/pywmi/engines/pyxadd/resolve.py:44-46). -/
def RCtx.method (C : RCtx E) : RMethod := if (C.s0, C.s1, C.s2) = (false, false, false) then .noReduce else .fastSmt

/-- The sum of `operator_to_bound` (/repo/pywmi/engines/pyxadd/resolve.py:329-332). -/
def boundSum (q : Dict) (x : String) (ys : List String) : Formula :=
  ys.foldl (fun acc y => if y ≠ x then .plus [acc, .times [.sym y .real, .realC (-linCoef q [y])]] else acc) (.realC (linB q))

/-- `operator_to_bound` (/repo/pywmi/engines/pyxadd/resolve.py:328-333). -/
def operatorToBound (C : RCtx E) (q : Dict) (x : String) : Except PyErr Formula :=
  if linCoef q [x] = 0 then .error .zeroDivision
  else .ok (C.X.simp (.times [boundSum q x (C.ord (linVars q)), .realC (1 / linCoef q [x])]))

/-- `concrete_integrate` (/repo/pywmi/engines/pyxadd/resolve.py:76-87). -/
def concreteIntegrate (X : XCtx E) (e : E) (x : String) (lb ub : Formula) : Except PyErr E :=
  match polyFromSmt lb with
  | .error er => .error er
  | .ok l =>
    match polyFromSmt ub with
    | .error er => .error er
    | .ok u => .ok (X.back.integratePoly e x (polyToExpr X.back.alg l) (polyToExpr X.back.alg u))

/-- The key of the cache (/repo/pywmi/engines/pyxadd/resolve.py:142). -/
abbrev RKey := String × ℕ × Option Formula × Option Formula

/-- `add_to_cache` (/repo/pywmi/engines/pyxadd/resolve.py:120-123). -/
def addResolve (C : RCtx E) (key : RKey) (r : ℕ) : XM E ℕ :=
  if C.cache = true then fun p => (.ok r, { p with resolveCache := (key, r) :: p.resolveCache }) else pure r

/-- The test whether the part below the new bound is empty (/repo/pywmi/engines/pyxadd/resolve.py:212-225): the node of the
condition and `pass_ub`. -/
def consistUb (X : XCtx E) (lb : Option Formula) (nb : Formula) : XM E (ℕ × Bool) := do
  let p ← XM.get
  match lb with
  | none => pure (p.oneId, false)
  | some l =>
    if X.simp (.lt l nb) = .boolC false then pure (p.zeroId, true)
    else if X.simp (.lt l nb) = .boolC true then pure (p.oneId, false)
    else do
      let b ← boolTest X ⟨X.simp (.lt l nb), none, false⟩
      pure (b, false)

/-- The test whether the part above the new bound is empty (/repo/pywmi/engines/pyxadd/resolve.py:260-273): the node of the
condition and `pass_lb`.  Lines 268-269 cannot be reached. -/
def consistLb (X : XCtx E) (ub : Option Formula) (nb : Formula) : XM E (ℕ × Bool) := do
  let p ← XM.get
  match ub with
  | none => pure (p.oneId, false)
  | some u =>
    if X.simp (.lt nb u) = .boolC false then pure (p.zeroId, true)
    else do
      let b ← boolTest X ⟨X.simp (.lt nb u), none, false⟩
      pure (b, false)

/-- Two alternatives for a bound: `rec1` with the new one where the test holds, `rec2` with the old one where it does not
(/repo/pywmi/engines/pyxadd/resolve.py:228-253 and 276-301). -/
def tighter (C : RCtx E) (t : Formula) (best some' : XM E ℕ) : XM E ℕ := do
  let p ← XM.get
  let s ← (if t = .boolC true then pure p.zeroId else some')
  let b ← (if t = .boolC false then pure p.zeroId else best)
  let b ← reduceBy C.X C.method b
  let s ← reduceBy C.X C.method s
  internal C.X ⟨t, none, false⟩ b s

/-- The part below the new bound (/repo/pywmi/engines/pyxadd/resolve.py:212-257); `rec ub lb` is the recursive call for the
branch. -/
def branchUb (C : RCtx E) (rec : Option Formula → Option Formula → XM E ℕ) (nb : Formula) (ub lb : Option Formula) (pass : Bool) :
    XM E ℕ := do
  let p ← XM.get
  if pass = true then pure p.zeroId
  else match ub with
    | some u => tighter C (C.X.simp (.lt nb u)) (rec (some nb) lb) (rec (some u) lb)
    | none => rec (some nb) lb

/-- The part above the new bound (/repo/pywmi/engines/pyxadd/resolve.py:264-305). -/
def branchLb (C : RCtx E) (rec : Option Formula → Option Formula → XM E ℕ) (nb : Formula) (ub lb : Option Formula) (pass : Bool) :
    XM E ℕ := do
  let p ← XM.get
  if pass = true then pure p.zeroId
  else match lb with
    | some l => tighter C (C.X.simp (.lt l nb)) (rec ub (some nb)) (rec ub (some l))
    | none => rec ub (some nb)

/-- `resolve_lb_ub` for a test on the variable (/repo/pywmi/engines/pyxadd/resolve.py:189-318) without the cache: `rec` is the
recursive call on a node. -/
def resolveTest (C : RCtx E) (x : String) (d : Decision) (t f : ℕ) (ub lb : Option Formula)
    (rec : ℕ → Option Formula → Option Formula → XM E ℕ) : XM E ℕ := do
  let q ← XM.lift d.inequality
  let pos := decide (0 < linCoef q [x])
  let nb ← XM.lift (operatorToBound C (if pos then q else linInverted q) x)
  let cu ← consistUb C.X lb nb
  let bu ← branchUb C (rec (if pos then t else f)) nb ub lb cu.2
  let cl ← consistLb C.X ub nb
  let bl ← branchLb C (rec (if pos then f else t)) nb ub lb cl.2
  let l ← apply C.X .mul bl cl.1
  let u ← apply C.X .mul bu cu.1
  let l ← (if C.s1 = true then reduceBy C.X C.method l else pure l)
  let u ← (if C.s1 = true then reduceBy C.X C.method u else pure u)
  let r ← apply C.X .add l u
  if C.s2 = true then reduceBy C.X C.method r else pure r

/-- `resolve_lb_ub` (/repo/pywmi/engines/pyxadd/resolve.py:125-326) with a bound on the recursion depth. -/
def resolveF (C : RCtx E) (x : String) (ty : Ty) : ℕ → ℕ → Option Formula → Option Formula → XM E ℕ
  | 0, _, _, _ => XM.fail .fuel
  | k + 1, n, ub, lb => do
    let p ← XM.get
    match (if C.cache = true then p.resolveCache.lookup (x, n, ub, lb) else none) with
    | some r => pure r
    | none =>
      let node ← getNode n
      match node with
      | .leaf e =>
        if n = p.zeroId then pure p.zeroId
        else if ty = .bool then terminal (C.X.back.alg.times (C.X.back.alg.real 2) e)
        else match ub, lb with
          | some u, some l => do
            let e' ← XM.lift (concreteIntegrate C.X e x l u)
            let r ← terminal e'
            addResolve C (x, n, ub, lb) r
          | _, _ => addResolve C (x, n, ub, lb) p.zeroId
      | .inner d t f =>
        if (x, ty) ∈ syms d.test then
          if ty = .bool then apply C.X .add t f
          else do
            let r ← resolveTest C x d t f ub lb (fun m u l => resolveF C x ty k m u l)
            addResolve C (x, n, ub, lb) r
        else do
          let a ← resolveF C x ty k t ub lb
          let b ← resolveF C x ty k f ub lb
          let r ← internal C.X d a b
          addResolve C (x, n, ub, lb) r

/-- `integrate` (/repo/pywmi/engines/pyxadd/resolve.py:89-118). -/
def integrate (C : RCtx E) (n : ℕ) (x : String) (ty : Ty) : XM E ℕ := do
  let n ← (if C.s0 = true then reduceBy C.X C.method n else pure n)
  let r ← resolveF C x ty (n + 1) n none none
  if C.s0 = true ∧ C.s1 = true ∧ C.s2 = true then reduceBy C.X C.method r else pure r

end
end Pywmi
