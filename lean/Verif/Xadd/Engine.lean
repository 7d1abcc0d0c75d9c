import Verif.Xadd.Convert
import Verif.Engine.Engine

set_option linter.unusedSectionVars false
set_option linter.unusedSimpArgs false

/-!
# The pyxadd engine

Model of `PyXaddEngine` (/repo/pywmi/engines/pyxadd/engine.py:126-167) and of `PyXaddAlgebra`
(/repo/pywmi/engines/pyxadd/algebra.py:14-80).  The pool is the state; `copy` (lines 160-167) keeps it, so that an engine and
its copies are computations on the same state.
-/

namespace Pywmi
open Formula

section
variable {E : Type} [DecidableEq E]

/-- `domain.get_symbols(variables)` (/repo/pywmi/domain.py:43-45): names with their types; an unknown name raises KeyError. -/
def Domain.symbolsOf (D : Domain) : List String → Except PyErr (List (String × Ty))
  | [] => .ok []
  | v :: vs =>
    match dictGet D.varTypes v with
    | .error e => .error e
    | .ok t =>
      match D.symbolsOf vs with
      | .error e => .error e
      | .ok r => .ok ((v, t) :: r)

/-- The loop over the variables (/repo/pywmi/engines/pyxadd/engine.py:154-155). -/
def eliminate (C : RCtx E) : List (String × Ty) → ℕ → XM E ℕ
  | [], n => pure n
  | v :: vs, n => do
    let n ← integrate C n v.1 v.2
    eliminate C vs n

/-- `support & domain.get_bounds()` (/repo/pywmi/engines/pyxadd/engine.py:146-148). -/
def xaddSupport (e : EngineObj) (addBounds : Bool) : Except PyErr Formula :=
  if addBounds = true then
    match e.domain.getBounds with
    | .ok b => .ok (.and [e.support, b])
    | .error er => .error er
  else .ok e.support

/-- The value of a node that must be terminal (/repo/pywmi/engines/pyxadd/engine.py:156-158 and algebra.py:35-38). -/
def terminalValue (X : XCtx E) (n : ℕ) : XM E ℚ := do
  let node ← getNode n
  match node with
  | .leaf e => XM.lift (X.back.toFloat e)
  | .inner _ _ _ => XM.fail .assertionError

/-- `compute_volume` (/repo/pywmi/engines/pyxadd/engine.py:145-158).  Without a weight `walk_smt(None)` raises AttributeError. -/
def xaddVolume (C : RCtx E) (e : EngineObj) (addBounds : Bool) : XM E ℚ := do
  let s ← XM.lift (xaddSupport e addBounds)
  let rs ← convert C.X true s
  match e.weight with
  | none => XM.fail .attributeError
  | some w => do
    let rw ← convert C.X false w
    let ns ← rs.node
    let nw ← rw.node
    let n ← apply C.X .mul ns nw
    let vs ← XM.lift (e.domain.symbolsOf e.domain.vars)
    let n ← eliminate C vs n
    terminalValue C.X n

end
end Pywmi
