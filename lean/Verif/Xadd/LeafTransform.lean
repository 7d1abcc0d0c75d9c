import Verif.Xadd.Walk

/-!
# Transformations of leaves (/repo/pywmi/engines/pyxadd/leaf_transform.py)
-/

namespace Pywmi

section
variable {E : Type} [DecidableEq E]

/-- `transform_leaves(f, diagram)` (/repo/pywmi/engines/pyxadd/leaf_transform.py:7-25): `f` gets a terminal node and returns
the id of a node. -/
def transformLeaves (X : XCtx E) (f : ℕ → E → XM E ℕ) (root : ℕ) : XM E ℕ :=
  bottomUp f (leafInternal X (invert X)) root

/-- The local function `_to_binary` (/repo/pywmi/engines/pyxadd/leaf_transform.py:29-31); `eqZero` is Python's
`expression == 0` on the expressions of the algebra. -/
def toBinaryLeaf (eqZero : E → Bool) (_n : ℕ) (e : E) : XM E ℕ := do
  let p ← XM.get
  pure (if eqZero e then p.zeroId else p.oneId)

/-- `to_binary(diagram)` (/repo/pywmi/engines/pyxadd/leaf_transform.py:28-33). -/
def toBinary (X : XCtx E) (eqZero : E → Bool) (root : ℕ) : XM E ℕ := transformLeaves X (toBinaryLeaf eqZero) root

/-- A leaf function that computes an expression: `lambda node, d: d.pool.terminal(g(node.expression))`, the shape of
`symbolic_integrator` (/repo/pywmi/engines/pyxadd/resolve.py:63-74). -/
def mapLeaf (g : E → E) (_n : ℕ) (e : E) : XM E ℕ := terminal (g e)

end
end Pywmi
