import Verif.Xadd.Pool

/-!
# Orderings of tests (/repo/pywmi/engines/pyxadd/core.py:162-164, 203-207, 313-327)
-/

namespace Pywmi

section
variable {E : Type} [DecidableEq E]

/-- An object given as `ordering`: the method of the class `Ordering` (/repo/pywmi/engines/pyxadd/core.py:162-164), and the
attribute that `Pool.test_smaller_eq` asks for (line 327), if the object has it.  Ids of tests are None for tests that are not
in the pool. -/
structure XOrdering where
  smallerEq : Option ℕ → Formula → Option ℕ → Formula → Bool
  smallerEg : Option (Option ℕ → Formula → Option ℕ → Formula → Bool)

/-- `Pool.test_smaller_eq` (/repo/pywmi/engines/pyxadd/core.py:313-327). -/
def testSmallerEqO (o : Option XOrdering) (f g : Formula) : XM E Bool :=
  match o with
  | none => testSmallerEq f g
  | some o => fun p =>
    match o.smallerEg with
    | none => (.error .attributeError, p)
    | some le => (.ok (le (p.tests.idxOf? f) f (p.tests.idxOf? g) g), p)

/-- The selected test of `Pool.apply` (/repo/pywmi/engines/pyxadd/core.py:284-293). -/
def selectTestO (o : Option XOrdering) (x y : XNode E) : XM E Decision :=
  match x, y with
  | .inner d _ _, .inner d' _ _ => do
    let s ← testSmallerEqO o d.test d'.test
    pure (if s then d else d')
  | .inner d _ _, .leaf _ => pure d
  | .leaf _, .inner d' _ _ => pure d'
  | .leaf _, .leaf _ => XM.fail .attributeError

/-- `Pool.apply` (/repo/pywmi/engines/pyxadd/core.py:272-311) of a pool with the ordering `o`, with a bound on the recursion
depth. -/
def applyFO (X : XCtx E) (o : Option XOrdering) (op : XOp) : ℕ → ℕ → ℕ → XM E ℕ
  | 0, _, _ => XM.fail .fuel
  | k + 1, a, b => do
    let p ← XM.get
    match p.applyCache.lookup (op, a, b) with
    | some r => pure r
    | none =>
      let x ← getNode a
      let y ← getNode b
      let r ← computeTerminal X op a x b y
      match r with
      | some r =>
        XM.modify fun p => { p with applyCache := ((op, a, b), r) :: p.applyCache }
        pure r
      | none =>
        let sel ← selectTestO o x y
        let ct ← applyFO X o op k (splitOn sel a x).1 (splitOn sel b y).1
        let cf ← applyFO X o op k (splitOn sel a x).2 (splitOn sel b y).2
        let r ← internal X sel ct cf
        XM.modify fun p => { p with applyCache := ((op, a, b), r) :: p.applyCache }
        pure r

/-- `Pool.apply` of a pool with the ordering `o`. -/
def applyO (X : XCtx E) (o : Option XOrdering) (op : XOp) (a b : ℕ) : XM E ℕ := applyFO X o op (a + b + 1) a b

/-- `Pool.change_order` (/repo/pywmi/engines/pyxadd/core.py:203-207) without the new ordering, which is a parameter of `applyO`: the
entries of `caches` are emptied, the nodes, the tests and the results of `apply` stay.  The warning is left out. -/
def changeOrder (p : Pool E) : Pool E := { p with reduceCache := [], resolveCache := [], profiles := [] }

end
end Pywmi
