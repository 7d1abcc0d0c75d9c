import Verif.Xadd.Decision
import Verif.Algebra.Backend

set_option linter.unusedSectionVars false
set_option linter.unusedSimpArgs false

/-!
# The pool of nodes of extended algebraic decision diagrams

Model of /repo/pywmi/engines/pyxadd/core.py and operation.py.  The expressions at the leaves are values of an arbitrary
type `E`, the methods of the algebra, pysmt's `simplify` and the SMT solver are parameters.  Dictionaries are association
lists (new entries first), exceptions keep the state that was reached.
-/

namespace Pywmi

/-- The algebra of a pool: the methods of `PolynomialIntegrationBackend` that pyxadd calls
(/repo/pywmi/engines/algebraic_backend.py:21-98).  Floats are idealised as rationals. -/
structure Back (E : Type) where
  alg : Algebra E
  flat : E → E
  isOne : E → Except PyErr Bool
  isZero : E → Except PyErr Bool
  integratePoly : E → String → E → E → E
  toFloat : E → Except PyErr ℚ

/-- What a pool depends on: its algebra, pysmt's `simplify` and the solver's answer for the conjunction of the assertions on
its stack and one assumption. -/
structure XCtx (E : Type) where
  back : Back E
  simp : Formula → Formula
  solve : List Formula → Bool

/-- `TerminalNode` and `InternalNode` (/repo/pywmi/engines/pyxadd/core.py:42-118).  The id is the position in the pool. -/
inductive XNode (E : Type) where
  | leaf (e : E)
  | inner (d : Decision) (t f : ℕ)
deriving DecidableEq

/-- The operations (/repo/pywmi/engines/pyxadd/operation.py:20-108). -/
inductive XOp where
  | mul | add | or | and
deriving DecidableEq, Repr

/-- The state of a `WalkingProfile` (/repo/pywmi/engines/pyxadd/walk.py:181-188): the nodes in the order of the walk, for each
node the number of its parents and how often it was counted, and the position of the walk. -/
structure Profile where
  nodes : List ℕ
  counts : List (ℕ × (ℕ × ℕ))
  next : ℕ
deriving DecidableEq, Repr

/-- What `ToXaddWalker` returns: a node id or, for arithmetic terms in Boolean mode, a pysmt term. -/
inductive XRes where
  | id (n : ℕ)
  | term (f : Formula)
deriving DecidableEq

/-- `Pool` (/repo/pywmi/engines/pyxadd/core.py:167-187).  `slots` is the dictionary `_nodes`: the node with id `k + 1` is at
position `k`, `none` stands for an id that was drawn although the constructor raised (line 267-269).  `_counter` is
`slots.length + 1`.  `tests` is the dictionary `_tests`: a test's number is its position.  `reduceCache`, `resolveCache` and
`profiles` are the entries of `caches` made by reduce.py, resolve.py and walk.py.  `walk` is the dictionary of the
`ToXaddWalker` that is running (/repo/pywmi/smt_walk.py:100), kept here because it is used together with the pool; it is
emptied when a walker is created.  The cache of `Diagram` objects (core.py:184-187) is left out: a diagram is its root id.
`pos_inf_id` and `neg_inf_id` (lines 181-182) are floats that no id equals.  `_ordering` is None; orderings are modelled in Order.lean. -/
structure Pool (E : Type) where
  slots : List (Option (XNode E))
  tests : List Formula
  internalMap : List ((ℕ × ℕ × ℕ) × ℕ)
  expressions : List (E × ℕ)
  applyCache : List ((XOp × ℕ × ℕ) × ℕ)
  reduceCache : List (ℕ × ℕ)
  resolveCache : List ((String × ℕ × Option Formula × Option Formula) × ℕ)
  profiles : List (ℕ × Profile)
  walk : List ((Formula × Bool) × XRes)
  zeroId : ℕ
  oneId : ℕ

/-- Computations on a pool: a result or an exception, and the pool afterwards. -/
def XM (E α : Type) := Pool E → Except PyErr α × Pool E

namespace XM
variable {E α β : Type}

instance : Monad (XM E) where
  pure a := fun p => (.ok a, p)
  bind m f := fun p =>
    match m p with
    | (.ok a, q) => f a q
    | (.error e, q) => (.error e, q)

/-- raise -/
def fail (e : PyErr) : XM E α := fun p => (.error e, p)
/-- Read the pool. -/
def get : XM E (Pool E) := fun p => (.ok p, p)
/-- Change the pool. -/
def modify (g : Pool E → Pool E) : XM E Unit := fun p => (.ok (), g p)
/-- Use the result of a computation without state. -/
def lift (r : Except PyErr α) : XM E α := fun p => (r, p)
end XM

/-- `_nodes.get(id)`. -/
def Pool.node {E : Type} (p : Pool E) : ℕ → Option (XNode E)
  | 0 => none
  | k + 1 => p.slots[k]?.join

section
variable {E : Type} [DecidableEq E]

/-- `Pool.get_node` (/repo/pywmi/engines/pyxadd/core.py:217-227). -/
def getNode (n : ℕ) : XM E (XNode E) := fun p =>
  match p.node n with
  | some x => (.ok x, p)
  | none => (.error .runtimeError, p)

/-- `Pool._register` (/repo/pywmi/engines/pyxadd/core.py:266-270) for a constructor that succeeds. -/
def register (x : XNode E) : XM E ℕ := fun p => (.ok (p.slots.length + 1), { p with slots := p.slots ++ [some x] })

/-- `Pool.terminal` (/repo/pywmi/engines/pyxadd/core.py:229-235) for an expression of the algebra. -/
def terminal (e : E) : XM E ℕ := fun p =>
  match p.expressions.lookup e with
  | some n => (.ok n, p)
  | none => (.ok (p.slots.length + 1),
      { p with slots := p.slots ++ [some (.leaf e)], expressions := (e, p.slots.length + 1) :: p.expressions })

/-- `Pool.terminal` for a pysmt formula: the counter is increased and the constructor's assertion fails
(/repo/pywmi/engines/pyxadd/core.py:44-45, 229-235, 266-270). -/
def terminalFNode : XM E ℕ := fun p => (.error .assertionError, { p with slots := p.slots ++ [none] })

/-- `Pool._add_test` (/repo/pywmi/engines/pyxadd/core.py:212-215). -/
def addTest (f : Formula) : XM E ℕ := fun p =>
  match p.tests.idxOf? f with
  | some i => (.ok i, p)
  | none => (.ok p.tests.length, { p with tests := p.tests ++ [f] })

/-- The last part of `Pool.internal` (/repo/pywmi/engines/pyxadd/core.py:250-261): the decision is canonical. -/
def internNode (d : Decision) (t f : ℕ) : XM E ℕ := do
  let i ← addTest d.test
  let p ← XM.get
  match p.internalMap.lookup (i, t, f) with
  | some n => pure n
  | none =>
    let n ← register (.inner d t f)
    XM.modify fun p => { p with internalMap := ((i, t, f), n) :: p.internalMap }
    pure n

/-- `Pool.internal` (/repo/pywmi/engines/pyxadd/core.py:237-261). -/
def internal (X : XCtx E) (d : Decision) (t f : ℕ) : XM E ℕ :=
  if t = f then pure t
  else do
    let bs ← XM.lift (d.validBranches X.simp)
    match bs with
    | [b] => pure (if b then t else f)
    | _ =>
      let c ← XM.lift (d.toCanonical X.simp t f)
      internNode c.1 c.2.1 c.2.2

/-- `Pool.bool_test` (/repo/pywmi/engines/pyxadd/core.py:263-264). -/
def boolTest (X : XCtx E) (d : Decision) : XM E ℕ := do
  let p ← XM.get
  internal X d p.oneId p.zeroId

/-- `is_terminal`. -/
def XNode.isLeaf : XNode E → Bool
  | .leaf _ => true
  | .inner _ _ _ => false

/-- `compute_terminal` (/repo/pywmi/engines/pyxadd/operation.py:24-36, 43-57, 65-83, 90-108).  None is `none`. -/
def computeTerminal (X : XCtx E) (op : XOp) (a : ℕ) (x : XNode E) (b : ℕ) (y : XNode E) : XM E (Option ℕ) := do
  let p ← XM.get
  match op with
  | .mul =>
    if a = p.zeroId ∨ b = p.zeroId then pure (some p.zeroId)
    else if a = p.oneId then pure (some b)
    else if b = p.oneId then pure (some a)
    else
      match x, y with
      | .leaf e, .leaf e' => do
        let n ← terminal (X.back.flat (X.back.alg.times e e'))
        pure (some n)
      | _, _ => pure none
  | .add =>
    if a = p.zeroId then pure (some b)
    else if b = p.zeroId then pure (some a)
    else
      match x, y with
      | .leaf e, .leaf e' => do
        let n ← terminal (X.back.flat (X.back.alg.plus e e'))
        pure (some n)
      | _, _ => pure none
  | .or =>
    if x.isLeaf = true ∧ y.isLeaf = true ∧ ((a ≠ p.zeroId ∧ a ≠ p.oneId) ∨ (b ≠ p.zeroId ∧ b ≠ p.oneId)) then
      XM.fail .runtimeError
    else if a = p.zeroId then pure (some b)
    else if a = p.oneId then pure (some p.oneId)
    else if b = p.zeroId then pure (some a)
    else if b = p.oneId then pure (some p.oneId)
    else if x.isLeaf = true ∧ y.isLeaf = true then XM.fail .runtimeError
    else pure none
  | .and =>
    if x.isLeaf = true ∧ y.isLeaf = true ∧ ((a ≠ p.zeroId ∧ a ≠ p.oneId) ∨ (b ≠ p.zeroId ∧ b ≠ p.oneId)) then
      XM.fail .runtimeError
    else if a = p.oneId then pure (some b)
    else if a = p.zeroId then pure (some p.zeroId)
    else if b = p.oneId then pure (some a)
    else if b = p.zeroId then pure (some p.zeroId)
    else if x.isLeaf = true ∧ y.isLeaf = true then XM.fail .runtimeError
    else pure none

/-- `Pool.test_smaller_eq` (/repo/pywmi/engines/pyxadd/core.py:313-327) without an ordering; comparing None raises
TypeError. -/
def testSmallerEq (f g : Formula) : XM E Bool := fun p =>
  match p.tests.idxOf? f, p.tests.idxOf? g with
  | some i, some j => (.ok (decide (i ≤ j)), p)
  | _, _ => (.error .typeError, p)

/-- The selected test of `Pool.apply` (/repo/pywmi/engines/pyxadd/core.py:284-293). -/
def selectTest (x y : XNode E) : XM E Decision :=
  match x, y with
  | .inner d _ _, .inner d' _ _ => do
    let s ← testSmallerEq d.test d'.test
    pure (if s then d else d')
  | .inner d _ _, .leaf _ => pure d
  | .leaf _, .inner d' _ _ => pure d'
  | .leaf _, .leaf _ => XM.fail .attributeError

/-- The children of one operand (/repo/pywmi/engines/pyxadd/core.py:295-303); decisions are equal when their tests are
(/repo/pywmi/engines/pyxadd/decision.py:114-115). -/
def splitOn (sel : Decision) (a : ℕ) (x : XNode E) : ℕ × ℕ :=
  match x with
  | .inner d t f => if d.test = sel.test then (t, f) else (a, a)
  | .leaf _ => (a, a)

/-- `Pool.apply` (/repo/pywmi/engines/pyxadd/core.py:272-311) with a bound on the recursion depth. -/
def applyF (X : XCtx E) (op : XOp) : ℕ → ℕ → ℕ → XM E ℕ
  | 0, _, _ => XM.fail .fuel
  | k + 1, a, b => do
    let p ← XM.get
    match p.applyCache.lookup (op, a, b) with
    | some r => pure r
    | none =>
      let x ← getNode a
      let y ← getNode b
      let r ← computeTerminal X op a x b y
      match r with
      | some r =>
        XM.modify fun p => { p with applyCache := ((op, a, b), r) :: p.applyCache }
        pure r
      | none =>
        let sel ← selectTest x y
        let ct ← applyF X op k (splitOn sel a x).1 (splitOn sel b y).1
        let cf ← applyF X op k (splitOn sel a x).2 (splitOn sel b y).2
        let r ← internal X sel ct cf
        XM.modify fun p => { p with applyCache := ((op, a, b), r) :: p.applyCache }
        pure r

/-- `Pool.apply`: every recursive call is on a child of at least one operand and children have smaller ids. -/
def apply (X : XCtx E) (op : XOp) (a b : ℕ) : XM E ℕ := applyF X op (a + b + 1) a b

/-- `Pool()` (/repo/pywmi/engines/pyxadd/core.py:168-187): the terminals zero and one are made first.  If the algebra's zero
and one are equal both ids are 1. -/
def newPool (X : XCtx E) : Pool E :=
  let p0 : Pool E := ⟨[], [], [], [], [], [], [], [], [], 0, 0⟩
  let p1 := (terminal X.back.alg.zero p0).2
  let z := match (terminal X.back.alg.zero p0).1 with | .ok n => n | .error _ => 0
  let p2 := (terminal X.back.alg.one p1).2
  let o := match (terminal X.back.alg.one p1).1 with | .ok n => n | .error _ => 0
  { p2 with zeroId := z, oneId := o }

end
end Pywmi
