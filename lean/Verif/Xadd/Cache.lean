import Verif.Xadd.History

/-!
# The caches of a pool and its diagram objects (/repo/pywmi/engines/pyxadd/core.py:121-157, 184-207, 369-374)
-/

namespace Pywmi

/-- `DefaultCache` (/repo/pywmi/engines/pyxadd/core.py:121-157): the dictionary of values and the two counters. -/
structure MemoCache (V : Type) where
  entries : List (ℕ × V)
  hits : ℕ
  misses : ℕ

namespace MemoCache
variable {V S : Type}

/-- `DefaultCache.__init__` and `DefaultCache.clear` (/repo/pywmi/engines/pyxadd/core.py:122-129, 153-159). -/
def empty : MemoCache V := ⟨[], 0, 0⟩

/-- `DefaultCache.get` (/repo/pywmi/engines/pyxadd/core.py:131-144). The calculator may change the state `S` (it makes an object); a miss is
counted before the calculator runs, so also if it raises. -/
def get (compute : ℕ → S → Except PyErr V × S) (k : ℕ) (c : MemoCache V) (s : S) : Except PyErr V × MemoCache V × S :=
  match c.entries.lookup k with
  | some v => (.ok v, { c with hits := c.hits + 1 }, s)
  | none =>
    match compute k s with
    | (.ok v, s') => (.ok v, ⟨(k, v) :: c.entries, c.hits, c.misses + 1⟩, s')
    | (.error e, s') => (.error e, { c with misses := c.misses + 1 }, s')

/-- `DefaultCache.contains` (/repo/pywmi/engines/pyxadd/core.py:146-151). -/
def contains (k : ℕ) (c : MemoCache V) : Bool := (c.entries.lookup k).isSome
end MemoCache

/-- A `Diagram` object (/repo/pywmi/engines/pyxadd/core.py:415-430): its identity, which is what `==` compares because the class
defines no `__eq__`, and the node object it was made with. -/
structure DiagramObj (E : Type) where
  serial : ℕ
  rootId : ℕ
  root : XNode E

/-- A pool together with its cache of diagrams (/repo/pywmi/engines/pyxadd/core.py:184-187); `next` is the identity of the next object. -/
structure DiagramPool (E : Type) where
  pool : Pool E
  cache : MemoCache (DiagramObj E)
  next : ℕ

section
variable {E : Type} [DecidableEq E]

/-- `lambda pool, node_id: Diagram(pool, pool.get_node(node_id))` (/repo/pywmi/engines/pyxadd/core.py:186). -/
def makeDiagram (p : Pool E) (n : ℕ) (next : ℕ) : Except PyErr (DiagramObj E) × ℕ :=
  match (getNode n p).1 with
  | .ok x => (.ok ⟨next, n, x⟩, next + 1)
  | .error e => (.error e, next)

/-- `Pool.diagram` (/repo/pywmi/engines/pyxadd/core.py:369-374) through `Pool.get_cached` (197-198). -/
def DiagramPool.diagram (n : ℕ) (s : DiagramPool E) : Except PyErr (DiagramObj E) × DiagramPool E :=
  match s.cache.get (makeDiagram s.pool) n s.next with
  | (r, c, k) => (r, ⟨s.pool, c, k⟩)

/-- `Pool.is_cached("diagram", n)` (/repo/pywmi/engines/pyxadd/core.py:200-201). -/
def DiagramPool.isCached (n : ℕ) (s : DiagramPool E) : Bool := s.cache.contains n

/-- A call on a pool, or a request for a diagram. Requests made inside other methods (invert, profiles, integration) are requests in
between. -/
inductive DiagramOp (E : Type) where
  | call (o : PoolOp E)
  | diagram (n : ℕ)

/-- The state after a call: `change_order` also clears the cache (/repo/pywmi/engines/pyxadd/core.py:203-207). -/
def DiagramOp.exec (X : XCtx E) (s : DiagramPool E) : DiagramOp E → DiagramPool E
  | .call .changeOrder => ⟨PoolOp.exec X .changeOrder s.pool, .empty, s.next⟩
  | .call o => ⟨o.exec X s.pool, s.cache, s.next⟩
  | .diagram n => (s.diagram n).2

/-- `Pool(...)` (/repo/pywmi/engines/pyxadd/core.py:168-187). -/
def newDiagramPool (X : XCtx E) : DiagramPool E := ⟨newPool X, .empty, 0⟩
end

end Pywmi
