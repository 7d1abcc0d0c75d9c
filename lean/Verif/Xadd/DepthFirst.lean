import Verif.Xadd.Walk

/-!
# Walking diagrams depth first

Model of `DepthFirstWalker` and `DepthFirstUniqueWalker` (/repo/pywmi/engines/pyxadd/walk.py:23-88).  The method `visit_internal` of a
subclass is a parameter; `visit_terminal` returns nothing.  The walkers do not change the pool.  The result is the list of the calls of
the visiting methods: the node and the message.
-/

namespace Pywmi
section
variable {E : Type} [DecidableEq E] {M : Type}

/-- `DepthFirstWalker._visit` (/repo/pywmi/engines/pyxadd/walk.py:48-56) with a bound on the recursion depth. -/
def dfVisit (p : Pool E) (vi : ℕ → Decision → M → M × M) : ℕ → ℕ → M → Except PyErr (List (ℕ × M))
  | 0, _, _ => .error .fuel
  | k + 1, n, m =>
    match p.node n with
    | none => .error .runtimeError
    | some (.leaf _) => .ok [(n, m)]
    | some (.inner d t f) =>
      match dfVisit p vi k t (vi n d m).1 with
      | .error e => .error e
      | .ok a =>
        match dfVisit p vi k f (vi n d m).2 with
        | .error e => .error e
        | .ok b => .ok ((n, m) :: (a ++ b))

/-- `DepthFirstWalker.walk` (/repo/pywmi/engines/pyxadd/walk.py:42-46); the message of the root is None. -/
def depthFirst1 (p : Pool E) (vi : ℕ → Decision → M → M × M) (none : M) (root : ℕ) : Except PyErr (List (ℕ × M)) :=
  dfVisit p vi (root + 1) root none

/-- The set `_seen` and the calls so far. -/
structure DFState (M : Type) where
  seen : List ℕ
  calls : List (ℕ × M)

/-- `DepthFirstUniqueWalker._visit` (/repo/pywmi/engines/pyxadd/walk.py:78-88) with a bound on the recursion depth. -/
def dfuVisit (p : Pool E) (vi : ℕ → Decision → M → M × M) : ℕ → ℕ → M → DFState M → Except PyErr (DFState M)
  | 0, _, _, _ => .error .fuel
  | k + 1, n, m, s =>
    match p.node n with
    | none => .error .runtimeError
    | some (.leaf _) => .ok { s with calls := s.calls ++ [(n, m)] }
    | some (.inner d t f) =>
      if n ∈ s.seen then .ok { s with calls := s.calls ++ [(n, m)] }
      else
        match dfuVisit p vi k t (vi n d m).1 ⟨n :: s.seen, s.calls ++ [(n, m)]⟩ with
        | .error e => .error e
        | .ok s1 => dfuVisit p vi k f (vi n d m).2 s1

/-- `DepthFirstUniqueWalker.walk` (/repo/pywmi/engines/pyxadd/walk.py:66-76). -/
def depthFirstUnique (p : Pool E) (vi : ℕ → Decision → M → M × M) (none : M) (root : ℕ) : Except PyErr (List (ℕ × M)) :=
  match dfuVisit p vi (root + 1) root none ⟨[], []⟩ with
  | .error e => .error e
  | .ok s => .ok s.calls

end
end Pywmi
