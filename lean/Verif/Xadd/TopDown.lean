import Verif.Xadd.Walk

set_option linter.unusedSectionVars false
set_option linter.unusedSimpArgs false

/-!
# Walking diagrams from the top, and walking leaves

Model of `TopDownWalker`, `DownUpWalker`, `walk_leaves` and `map_leaves` (/repo/pywmi/engines/pyxadd/walk.py:91-150, 322-433).
The methods that a subclass defines are parameters.  The first two walkers do not change the pool, so they take it as an
argument.
-/

namespace Pywmi

/-- `d[k] = v`; the order of the keys is not used. -/
def putKey {κ β : Type} [DecidableEq κ] (d : List (κ × β)) (k : κ) (v : β) : List (κ × β) := (k, v) :: d.filter fun q => q.1 ≠ k

section
variable {E : Type} [DecidableEq E] {M R β : Type}

/-! ### TopDownWalker -/

/-- The local variables of `TopDownWalker.walk` (/repo/pywmi/engines/pyxadd/walk.py:345-348), and the calls of the visiting
methods so far: the node and the messages. -/
structure TDState (M : Type) where
  enabled : List ℕ
  cache : List (ℕ × List M)
  counts : List (ℕ × ℕ)
  trace : List (ℕ × List M)

/-- The local function `count` (/repo/pywmi/engines/pyxadd/walk.py:350-355). -/
def tdCount (par : List (ℕ × List ℕ)) (n : ℕ) (s : TDState M) : Except PyErr (TDState M) :=
  let c := (s.counts.lookup n).getD 0 + 1
  match par.lookup n with
  | none => .error .keyError
  | some l => .ok { s with counts := putKey s.counts n c, enabled := if c = l.length ∧ n ∉ s.enabled then s.enabled ++ [n] else s.enabled }

/-- The local function `message` (/repo/pywmi/engines/pyxadd/walk.py:357-360). -/
def tdMessage (n : ℕ) (m : M) (s : TDState M) : TDState M := { s with cache := putKey s.cache n ((s.cache.lookup n).getD [] ++ [m]) }

/-- The loop of `TopDownWalker.walk` (/repo/pywmi/engines/pyxadd/walk.py:362-373) with a bound on the number of rounds.  Which
element `set.pop` takes is not specified: in round `i` it is the one at position `pick i`, modulo the size of the set. -/
def tdLoop (p : Pool E) (par : List (ℕ × List ℕ)) (vi : ℕ → Decision → List M → M × M) (pick : ℕ → ℕ) :
    ℕ → ℕ → TDState M → Except PyErr (List (ℕ × List M))
  | 0, _, _ => .error .fuel
  | k + 1, i, s =>
    match s.enabled[pick i % s.enabled.length]? with
    | none => .ok s.trace
    | some cur =>
      match s.cache.lookup cur with
      | none => .error .keyError
      | some ms =>
        let s0 : TDState M := { s with enabled := s.enabled.erase cur, trace := s.trace ++ [(cur, ms)] }
        match p.node cur with
        | none => .error .runtimeError
        | some (.leaf _) => tdLoop p par vi pick k (i + 1) s0
        | some (.inner d t f) =>
          match tdCount par t s0 with
          | .error e => .error e
          | .ok s1 =>
            match tdCount par f s1 with
            | .error e => .error e
            | .ok s2 => tdLoop p par vi pick k (i + 1) (tdMessage f (vi cur d ms).2 (tdMessage t (vi cur d ms).1 s2))

/-- `TopDownWalker(diagram).walk()` (/repo/pywmi/engines/pyxadd/walk.py:323-325, 344-373): the calls of the visiting methods.
`visit_terminal` returns nothing, so only `visit_internal` is a parameter. -/
def topDown (p : Pool E) (vi : ℕ → Decision → List M → M × M) (pick : ℕ → ℕ) (root : ℕ) : Except PyErr (List (ℕ × List M)) :=
  match parentsOf p root with
  | .error e => .error e
  | .ok par => tdLoop p par vi pick (par.length + 1) 0 ⟨[root], [(root, [])], [], []⟩

/-! ### DownUpWalker -/

/-- The methods of a `DownUpWalker` (/repo/pywmi/engines/pyxadd/walk.py:97-123), and whether a message can be a key of a dictionary. -/
structure DownUp (E M R : Type) where
  terminal : ℕ → E → M → R
  down : ℕ → Decision → M → M × M
  aggregate : ℕ → Decision → R → R → R
  hashable : M → Bool

/-- The message cache, and the pairs of nodes and messages for which a visiting method was called. -/
structure DUState (M R : Type) where
  cache : List ((ℕ × M) × R)
  trace : List (ℕ × M)

variable [DecidableEq M]

/-- `DownUpWalker._visit` (/repo/pywmi/engines/pyxadd/walk.py:132-150) with a bound on the recursion depth.  Messages are equal if
they are the same value (python's `1 == 1.0 == True` is not modelled). -/
def duVisit (p : Pool E) (v : DownUp E M R) (cached : Bool) : ℕ → ℕ → M → DUState M R → Except PyErr (R × DUState M R)
  | 0, _, _, _ => .error .fuel
  | k + 1, n, m, s =>
    if cached ∧ v.hashable m = false then .error .typeError
    else
      match if cached then s.cache.lookup (n, m) else none with
      | some r => .ok (r, s)
      | none =>
        let keep (r : R) (s : DUState M R) : R × DUState M R := (r, if cached then { s with cache := putKey s.cache (n, m) r } else s)
        match p.node n with
        | none => .error .runtimeError
        | some (.leaf e) => .ok (keep (v.terminal n e m) { s with trace := s.trace ++ [(n, m)] })
        | some (.inner d t f) =>
          match duVisit p v cached k t (v.down n d m).1 { s with trace := s.trace ++ [(n, m)] } with
          | .error e => .error e
          | .ok (a, s1) =>
            match duVisit p v cached k f (v.down n d m).2 s1 with
            | .error e => .error e
            | .ok (b, s2) => .ok (keep (v.aggregate n d a b) s2)

/-- `DownUpWalker(diagram, cache_messages).walk()` (/repo/pywmi/engines/pyxadd/walk.py:92-95, 125-130): the result and the visits.
The message of the root is None. -/
def downUp (p : Pool E) (v : DownUp E M R) (cached : Bool) (none : M) (root : ℕ) : Except PyErr (R × List (ℕ × M)) :=
  match duVisit p v cached (root + 1) root none ⟨[], []⟩ with
  | .error e => .error e
  | .ok (r, s) => .ok (r, s.trace)

/-! ### Leaves -/

/-- The loop of `walk_leaves` (/repo/pywmi/engines/pyxadd/walk.py:419-422) with the list of `map_leaves` (lines 427-430). -/
def leavesLoop (f : ℕ → E → XM E β) (root : ℕ) : ℕ → XM E (List β)
  | 0 => XM.fail .fuel
  | k + 1 => do
    let n ← profileNext root
    match n with
    | none => pure []
    | some n =>
      let x ← getNode n
      match x with
      | .leaf e =>
        let b ← f n e
        let bs ← leavesLoop f root k
        pure (b :: bs)
      | .inner _ _ _ => leavesLoop f root k

/-- `map_leaves` and `walk_leaves` (/repo/pywmi/engines/pyxadd/walk.py:404-433): the results of the function, in the order of the calls. -/
def mapLeaves (f : ℕ → E → XM E β) (root : ℕ) : XM E (List β) := do
  let pr ← getProfile root
  let bs ← leavesLoop f root (pr.nodes.length + 1)
  profileReset root
  pure bs

end
end Pywmi
