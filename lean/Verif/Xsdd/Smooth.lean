import Verif.Xsdd.Sdd

/-!
# The iterator with smoothing

Model of `SddIterator` (/repo/pywmi/engines/xsdd/sdd_iterator.py) with its options `smooth` and `smooth_to_root`, and of the callback
that `walk` hands to it (/repo/pywmi/engines/xsdd/semiring.py:110-147).
-/

namespace Pywmi

/-- Nodes of pysdd's vtrees as the iterator uses them: `position`, `is_leaf`, `var`, `left`, `right`
(/repo/pywmi/engines/xsdd/sdd_iterator.py:62-72). -/
inductive PVtree where
  | leaf : ℕ → ℕ → PVtree
  | split : ℕ → PVtree → PVtree → PVtree
deriving DecidableEq, Repr

namespace PVtree

/-- `position()`. -/
def pos : PVtree → ℕ
  | leaf p _ => p
  | split p _ _ => p

/-- `left()`; None for a leaf. -/
def left : PVtree → Option PVtree
  | leaf _ _ => none
  | split _ l _ => some l

/-- `right()`; None for a leaf. -/
def right : PVtree → Option PVtree
  | leaf _ _ => none
  | split _ _ r => some r

/-- The number of turns of the loop for a subtree: a leaf is taken once from the queue, another node twice. -/
def turns : PVtree → ℕ
  | leaf _ _ => 1
  | split _ l r => l.turns + r.turns + 2

end PVtree

/-- What the iterator uses of pysdd: `sdd.vtree()` (which is its root), `sdd.var_count()` and `node.vtree()`, which is None for constants
(/repo/pywmi/engines/xsdd/sdd_iterator.py:42-43, 56, 127, 146, 150). -/
structure SddLib where
  root : PVtree
  varCount : ℕ
  vtreeOf : Sdd → Option PVtree

/-- A dictionary from positions to sets of variables; the latest entry counts. -/
abbrev VarCache := List (ℕ × Finset ℕ)

/-- `self._expected_vars[pos]`. -/
def VarCache.get (d : VarCache) (p : ℕ) : Except PyErr (Finset ℕ) :=
  match d.lookup p with
  | some s => .ok s
  | none => .error .keyError

/-- The loop of `_cache_expected_vars` (/repo/pywmi/engines/xsdd/sdd_iterator.py:60-73): `n` is the length of `visited`, which is given by its
true entries; the queue is a stack. -/
def cacheLoop (n : ℕ) : ℕ → List PVtree → List ℕ → VarCache → Except PyErr VarCache
  | _, [], _, d => .ok d
  | 0, _ :: _, _, _ => .error .fuel
  | k + 1, .leaf p v :: q, visited, d => cacheLoop n k q visited ((p, {v}) :: d)
  | k + 1, .split p l r :: q, visited, d =>
    if n ≤ p then .error .indexError
    else if p ∈ visited then
      match d.get l.pos with
      | .error e => .error e
      | .ok a =>
        match d.get r.pos with
        | .error e => .error e
        | .ok b => cacheLoop n k q visited ((p, a ∪ b) :: d)
    else cacheLoop n k (l :: r :: .split p l r :: q) (p :: visited) d

/-- `_cache_expected_vars` (/repo/pywmi/engines/xsdd/sdd_iterator.py:54-73).  `np.zeros` raises for a negative length. -/
def cacheExpected (lib : SddLib) : Except PyErr VarCache :=
  if lib.varCount = 0 then .error .valueError
  else cacheLoop (lib.varCount * 2 - 1) lib.root.turns [lib.root] [] []

/-- One tuple of the list `rvalues`: six entries in `depth_first_rec`, four (without the nodes) in `depth_first`
(/repo/pywmi/engines/xsdd/sdd_iterator.py:107, 153). -/
structure RVal (R : Type) where
  prime : R
  sub : R
  usedPrime : Option (Finset ℕ)
  usedSub : Option (Finset ℕ)
  nodes : Option (Sdd × Sdd)

/-- The function that is called for every node (/repo/pywmi/engines/xsdd/sdd_iterator.py:75-92): node, rvalues, expected variables of the prime and
of the sub; None where it is handed. -/
abbrev SddFunc (R : Type) := Option Sdd → Option (List (RVal R)) → Option (Finset ℕ) → Option (Finset ℕ) → Except PyErr R

section
variable {R : Type}

/-- The variables expected in a prime or sub (/repo/pywmi/engines/xsdd/sdd_iterator.py:130-139). -/
def expectedOf (smooth : Bool) (d : VarCache) (child : Option PVtree) : Except PyErr (Finset ℕ) :=
  match smooth, child with
  | false, _ => .ok ∅
  | true, none => .ok ∅
  | true, some t => d.get t.pos

/-- The variables used in a prime or sub (/repo/pywmi/engines/xsdd/sdd_iterator.py:143-152). -/
def usedOf (lib : SddLib) (smooth : Bool) (d : VarCache) (s : Sdd) : Except PyErr (Option (Finset ℕ)) :=
  if smooth then
    match lib.vtreeOf s with
    | none => .ok (some ∅)
    | some t =>
      match d.get t.pos with
      | .ok x => .ok (some x)
      | .error e => .error e
  else .ok none

/-- A node without elements (/repo/pywmi/engines/xsdd/sdd_iterator.py:117-126, 156-160). -/
def visitLeaf (func : SddFunc R) (s : Sdd) (memo : List (Sdd × R)) : Except PyErr (R × List (Sdd × R)) :=
  match memo.lookup s with
  | some r => .ok (r, memo)
  | none =>
    match func (some s) none none none with
    | .error e => .error e
    | .ok r => .ok (r, (s, r) :: memo)

mutual
/-- `depth_first_rec` (/repo/pywmi/engines/xsdd/sdd_iterator.py:115-161). -/
def visitNode (lib : SddLib) (smooth : Bool) (d : VarCache) (func : SddFunc R) : Sdd → List (Sdd × R) → Except PyErr (R × List (Sdd × R))
  | .tt, memo => visitLeaf func .tt memo
  | .ff, memo => visitLeaf func .ff memo
  | .lit l, memo => visitLeaf func (.lit l) memo
  | .dec es, memo =>
    match memo.lookup (.dec es) with
    | some r => .ok (r, memo)
    | none =>
      match lib.vtreeOf (.dec es) with
      | none => .error .attributeError
      | some t =>
        match expectedOf smooth d t.left with
        | .error e => .error e
        | .ok ep =>
          match expectedOf smooth d t.right with
          | .error e => .error e
          | .ok xs =>
            match visitElems lib smooth d func es memo with
            | .error e => .error e
            | .ok (rv, memo') =>
              match func (some (.dec es)) (some rv) (some ep) (some xs) with
              | .error e => .error e
              | .ok r => .ok (r, (.dec es, r) :: memo')
/-- The loop over the elements (/repo/pywmi/engines/xsdd/sdd_iterator.py:140-153). -/
def visitElems (lib : SddLib) (smooth : Bool) (d : VarCache) (func : SddFunc R) : List (Sdd × Sdd) → List (Sdd × R) →
    Except PyErr (List (RVal R) × List (Sdd × R))
  | [], memo => .ok ([], memo)
  | (p, s) :: es, memo =>
    match visitNode lib smooth d func p memo with
    | .error e => .error e
    | .ok (a, memo1) =>
      match visitNode lib smooth d func s memo1 with
      | .error e => .error e
      | .ok (b, memo2) =>
        match usedOf lib smooth d p with
        | .error e => .error e
        | .ok up =>
          match usedOf lib smooth d s with
          | .error e => .error e
          | .ok us =>
            match visitElems lib smooth d func es memo2 with
            | .error e => .error e
            | .ok (rv, memo3) => .ok (⟨a, b, up, us, some (p, s)⟩ :: rv, memo3)
end

/-- `is_true() or is_literal()` (/repo/pywmi/engines/xsdd/sdd_iterator.py:96). -/
def Sdd.isTrueOrLit : Sdd → Bool
  | .tt => true
  | .lit _ => true
  | _ => false

/-- The first part of `depth_first` (/repo/pywmi/engines/xsdd/sdd_iterator.py:93-99). -/
def depthFirstBase (lib : SddLib) (smooth : Bool) (d : VarCache) (func : SddFunc R) (s : Sdd) : Except PyErr R :=
  if smooth && s.isTrueOrLit then
    match d.get lib.root.pos with
    | .error e => .error e
    | .ok all => func (some s) none (some all) (some ∅)
  else
    match visitNode lib smooth d func s [] with
    | .error e => .error e
    | .ok x => .ok x.1

/-- The constructor and `depth_first` (/repo/pywmi/engines/xsdd/sdd_iterator.py:40-52, 93-113).  Without `smooth` the expected variables are None, which has
no entries: TypeError. -/
def depthFirst (lib : SddLib) (smooth toRoot : Bool) (func : SddFunc R) (s : Sdd) : Except PyErr R :=
  match (if smooth then cacheExpected lib else .ok []) with
  | .error e => .error e
  | .ok d =>
    match depthFirstBase lib smooth d func s with
    | .error e => .error e
    | .ok wmc =>
      if toRoot && some lib.root != lib.vtreeOf s then
        match func (some .tt) none none none with
        | .error e => .error e
        | .ok sub =>
          if !smooth then .error .typeError
          else
            match lib.vtreeOf s with
            | none => .error .attributeError
            | some t =>
              match d.get t.pos with
              | .error e => .error e
              | .ok used =>
                match d.get lib.root.pos with
                | .error e => .error e
                | .ok all => func none (some [⟨wmc, sub, some used, some ∅, none⟩]) (some ∅) (some (all \ ∅))
      else .ok wmc

/-- One turn of the loop of `walk_callback` (/repo/pywmi/engines/xsdd/semiring.py:128-139); tuples without nodes cannot be unpacked. -/
def unpackAnd (w : SddWalker R) (v : RVal R) : Except PyErr R :=
  match v.nodes with
  | some _ => w.onAnd v.prime v.sub
  | none => .error .valueError

/-- `walk_callback` (/repo/pywmi/engines/xsdd/semiring.py:111-140). -/
def walkCallback (w : SddWalker R) : SddFunc R := fun node rvalues _ _ =>
  match rvalues with
  | none =>
    match node with
    | none => .error .attributeError
    | some .tt => w.onTrue
    | some .ff => w.onFalse
    | some (.lit l) => w.onLit l
    | some (.dec _) => .error .other
  | some rv =>
    match node with
    | none => .error .attributeError
    | some (.dec _) =>
      match Prog.mapE (unpackAnd w) rv with
      | .error e => .error e
      | .ok xs => w.onOr xs
    | some _ => .error .other

/-- `amc` with `smooth` given (/repo/pywmi/engines/xsdd/semiring.py:105-107, 143-147). -/
def amcSmooth (lib : SddLib) (smooth : Bool) (S : Semi R) (s : Sdd) : Except PyErr R := depthFirst lib smooth false (walkCallback S.walker) s

end
end Pywmi
