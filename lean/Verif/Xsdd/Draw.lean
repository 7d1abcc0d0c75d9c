import Verif.Xsdd.Sdd
import Verif.Xsdd.Literals

/-!
# Drawings of diagrams

Model of `SddToDot` and `sdd_to_dot` (/repo/pywmi/engines/xsdd/draw.py:10-183).

A line of the output is modelled by the record of the values that are printed into it.  The code collects lines in sets of strings; a
line begins with the numbers of its vertices, and the theorems show that a number has one record.
-/

namespace Pywmi

/-- What identifies a drawn object: `node.id` or the pair of ids of an element (/repo/pywmi/engines/xsdd/draw.py:41, 69, 107). -/
inductive DKey where
  | node (n : ℕ)
  | elem (p s : ℕ)
deriving DecidableEq, Repr

/-- The label of a vertex (/repo/pywmi/engines/xsdd/draw.py:42, 54, 71, 110, 137-139, 156). -/
inductive DKind where
  | tt
  | ff
  | and
  | or (n : ℕ)
  | lit (n : ℕ) (neg : Bool) (v : LitVal)
deriving DecidableEq, Repr

/-- A line that declares a vertex: number, label, annotation after the label, `shape=rectangle`
(/repo/pywmi/engines/xsdd/draw.py:47, 60, 85, 125, 145, 162). -/
structure DVertex where
  id : ℕ
  kind : DKind
  note : Option String
  rect : Bool
deriving DecidableEq, Repr

/-- A line that declares an edge (/repo/pywmi/engines/xsdd/draw.py:91-96, 130). -/
structure DEdge where
  src : ℕ
  dst : ℕ
  label : String
deriving DecidableEq, Repr

/-- The tuple that the methods return (/repo/pywmi/engines/xsdd/draw.py:45-50). -/
structure DotRes where
  vid : ℕ
  nodes : Finset DVertex
  edges : Finset DEdge
  key : DKey

/-- The fields of `SddToDot` that do not change (/repo/pywmi/engines/xsdd/draw.py:23-31), the ids of the nodes and `smt.simplify`.
`seen` is written and never read, and left out. -/
structure DotOpts where
  nid : Sdd → ℕ
  literals : LiteralInfo
  simplify : Formula → Formula
  nodeAnn : List (DKey × String)
  edgeAnn : List ((DKey × DKey) × String)
  skipFalse : Bool
  skipFalseOr : Bool

namespace DotOpts

/-- `edge_annotations.get((a, b), "")` (/repo/pywmi/engines/xsdd/draw.py:75-76, 128). -/
def edgeLabel (o : DotOpts) (a b : DKey) : String := (o.edgeAnn.lookup (a, b)).getD ""

/-- `walk_true` (/repo/pywmi/engines/xsdd/draw.py:40-50); `c` is the number from `get_id` (lines 33-38). -/
def walkTrue (o : DotOpts) (c : ℕ) : DotRes :=
  let key := DKey.node (o.nid .tt)
  ⟨c, {⟨c, .tt, o.nodeAnn.lookup key, false⟩}, ∅, key⟩

/-- `walk_false` (/repo/pywmi/engines/xsdd/draw.py:52-66). -/
def walkFalse (o : DotOpts) (c : ℕ) : DotRes :=
  let key := DKey.node (o.nid .ff)
  ⟨c, if o.skipFalse then ∅ else {⟨c, .ff, o.nodeAnn.lookup key, false⟩}, ∅, key⟩

/-- `walk_and` (/repo/pywmi/engines/xsdd/draw.py:68-104). -/
def walkAnd (o : DotOpts) (prime sub : DotRes) (p s : Sdd) (c : ℕ) : DotRes :=
  let key := DKey.elem (o.nid p) (o.nid s)
  if o.skipFalse ∧ (prime.nodes = ∅ ∨ sub.nodes = ∅) then ⟨c, ∅, ∅, key⟩
  else ⟨c, prime.nodes ∪ sub.nodes ∪ {⟨c, .and, o.nodeAnn.lookup key, false⟩},
    prime.edges ∪ sub.edges ∪ {⟨c, prime.vid, o.edgeLabel key prime.key⟩, ⟨c, sub.vid, o.edgeLabel key sub.key⟩}, key⟩

/-- The last part of `walk_or` (/repo/pywmi/engines/xsdd/draw.py:120-132). -/
def orGraph (o : DotOpts) (rs : List DotRes) (n c : ℕ) : DotRes :=
  let key := DKey.node n
  let drawn := rs.filter fun r => !o.skipFalse || decide (r.nodes ≠ ∅)
  ⟨c, rs.foldr (fun r x => r.nodes ∪ x) {⟨c, .or n, o.nodeAnn.lookup key, false⟩},
    rs.foldr (fun r x => r.edges ∪ x) ((drawn.map fun r => (⟨c, r.vid, o.edgeLabel key r.key⟩ : DEdge)).toFinset), key⟩

/-- `walk_or` (/repo/pywmi/engines/xsdd/draw.py:106-132). -/
def walkOr (o : DotOpts) (rs : List DotRes) (n c : ℕ) : DotRes :=
  if o.skipFalse && o.skipFalseOr then
    match rs.filter fun r => decide (r.nodes ≠ ∅) with
    | [] => ⟨c, ∅, ∅, .node n⟩
    | [r] => r
    | r :: r' :: rest => o.orGraph (r :: r' :: rest) n c
  else o.orGraph rs n c

/-- The label of a literal (/repo/pywmi/engines/xsdd/draw.py:136-156); `~` of a string is a TypeError. -/
def litKind (o : DotOpts) (l : ℤ) (n : ℕ) : Except PyErr DKind :=
  match o.literals.isNumberBoolean l with
  | .error e => .error e
  | .ok isBool =>
    match o.literals.numberToVal l with
    | .error e => .error e
    | .ok v =>
      if isBool then .ok (.lit n (l < 0) v)
      else if l < 0 then
        match v with
        | .atom f => .ok (.lit n false (.atom (o.simplify (.not f))))
        | .bool _ => .error .typeError
      else .ok (.lit n false v)

/-- `walk_literal` (/repo/pywmi/engines/xsdd/draw.py:134-168). -/
def walkLit (o : DotOpts) (l : ℤ) (c : ℕ) : Except PyErr DotRes :=
  let key := DKey.node (o.nid (.lit l))
  match o.litKind l (o.nid (.lit l)) with
  | .error e => .error e
  | .ok k => .ok ⟨c, {⟨c, k, o.nodeAnn.lookup key, true⟩}, ∅, key⟩

/-- `walk_and` on every element (/repo/pywmi/engines/xsdd/semiring.py:128-139), each with its own number. -/
def walkAnds (o : DotOpts) : List (DotRes × DotRes) → List (Sdd × Sdd) → ℕ → List DotRes
  | (a, b) :: rs, (p, s) :: es, c => o.walkAnd a b p s c :: walkAnds o rs es (c + 1)
  | _, _, _ => []

/-- `_wmc_cache` and `vertex_counter`. -/
structure St where
  memo : List (Sdd × DotRes)
  c : ℕ

mutual
/-- `depth_first_rec` with the callback of `walk` (/repo/pywmi/engines/xsdd/sdd_iterator.py:115-161,
/repo/pywmi/engines/xsdd/semiring.py:111-140). -/
def visit (o : DotOpts) : Sdd → St → Except PyErr (DotRes × St)
  | .tt, st =>
    match st.memo.lookup .tt with
    | some r => .ok (r, st)
    | none => .ok (o.walkTrue st.c, ⟨(.tt, o.walkTrue st.c) :: st.memo, st.c + 1⟩)
  | .ff, st =>
    match st.memo.lookup .ff with
    | some r => .ok (r, st)
    | none => .ok (o.walkFalse st.c, ⟨(.ff, o.walkFalse st.c) :: st.memo, st.c + 1⟩)
  | .lit l, st =>
    match st.memo.lookup (.lit l) with
    | some r => .ok (r, st)
    | none =>
      match o.walkLit l st.c with
      | .error e => .error e
      | .ok r => .ok (r, ⟨(.lit l, r) :: st.memo, st.c + 1⟩)
  | .dec es, st =>
    match st.memo.lookup (.dec es) with
    | some r => .ok (r, st)
    | none =>
      match visitElems o es st with
      | .error e => .error e
      | .ok (rs, st') =>
        let r := o.walkOr (o.walkAnds rs es st'.c) (o.nid (.dec es)) (st'.c + es.length)
        .ok (r, ⟨(.dec es, r) :: st'.memo, st'.c + es.length + 1⟩)
/-- The loop over the elements (/repo/pywmi/engines/xsdd/sdd_iterator.py:140-153). -/
def visitElems (o : DotOpts) : List (Sdd × Sdd) → St → Except PyErr (List (DotRes × DotRes) × St)
  | [], st => .ok ([], st)
  | (p, s) :: es, st =>
    match visit o p st with
    | .error e => .error e
    | .ok (a, st1) =>
      match visit o s st1 with
      | .error e => .error e
      | .ok (b, st2) =>
        match visitElems o es st2 with
        | .error e => .error e
        | .ok (rs, st3) => .ok ((a, b) :: rs, st3)
end

/-- `sdd_to_dot` (/repo/pywmi/engines/xsdd/draw.py:171-183): the declared vertices and edges. The order of the lines, that of the sets, is left
open. -/
def sddToDot (nid : Sdd → ℕ) (literals : LiteralInfo) (simplify : Formula → Formula) (nodeAnn : List (DKey × String))
    (edgeAnn : List ((DKey × DKey) × String)) (drawFalse drawSingleOr : Bool) (s : Sdd) : Except PyErr (Finset DVertex × Finset DEdge) :=
  let o : DotOpts := ⟨nid, literals, simplify, nodeAnn, edgeAnn, !drawFalse, !drawSingleOr⟩
  match o.visit s ⟨[], 0⟩ with
  | .error e => .error e
  | .ok (r, _) => .ok (r.nodes, r.edges)

end DotOpts
end Pywmi
