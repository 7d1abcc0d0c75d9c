import Verif.Smt.Formula

/-!
# Vtrees: model of /repo/pywmi/engines/xsdd/vtrees/vtree.py

Node objects are modelled as values of an inductive type. The only mutation the code performs on nodes is the
relabelling at the end of `create_balanced` (modelled by `relabel`) and the assignment of `_internal_id` in
`to_pysdd` (modelled by `number`); in both cases every node object occurs once in the tree.
-/

namespace Pywmi

/-- `VtreeEmpty`, `VtreeVar`, `VtreeSplit` (/repo/pywmi/engines/xsdd/vtrees/vtree.py:143-219). -/
inductive Vtree (α : Type) where
  | empty : Vtree α
  | var : α → Vtree α
  | split : Vtree α → Vtree α → Vtree α
deriving DecidableEq, Repr

namespace Vtree

variable {α : Type}

/-- `all_leaves` followed by `.var`, i.e. `all_vars` (/repo/pywmi/engines/xsdd/vtrees/vtree.py:104-106, 147, 166-168, 204). -/
def leaves : Vtree α → List α
  | empty => []
  | var v => [v]
  | split l r => l.leaves ++ r.leaves

/-- `count` (/repo/pywmi/engines/xsdd/vtrees/vtree.py:146, 163-164, 203). -/
def count : Vtree α → ℕ
  | empty => 0
  | var _ => 1
  | split l r => l.count + r.count + 1

/-- `count_leaves` (/repo/pywmi/engines/xsdd/vtrees/vtree.py:145, 160-161, 203). -/
def countLeaves : Vtree α → ℕ
  | empty => 0
  | var _ => 1
  | split l r => l.countLeaves + r.countLeaves

/-- `depth` (/repo/pywmi/engines/xsdd/vtrees/vtree.py:144, 157-158, 202). -/
def depth : Vtree α → ℕ
  | empty => 0
  | var _ => 0
  | split l r => max l.depth r.depth + 1

/-- `balanced_add` (/repo/pywmi/engines/xsdd/vtrees/vtree.py:149, 175-181, 206-210). -/
def balancedAdd (t : Vtree α) (new : Vtree α) (preferLeft : Bool) : Vtree α :=
  match t with
  | empty => empty
  | var v => if preferLeft then split new (var v) else split (var v) new
  | split l r =>
    if l.count < r.count ∨ (l.count = r.count ∧ preferLeft = true) then split (l.balancedAdd new preferLeft) r
    else split l (r.balancedAdd new preferLeft)

/-- `for leaf, var in zip(root.all_leaves(), varlist): leaf.var = var`
(/repo/pywmi/engines/xsdd/vtrees/vtree.py:79-80): consumes names from left to right and returns the unused ones. -/
def relabel : Vtree α → List α → Vtree α × List α
  | empty, vs => (empty, vs)
  | var v, [] => (var v, [])
  | var _, v :: vs => (var v, vs)
  | split l r, vs => (split (relabel l vs).1 (relabel r (relabel l vs).2).1, (relabel r (relabel l vs).2).2)

/-- `Vtree.create_balanced` (/repo/pywmi/engines/xsdd/vtrees/vtree.py:69-81). -/
def createBalanced (vs : List α) (preferLeft : Bool) : Vtree α :=
  match vs with
  | [] => empty
  | v :: rest => (relabel (rest.foldl (fun root x => root.balancedAdd (var x) preferLeft) (var v)) (v :: rest)).1

/-- `Vtree.create_rightlinear` (/repo/pywmi/engines/xsdd/vtrees/vtree.py:83-90). -/
def createRightlinear : List α → Vtree α
  | [] => empty
  | v :: rest => rest.foldl (fun t x => split (var x) t) (var v)

/-- `Vtree.create_leftlinear` (/repo/pywmi/engines/xsdd/vtrees/vtree.py:92-99). -/
def createLeftlinear : List α → Vtree α
  | [] => empty
  | v :: rest => rest.foldl (fun t x => split t (var x)) (var v)

/-- A vtree whose nodes carry the `_internal_id` attribute set in `to_pysdd`; `VtreeEmpty` is not yielded by
`all_nodes` and gets none. -/
inductive Numbered (α : Type) where
  | empty : Numbered α
  | var : ℕ → α → Numbered α
  | split : ℕ → Numbered α → Numbered α → Numbered α

/-- `node._internal_id`; an AttributeError for `VtreeEmpty`. -/
def Numbered.id? : Numbered α → Except PyErr ℕ
  | .empty => .error .attributeError
  | .var i _ => .ok i
  | .split i _ _ => .ok i

/-- `for internal_id, node in enumerate(self.all_nodes()): node._internal_id = internal_id`
(/repo/pywmi/engines/xsdd/vtrees/vtree.py:130-131), with `all_nodes` (148, 170-173, 204) yielding children before
parents. The second component is the next free id. -/
def number : Vtree α → ℕ → Numbered α × ℕ
  | empty, n => (.empty, n)
  | var v, n => (.var n v, n + 1)
  | split l r, n =>
    (.split (number r (number l n).2).2 (number l n).1 (number r (number l n).2).1, (number r (number l n).2).2 + 1)

/-- The lines of a vtree file after the comment and header lines: `L id var` and `I id left right`
(syntax quoted at /repo/pywmi/engines/xsdd/vtrees/vtree.py:120-128). -/
inductive Line where
  | leaf : ℕ → ℕ → Line
  | inner : ℕ → ℕ → ℕ → Line
deriving DecidableEq, Repr

/-- `_to_pysdd` (/repo/pywmi/engines/xsdd/vtrees/vtree.py:151, 193-198, 218-219). -/
def lines [BEq α] (varnums : List (α × ℕ)) : Numbered α → Except PyErr (List Line)
  | .empty => .ok []
  | .var i v =>
    match varnums.lookup v with
    | some n => .ok [.leaf i n]
    | none => .error .keyError
  | .split i l r =>
    match lines varnums l with
    | .error e => .error e
    | .ok a =>
      match lines varnums r with
      | .error e => .error e
      | .ok b =>
        match l.id? with
        | .error e => .error e
        | .ok il =>
          match r.id? with
          | .error e => .error e
          | .ok ir => .ok (a ++ b ++ [.inner i il ir])

/-- The content of the file handed to `PysddVtree.from_file`, or the request for a one-variable vtree
(`to_pysdd`, /repo/pywmi/engines/xsdd/vtrees/vtree.py:108-140). -/
inductive Export where
  | oneVariable : Export
  | file : ℕ → List Line → Export
deriving DecidableEq, Repr

/-- `to_pysdd` up to the external loader (/repo/pywmi/engines/xsdd/vtrees/vtree.py:108-140). The text layer
(spaces, the comment line) is not modelled. -/
def toPysdd [BEq α] (t : Vtree α) (varnums : List (α × ℕ)) : Except PyErr Export :=
  match varnums with
  | [] => .ok .oneVariable
  | _ =>
    match lines varnums (t.number 0).1 with
    | .error e => .error e
    | .ok ls => .ok (.file t.count ls)

end Vtree

end Pywmi
