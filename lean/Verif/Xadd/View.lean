import Verif.Xadd.Walk

set_option linter.unusedSectionVars false
set_option linter.unusedSimpArgs false

/-!
# Drawings of pyxadd diagrams

Model of `to_dot` (/repo/pywmi/engines/pyxadd/view.py:5-38) and of the last part of `extract_layers`
(/repo/pywmi/engines/pyxadd/walk.py:254-260). A drawing is the list of its lines. The header, the tabulators and the closing brace
are left out, labels are kept as what is printed, not as characters.
-/

namespace Pywmi

section
variable {E : Type} [DecidableEq E]

/-- `nested_reverse[count].append(node_id)`, with `nested_reverse[count] = []` first for a new key
(/repo/pywmi/engines/pyxadd/walk.py:256-259). -/
def addLayer : List (ℕ × List ℕ) → ℕ → ℕ → List (ℕ × List ℕ)
  | [], i, n => [(i, [n])]
  | (k, l) :: d, i, n => if k = i then (k, l ++ [n]) :: d else (k, l) :: addLayer d i n

/-- The dictionary `nested_reverse` (/repo/pywmi/engines/pyxadd/walk.py:254-260). -/
def layerDict (pos : List (ℕ × ℕ)) : List (ℕ × List ℕ) :=
  pos.foldl (fun d q => addLayer d q.2 q.1) []

/-- `WalkingProfile.extract_layers(diagram, ParentsWalker(diagram).walk())` (/repo/pywmi/engines/pyxadd/view.py:9). -/
def viewLayers (p : Pool E) (root : ℕ) : Except PyErr (List (ℕ × List ℕ)) :=
  match parentsOf p root with
  | .error e => .error e
  | .ok par =>
    match layerLoop p (par.length + 1) ⟨[(root, 0)], par, [root]⟩ with
    | .error e => .error e
    | .ok s => .ok (layerDict s.pos)

/-- What `float(text)` gives: a `ValueError`, a number, an infinity or not-a-number. -/
inductive FloatRes where
  | notFloat
  | num (q : ℚ)
  | inf
  | nan
deriving DecidableEq, Repr

/-- Labels: `str` or `repr` of a decision, the text of an expression, or the text of an integer. -/
inductive ViewLabel (E : Type) where
  | decision (d : Decision) (pretty : Bool)
  | expr (e : E)
  | int (z : ℤ)
deriving DecidableEq, Repr

/-- Lines of a drawing: a node with (or without) its id in the label, an edge, a group of nodes on the same height. -/
inductive ViewLine (E : Type) where
  | node (n : ℕ) (withId : Bool) (label : ViewLabel E) (box : Bool)
  | edge (a b : ℕ) (dashed : Bool)
  | rank (ns : List ℕ)
deriving DecidableEq, Repr

/-- The label of a leaf (/repo/pywmi/engines/pyxadd/view.py:22-28): `int(inf)` raises an `OverflowError`, which is not caught,
`int(nan)` raises a `ValueError`, which is. -/
def leafLabel (fl : E → FloatRes) (e : E) : Except PyErr (ViewLabel E) :=
  match fl e with
  | .notFloat => .ok (.expr e)
  | .nan => .ok (.expr e)
  | .inf => .error .other
  | .num q => if q.den = 1 then .ok (.int q.num) else .ok (.expr e)

/-- The lines for one node (/repo/pywmi/engines/pyxadd/view.py:14-35). -/
def nodeLines (p : Pool E) (fl : E → FloatRes) (pretty ids : Bool) (n : ℕ) : Except PyErr (List (ViewLine E)) :=
  match p.node n with
  | none => .error .runtimeError
  | some (.inner d t f) => .ok [.node n ids (.decision d pretty) false, .edge n t false, .edge n f true]
  | some (.leaf e) =>
    match leafLabel fl e with
    | .error x => .error x
    | .ok l => .ok [.node n ids l true]

/-- The lines for one layer (/repo/pywmi/engines/pyxadd/view.py:12-36). -/
def layerLines (p : Pool E) (fl : E → FloatRes) (pretty ids : Bool) (q : ℕ × List ℕ) : Except PyErr (List (ViewLine E)) :=
  match Prog.mapE (nodeLines p fl pretty ids) q.2 with
  | .error x => .error x
  | .ok ls => .ok (ls.flatten ++ [.rank q.2])

/-- `to_dot` (/repo/pywmi/engines/pyxadd/view.py:5-38); `fl` is `float` of the text of an expression. -/
def viewDot (p : Pool E) (root : ℕ) (fl : E → FloatRes) (pretty ids : Bool) : Except PyErr (List (ViewLine E)) :=
  match viewLayers p root with
  | .error x => .error x
  | .ok d =>
    match Prog.mapE (layerLines p fl pretty ids) d with
    | .error x => .error x
    | .ok ls => .ok ls.flatten

end

end Pywmi
