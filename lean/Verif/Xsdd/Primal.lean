import Verif.Xsdd.Literals
import Mathlib.Data.List.Lattice

/-!
# Primal graphs: model of /repo/pywmi/engines/xsdd/vtrees/primal.py

Sets are lists read as sets; every result below depends on them only through membership, except for the order of ties,
which Python leaves open too. Dictionaries are association lists.
-/

namespace Pywmi

section
variable {κ ν : Type} [DecidableEq κ]

/-- `d[k]`. -/
def assocGet (d : List (κ × ν)) (k : κ) : Except PyErr ν :=
  match d.lookup k with
  | some v => .ok v
  | none => .error .keyError

/-- `d.update(e)`. -/
def assocUpdate (d e : List (κ × ν)) : List (κ × ν) := e.foldl (fun d p => assocSet d p.1 p.2) d

/-- `d[k] = f(d[k])`, for in-place changes of a stored set. -/
def assocModify (d : List (κ × ν)) (k : κ) (f : ν → ν) : Except PyErr (List (κ × ν)) :=
  match d.lookup k with
  | some v => .ok (assocSet d k (f v))
  | none => .error .keyError

/-- A loop `for x in xs: d[key(x)] = f(x, d[key(x)])`. -/
def assocModifyAll {β : Type} (key : β → κ) (f : β → ν → ν) : List β → List (κ × ν) → Except PyErr (List (κ × ν))
  | [], d => .ok d
  | x :: xs, d =>
    match assocModify d (key x) (f x) with
    | .ok d' => assocModifyAll key f xs d'
    | .error e => .error e
end

/-- The fill of a vertex: number and list of missing edges (/repo/pywmi/engines/xsdd/vtrees/primal.py:22). -/
abbrev Fill (α : Type) := ℕ × List (α × List α)

/-- `PrimalGraph` (/repo/pywmi/engines/xsdd/vtrees/primal.py:10-24). `ValueSortedDict` is modelled as a dictionary; its
order by value is recovered by `minimum` and `getMinfills`. -/
structure PrimalGraph (α : Type) where
  connected : List (α × List α)
  fills : Option (List (α × Fill α))
  degrees : Option (List (α × ℕ))

namespace PrimalGraph
variable {α : Type} [DecidableEq α]

/-- `__init__` (/repo/pywmi/engines/xsdd/vtrees/primal.py:13-24). -/
def make (vertices : List α) (fills degrees : Bool) : PrimalGraph α :=
  { connected := vertices.foldl (fun d v => assocSet d v []) []
    fills := if fills then some [] else none
    degrees := if degrees then some [] else none }

/-- `add_edge` (/repo/pywmi/engines/xsdd/vtrees/primal.py:36-40). -/
def addEdge (G : PrimalGraph α) (a b : α) : Except PyErr (PrimalGraph α) :=
  if a = b then .error .assertionError
  else
    match assocModify G.connected a (fun s => s ∪ [b]) with
    | .error e => .error e
    | .ok d =>
      match assocModify d b (fun s => s ∪ [a]) with
      | .error e => .error e
      | .ok d' => .ok { G with connected := d' }

/-- `add_edges` (/repo/pywmi/engines/xsdd/vtrees/primal.py:42-46). -/
def addEdges (G : PrimalGraph α) (nodes : List α) : Except PyErr (PrimalGraph α) :=
  match assocModifyAll id (fun v s => (s ∪ nodes).filter (· ≠ v)) nodes G.connected with
  | .ok d => .ok { G with connected := d }
  | .error e => .error e

/-- The loop of `compute_fills` over the connections of one vertex (/repo/pywmi/engines/xsdd/vtrees/primal.py:58-64). -/
def fillEdges (connected : List (α × List α)) (connections : List α) : List α → Except PyErr (List (α × List α))
  | [] => .ok []
  | c :: cs =>
    match assocGet connected c with
    | .error e => .error e
    | .ok nb =>
      match fillEdges connected connections cs with
      | .error e => .error e
      | .ok rest =>
        let unconnected := (connections.filter (· ∉ nb)).filter (· ≠ c)
        .ok (if 0 < unconnected.length then (c, unconnected) :: rest else rest)

/-- One round of `compute_fills` (/repo/pywmi/engines/xsdd/vtrees/primal.py:54-65); `connected_to.get` of an unknown
vertex gives None, over which the loop raises TypeError. -/
def fillOf (connected : List (α × List α)) (v : α) : Except PyErr (Fill α) :=
  match connected.lookup v with
  | none => .error .typeError
  | some connections =>
    match fillEdges connected connections connections with
    | .error e => .error e
    | .ok edges => .ok ((edges.map fun p => p.2.length).sum, edges)

/-- The loop of `compute_fills`. -/
def fillLoop (connected : List (α × List α)) : List α → List (α × Fill α) → Except PyErr (List (α × Fill α))
  | [], fs => .ok fs
  | v :: vs, fs =>
    match fillOf connected v with
    | .error e => .error e
    | .ok f => fillLoop connected vs (assocSet fs v f)

/-- `compute_fills(of_nodes)` (/repo/pywmi/engines/xsdd/vtrees/primal.py:48-65). -/
def computeFills (G : PrimalGraph α) (ofNodes : List α) : Except PyErr (PrimalGraph α) :=
  match G.fills with
  | none => .error .assertionError
  | some fs =>
    match fillLoop G.connected ofNodes fs with
    | .error e => .error e
    | .ok fs' => .ok { G with fills := some fs' }

/-- `compute_fills()` for all vertices. -/
def computeAllFills (G : PrimalGraph α) : Except PyErr (PrimalGraph α) := G.computeFills (G.connected.map (·.1))

/-- The loop of `compute_degrees` (/repo/pywmi/engines/xsdd/vtrees/primal.py:73-74). -/
def degreeLoop (connected : List (α × List α)) : List α → List (α × ℕ) → Except PyErr (List (α × ℕ))
  | [], ds => .ok ds
  | v :: vs, ds =>
    match assocGet connected v with
    | .error e => .error e
    | .ok nb => degreeLoop connected vs (assocSet ds v nb.length)

/-- `compute_degrees(of_nodes)` (/repo/pywmi/engines/xsdd/vtrees/primal.py:67-74). -/
def computeDegrees (G : PrimalGraph α) (ofNodes : List α) : Except PyErr (PrimalGraph α) :=
  match G.degrees with
  | none => .error .assertionError
  | some ds =>
    match degreeLoop G.connected ofNodes ds with
    | .error e => .error e
    | .ok ds' => .ok { G with degrees := some ds' }

/-- `if self._degrees is not None: self.compute_degrees(neighbors)`. -/
def refreshDegrees (G : PrimalGraph α) (ofNodes : List α) : Except PyErr (PrimalGraph α) :=
  match G.degrees with
  | none => .ok G
  | some _ => G.computeDegrees ofNodes

/-- `remove_and_process_node` (/repo/pywmi/engines/xsdd/vtrees/primal.py:76-96). -/
def removeAndProcess (G : PrimalGraph α) (a : α) : Except PyErr (PrimalGraph α) :=
  match assocGet G.connected a with
  | .error e => .error e
  | .ok neighbors =>
    let connected := assocDel G.connected a
    match G.fills with
    | some fs =>
      match assocGet fs a with
      | .error e => .error e
      | .ok (_, edges) =>
        match assocModifyAll id (fun _ s => s.filter (· ≠ a)) neighbors connected with
        | .error e => .error e
        | .ok c1 =>
          match assocModifyAll (·.1) (fun p s => s ∪ p.2) edges c1 with
          | .error e => .error e
          | .ok c2 =>
            match ({ G with connected := c2, fills := some (assocDel fs a) } : PrimalGraph α).computeFills neighbors with
            | .error e => .error e
            | .ok G' => G'.refreshDegrees neighbors
    | none =>
      match assocModifyAll id (fun _ s => (s ∪ neighbors).filter (· ≠ a)) neighbors connected with
      | .error e => .error e
      | .ok c1 => ({ G with connected := c1 } : PrimalGraph α).refreshDegrees neighbors

/-- `remove_node` (/repo/pywmi/engines/xsdd/vtrees/primal.py:98-110). -/
def removeNode (G : PrimalGraph α) (a : α) : Except PyErr (PrimalGraph α) :=
  match assocGet G.connected a with
  | .error e => .error e
  | .ok neighbors =>
    match assocModifyAll id (fun _ s => s.filter (· ≠ a)) neighbors (assocDel G.connected a) with
    | .error e => .error e
    | .ok c1 =>
      match ({ G with connected := c1 } : PrimalGraph α).refreshDegrees neighbors with
      | .error e => .error e
      | .ok G' =>
        match G'.fills with
        | none => .ok G'
        | some fs =>
          match assocGet fs a with
          | .error e => .error e
          | .ok _ => ({ G' with fills := some (assocDel fs a) } : PrimalGraph α).computeFills neighbors

/-- The value of the first item of the value-sorted dictionary: the least fill. -/
def minimum : List ℕ → Option ℕ
  | [] => none
  | x :: xs => some (xs.foldl min x)

/-- `get_minfills` (/repo/pywmi/engines/xsdd/vtrees/primal.py:112-121): the keys sharing the least fill. -/
def getMinfills (G : PrimalGraph α) : Except PyErr (List α) :=
  match G.fills with
  | none => .error .assertionError
  | some fs =>
    match minimum (fs.map (·.2.1)) with
    | none => .error .assertionError
    | some m => .ok ((fs.filter fun p => p.2.1 = m).map (·.1))

/-- `get_mindegrees` (/repo/pywmi/engines/xsdd/vtrees/primal.py:123-132). -/
def getMindegrees (G : PrimalGraph α) : Except PyErr (List α) :=
  match G.degrees with
  | none => .error .assertionError
  | some ds =>
    match minimum (ds.map (·.2)) with
    | none => .error .assertionError
    | some m => .ok ((ds.filter fun p => p.2 = m).map (·.1))

/-- `{n: d[n] for n in ns}`. -/
def backup {ν : Type} (d : List (α × ν)) : List α → Except PyErr (List (α × ν))
  | [] => .ok []
  | n :: ns =>
    match assocGet d n with
    | .error e => .error e
    | .ok v =>
      match backup d ns with
      | .error e => .error e
      | .ok rest => .ok ((n, v) :: rest)

/-- The least fill after eliminating one vertex, and the restored graph
(/repo/pywmi/engines/xsdd/vtrees/primal.py:142-161). -/
def lookAhead (G : PrimalGraph α) (v : α) : Except PyErr (ℕ × PrimalGraph α) :=
  match assocGet G.connected v with
  | .error e => .error e
  | .ok neighbors =>
    match backup G.connected neighbors with
    | .error e => .error e
    | .ok bc =>
      match G.fills with
      | none => .error .typeError
      | some fs =>
        match backup fs neighbors with
        | .error e => .error e
        | .ok bf =>
          match assocGet fs v with
          | .error e => .error e
          | .ok fv =>
            match G.removeAndProcess v with
            | .error e => .error e
            | .ok G' =>
              match G'.fills with
              | none => .error .typeError
              | some fs' =>
                match minimum (fs'.map (·.2.1)) with
                | none => .error .indexError
                | some m => .ok (m, { G' with
                    connected := assocUpdate G'.connected (assocSet bc v neighbors)
                    fills := some (assocUpdate fs' (assocSet bf v fv)) })

/-- The loop of `get_lowest_future_minfill` (/repo/pywmi/engines/xsdd/vtrees/primal.py:139-161). `none` is `math.inf`. -/
def lowestLoop : List α → PrimalGraph α → Option ℕ → List α → Except PyErr (List α × PrimalGraph α)
  | [], G, _, best => .ok (best, G)
  | v :: vs, G, low, best =>
    match G.lookAhead v with
    | .error e => .error e
    | .ok (m, G') =>
      match low with
      | none => lowestLoop vs G' (some m) [v]
      | some l =>
        if m < l then lowestLoop vs G' (some m) [v]
        else if m = l then lowestLoop vs G' (some l) (best ++ [v])
        else lowestLoop vs G' (some l) best

/-- `get_lowest_future_minfill` (/repo/pywmi/engines/xsdd/vtrees/primal.py:134-163). -/
def getLowestFutureMinfill (G : PrimalGraph α) (vertices : List α) : Except PyErr (List α × PrimalGraph α) :=
  if vertices.length = 1 then .ok (vertices, G) else lowestLoop vertices G none []

/-- `for co_occurrence_set in co_occurrences: primal.add_edges(co_occurrence_set)`. -/
def addAllEdges : List (List α) → PrimalGraph α → Except PyErr (PrimalGraph α)
  | [], G => .ok G
  | s :: ss, G =>
    match G.addEdges s with
    | .ok G' => addAllEdges ss G'
    | .error e => .error e

/-- `create_interaction_graph_from_literals` (/repo/pywmi/engines/xsdd/vtrees/primal.py:166-182). -/
def interaction (vertices : List α) (groups : List (List α)) (fills degrees : Bool) : Except PyErr (PrimalGraph α) :=
  addAllEdges groups (make vertices fills degrees)

end PrimalGraph
end Pywmi
