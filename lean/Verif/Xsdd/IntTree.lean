import Verif.Xsdd.Primal
import Verif.Xsdd.Vtree
import Mathlib.Data.List.Sort

/-!
# Integration trees and the bami vtree: model of /repo/pywmi/engines/xsdd/vtrees/int_tree.py and of `bami` in
/repo/pywmi/engines/xsdd/vtrees/vtree.py

Sets are duplicate-free lists. Where the code iterates over a set of literals the order is the unspecified parameter
`ord`; where it takes the first of several equally good vertices, `tie` is the unspecified order of the value-sorted
dictionary.
-/

namespace Pywmi

/-- `IntTreeVar`, `IntTreeLine`, `IntTreeSplit`, `IntTreeParallel` (/repo/pywmi/engines/xsdd/vtrees/int_tree.py:47-58,
89-106, 177-198, 280-296). -/
inductive IntTree (α : Type) where
  | var : α → IntTree α
  | line : α → IntTree α → IntTree α
  | split : Option α → IntTree α → IntTree α → IntTree α
  | parallel : Option α → List (IntTree α) → Option (List ℕ) → IntTree α

namespace IntTree
variable {α L : Type} [DecidableEq α] [DecidableEq L]

mutual
/-- `get_con_vars` (/repo/pywmi/engines/xsdd/vtrees/int_tree.py:63-64, 113-117, 203-207, 301-302). -/
def conVars : IntTree α → List α
  | .var v => [v]
  | .line v t => v :: conVars t
  | .split v l r => v.toList ++ (conVars l ++ conVars r)
  | .parallel v ts _ => v.toList ++ conVarsL ts
/-- `set().union(*(tree.get_con_vars() for tree in self.trees))`. -/
def conVarsL : List (IntTree α) → List α
  | [] => []
  | t :: ts => conVars t ++ conVarsL ts
end

mutual
/-- `depth` (/repo/pywmi/engines/xsdd/vtrees/int_tree.py:66-67, 119-120, 209-210, 304-305); a parallel node without
children does not exist (assertion at line 194), here it would count 1. -/
def depth : IntTree α → ℕ
  | .var _ => 1
  | .line _ t => 1 + depth t
  | .split _ l r => 1 + max (depth l) (depth r)
  | .parallel _ ts _ => 1 + depthL ts
/-- The greatest depth among the children. -/
def depthL : List (IntTree α) → ℕ
  | [] => 0
  | t :: ts => max (depth t) (depthL ts)
end

mutual
/-- `con_count` (/repo/pywmi/engines/xsdd/vtrees/int_tree.py:60-61, 108-111, 200-201, 298-299). -/
def conCount : IntTree α → ℕ
  | .var _ => 1
  | .line _ t => 1 + conCount t
  | .split v l r => v.toList.length + conCount l + conCount r
  | .parallel v ts _ => v.toList.length + conCountL ts
/-- The sum over the children. -/
def conCountL : List (IntTree α) → ℕ
  | [] => 0
  | t :: ts => conCount t + conCountL ts
end

mutual
/-- A measure for the recursion of `create_vtree`, which rebuilds parallel nodes: not in the code. -/
def size : IntTree α → ℕ
  | .var _ => 1
  | .line _ t => 1 + size t
  | .split _ l r => 1 + size l + size r
  | .parallel _ ts _ => sizeL ts - 2
/-- The measure of a list of children. -/
def sizeL : List (IntTree α) → ℕ
  | [] => 0
  | t :: ts => 3 + size t + sizeL ts
end

/-- `logic2cont[lit]` on a `defaultdict(set)`. -/
def conts (l2c : List (L × List α)) (lit : L) : List α := (l2c.lookup lit).getD []

/-- `len(s & t) > 0`. -/
def meets (s t : List α) : Bool := s.any (· ∈ t)

/-- The loop distributing literals to the left, the right, or neither (/repo/pywmi/engines/xsdd/vtrees/int_tree.py:135-151). -/
def distribute (l2c : List (L × List α)) (left right : List α) : List L → Except PyErr (List L × List L × List L)
  | [] => .ok ([], [], [])
  | lit :: lits =>
    let c := conts l2c lit
    if meets c left ∧ meets c right then .error .assertionError
    else
      match distribute l2c left right lits with
      | .error e => .error e
      | .ok (l, r, m) =>
        if meets c left then .ok (lit :: l, r, m)
        else if meets c right then .ok (l, lit :: r, m)
        else .ok (l, r, lit :: m)

/-- Balancing the remaining literals (/repo/pywmi/engines/xsdd/vtrees/int_tree.py:154-169). -/
def rebalance (l r m : List L) : List L × List L :=
  if l.length < r.length then
    let n := min (r.length - l.length) m.length
    let rest := m.drop n
    (l ++ m.take n ++ rest.take (rest.length / 2), r ++ rest.drop (rest.length / 2))
  else
    let n := min (l.length - r.length) m.length
    let rest := m.drop n
    (l ++ rest.take (rest.length / 2), r ++ m.take n ++ rest.drop (rest.length / 2))

/-- The greedy loop of `_partition_trees` (/repo/pywmi/engines/xsdd/vtrees/int_tree.py:266-277). -/
def partitionLoop : List (ℕ × IntTree α) → List (ℕ × IntTree α) → List (ℕ × IntTree α) → ℕ → ℕ →
    List (ℕ × IntTree α) × List (ℕ × IntTree α)
  | [], l, r, _, _ => (l, r)
  | x :: xs, l, r, lw, rw =>
    if lw < rw then partitionLoop xs (l ++ [x]) r (lw + x.1) rw
    else partitionLoop xs l (r ++ [x]) lw (rw + x.1)

/-- `_partition_trees` (/repo/pywmi/engines/xsdd/vtrees/int_tree.py:253-277). -/
def partitionTrees (values : List (ℕ × IntTree α)) : List (ℕ × IntTree α) × List (ℕ × IntTree α) :=
  partitionLoop (values.insertionSort fun x y => y.1 ≤ x.1) [] [] 0 0

/-- `[logic2cont.get(literal) for literal in literals]`, whose None entries make the counting fail with TypeError
(/repo/pywmi/engines/xsdd/vtrees/int_tree.py:222, 229-233). -/
def contSets (l2c : List (L × List α)) : List L → Except PyErr (List (List α))
  | [] => .ok []
  | lit :: lits =>
    match l2c.lookup lit with
    | none => .error .typeError
    | some c =>
      match contSets l2c lits with
      | .ok cs => .ok (c :: cs)
      | .error e => .error e

/-- The weights of the children (/repo/pywmi/engines/xsdd/vtrees/int_tree.py:222-235). -/
def childWeights (l2c : List (L × List α)) (lits : List L) (ts : List (IntTree α)) :
    Option (List ℕ) → Except PyErr (List ℕ)
  | some ws => .ok ws
  | none =>
    match contSets l2c lits with
    | .error e => .error e
    | .ok cs => .ok (ts.map fun t => (cs.filter fun c => meets c (conVars t)).length)

/-- `create_vtree` (/repo/pywmi/engines/xsdd/vtrees/int_tree.py:69-86, 122-174, 212-251, 307-326). The recursion is bounded
by `size`; `bami_correct` shows that the bound is never hit. `assert len(trees) > 0` in the constructor of the parallel
nodes built at lines 243 and 247 is checked when they are entered. -/
def createVtree (ord : List L → List L) (l2c : List (L × List α)) : ℕ → IntTree α → List L → Except PyErr (Vtree L)
  | 0, _, _ => .error .fuel
  | _ + 1, .var v, lits =>
    let ls := ord lits
    if ls.any fun lit => v ∉ conts l2c lit then
      .ok (.split (Vtree.createBalanced (ls.filter fun lit => v ∉ conts l2c lit) true)
        (Vtree.createBalanced (ls.filter fun lit => v ∈ conts l2c lit) true))
    else .ok (Vtree.createBalanced ls true)
  | n + 1, .split _ l r, lits =>
    match distribute l2c l.conVars r.conVars (ord lits) with
    | .error e => .error e
    | .ok (ll, rr, m) =>
      match createVtree ord l2c n l (rebalance ll rr m).1 with
      | .error e => .error e
      | .ok tl =>
        match createVtree ord l2c n r (rebalance ll rr m).2 with
        | .error e => .error e
        | .ok tr => .ok (.split tl tr)
  | _ + 1, .parallel _ [] _, _ => .error .assertionError
  | n + 1, .parallel _ [t] _, lits => createVtree ord l2c n t lits
  | n + 1, .parallel v [t, u] _, lits => createVtree ord l2c n (.split v t u) lits
  | n + 1, .parallel v (t :: u :: w :: ts) ws, lits =>
    match childWeights l2c (ord lits) (t :: u :: w :: ts) ws with
    | .error e => .error e
    | .ok weights =>
      let p := partitionTrees (weights.zip (t :: u :: w :: ts))
      createVtree ord l2c n
        (.split v (.parallel none (p.1.map (·.2)) (some (p.1.map (·.1)))) (.parallel none (p.2.map (·.2)) (some (p.2.map (·.1)))))
        lits
  | n + 1, .line _ t, lits =>
    let left := (ord lits).filter fun lit => !meets t.conVars (conts l2c lit)
    let right := (ord lits).filter fun lit => meets t.conVars (conts l2c lit)
    if left.length ≠ 0 ∧ right.length ≠ 0 then
      match createVtree ord l2c n t right with
      | .error e => .error e
      | .ok tr => .ok (.split (Vtree.createBalanced left true) tr)
    else createVtree ord l2c n t lits

end IntTree

/-- `IntTreeFactory` (/repo/pywmi/engines/xsdd/vtrees/int_tree.py:332-339). -/
structure IntTreeFactory (α : Type) where
  connected : List (α × List α)
  roots : List (IntTree α × List α × ℕ)

namespace IntTreeFactory
variable {α : Type} [DecidableEq α]

/-- `any(neighbor in conts for neighbor in neighbors)`. -/
def touches (neighbors : List α) (root : IntTree α × List α × ℕ) : Bool := neighbors.any (· ∈ root.2.1)

/-- Put the new root at the place of the first connected root and remove the other connected roots
(`self.roots[i1] = …; self.roots.pop(…)`, /repo/pywmi/engines/xsdd/vtrees/int_tree.py:361, 371-372, 384-388; the deletions
by index are written as one pass over the list). -/
def replaceRoots (p : IntTree α × List α × ℕ → Bool) (new : IntTree α × List α × ℕ) :
    List (IntTree α × List α × ℕ) → List (IntTree α × List α × ℕ)
  | [] => []
  | r :: rs => if p r then new :: rs.filter (fun r => !p r) else r :: replaceRoots p new rs

/-- The greatest height among roots. -/
def maxHeight (rs : List (IntTree α × List α × ℕ)) : ℕ := rs.foldr (fun r m => max r.2.2 m) 0

/-- `add_node` (/repo/pywmi/engines/xsdd/vtrees/int_tree.py:341-388). -/
def addNode (F : IntTreeFactory α) (node : α) : Except PyErr (IntTreeFactory α) :=
  match assocGet F.connected node with
  | .error e => .error e
  | .ok neighbors =>
    match F.roots.filter (touches neighbors) with
    | [] => .ok { F with roots := F.roots ++ [(.var node, [node], 1)] }
    | [(t, c, h)] => .ok { F with roots := replaceRoots (touches neighbors) (.line node t, c ∪ [node], h + 1) F.roots }
    | [(t, c, h), (t', c', h')] =>
      .ok { F with roots := replaceRoots (touches neighbors) (.split (some node) t t', (c ∪ c') ∪ [node], max h h' + 1) F.roots }
    | rs =>
      .ok ⟨F.connected, replaceRoots (touches neighbors) (.parallel (some node) (rs.map (·.1)) none,
        (rs.foldr (fun r s => r.2.1 ∪ s) []) ∪ [node], maxHeight rs + 1) F.roots⟩

/-- `get_int_tree` (/repo/pywmi/engines/xsdd/vtrees/int_tree.py:390-400). -/
def getIntTree (F : IntTreeFactory α) : Option (IntTree α) :=
  match F.roots with
  | [] => none
  | [r] => some r.1
  | [r, s] => some (.split none r.1 s.1)
  | rs => some (.parallel none (rs.map (·.1)) none)

/-- `get_new_height` (/repo/pywmi/engines/xsdd/vtrees/int_tree.py:426-452). -/
def getNewHeight (F : IntTreeFactory α) (node : α) : Except PyErr ℕ :=
  match assocGet F.connected node with
  | .error e => .error e
  | .ok neighbors =>
    match F.roots.filter (touches neighbors) with
    | [] => .ok 1
    | [r] => .ok (r.2.2 + 1)
    | [r, s] => .ok (max r.2.2 s.2.2 + 1)
    | rs => .ok (maxHeight rs + 1)

/-- The loop of `get_least_depth_increase` (/repo/pywmi/engines/xsdd/vtrees/int_tree.py:410-417). `none` is `math.inf`. -/
def leastLoop (F : IntTreeFactory α) : List α → Option ℕ → List α → Except PyErr (List α)
  | [], _, best => .ok best
  | v :: vs, low, best =>
    match F.getNewHeight v with
    | .error e => .error e
    | .ok h =>
      match low with
      | none => leastLoop F vs (some h) [v]
      | some l =>
        if l = h then leastLoop F vs (some l) (best ++ [v])
        else if h < l then leastLoop F vs (some h) [v]
        else leastLoop F vs (some l) best

/-- `get_least_depth_increase` (/repo/pywmi/engines/xsdd/vtrees/int_tree.py:402-417). -/
def getLeastDepthIncrease (F : IntTreeFactory α) (nodes : List α) : Except PyErr (List α) :=
  if nodes.length = 1 then .ok nodes else leastLoop F nodes none []

end IntTreeFactory

namespace Bami
open IntTreeFactory

/-- `for cvar in cvars: cont2logic[cvar].add(lit)`; only the keys of `cont2logic` are used. -/
def addKeys (ks : List String) (cvars : List String) : List String := ks ++ cvars.filter (· ∉ ks)

/-- The first loop of `_conversion_tables` (/repo/pywmi/engines/xsdd/vtrees/vtree.py:228-232). -/
def convertAtoms : List (Formula × String) → List (String × List String) → List String →
    Except PyErr (List (String × List String) × List String)
  | [], l2c, ks => .ok (l2c, ks)
  | (f, lit) :: rest, l2c, ks =>
    match linFromSmt f with
    | .error e => .error e
    | .ok d => convertAtoms rest (assocSet l2c lit (linVars d).dedup) (addKeys ks (linVars d).dedup)

/-- The second loop of `_conversion_tables` (/repo/pywmi/engines/xsdd/vtrees/vtree.py:233-241). `labels` maps a Boolean
to the weights of its two values. -/
def convertBools (labels : List (String × Formula × Formula)) : List (String × String) → List (String × List String) →
    List String → List (String × List String) × List String
  | [], l2c, ks => (l2c, ks)
  | (name, lit) :: rest, l2c, ks =>
    match labels.lookup name with
    | some (pos, neg) =>
      let vs := (pos.syms.map (·.1) ++ neg.syms.map (·.1)).dedup
      convertBools labels rest (assocSet l2c lit vs) (addKeys ks vs)
    | none => convertBools labels rest (assocSet l2c lit []) ks

/-- `_conversion_tables` (/repo/pywmi/engines/xsdd/vtrees/vtree.py:225-242). -/
def conversionTables (info : LiteralInfo) (labels : List (String × Formula × Formula)) :
    Except PyErr (List (String × List String) × List String) :=
  match convertAtoms info.abstractions [] [] with
  | .error e => .error e
  | .ok (l2c, ks) => .ok (convertBools labels info.booleans l2c ks)

/-- The loop of `bami` (/repo/pywmi/engines/xsdd/vtrees/vtree.py:274-280), at most as many rounds as there are fills. -/
def loop {α : Type} [DecidableEq α] (tie : List α → List α) :
    ℕ → PrimalGraph α → IntTreeFactory α → Except PyErr (IntTreeFactory α)
  | n, G, F =>
    match G.fills with
    | none => .error .assertionError
    | some [] => .ok F
    | some (_ :: _) =>
      match n with
      | 0 => .error .fuel
      | n + 1 =>
        match G.getMinfills with
        | .error e => .error e
        | .ok vs =>
          match F.getLeastDepthIncrease (tie vs) with
          | .error e => .error e
          | .ok vs' =>
            match G.getLowestFutureMinfill vs' with
            | .error e => .error e
            | .ok ([], _) => .error .indexError
            | .ok (v :: _, G') =>
              match F.addNode v with
              | .error e => .error e
              | .ok F' =>
                match G'.removeAndProcess v with
                | .error e => .error e
                | .ok G'' => loop tie n G'' F'

/-- The part of `bami` that depends only on the conversion tables (/repo/pywmi/engines/xsdd/vtrees/vtree.py:268-281). -/
def fromTables {α L : Type} [DecidableEq α] [DecidableEq L] (ord : List L → List L) (tie : List α → List α)
    (l2c : List (L × List α)) (ks : List α) : Except PyErr (Vtree L) :=
  match PrimalGraph.interaction ks (l2c.map (·.2)) true false with
  | .error e => .error e
  | .ok G =>
    match G.computeAllFills with
    | .error e => .error e
    | .ok G' =>
      match loop tie (G.connected.length) G' ⟨G.connected, []⟩ with
      | .error e => .error e
      | .ok F =>
        match F.getIntTree with
        | none => .error .attributeError
        | some t => t.createVtree ord l2c t.size (l2c.map (·.1))

/-- `bami` (/repo/pywmi/engines/xsdd/vtrees/vtree.py:257-281). -/
def bami (ord : List String → List String) (tie : List String → List String) (info : LiteralInfo)
    (labels : List (String × Formula × Formula)) : Except PyErr (Vtree String) :=
  if info.abstractions.length = 0 then .ok (Vtree.createBalanced (info.literals.map (·.1)) true)
  else
    match conversionTables info labels with
    | .error e => .error e
    | .ok (l2c, ks) => fromTables ord tie l2c ks

end Bami
end Pywmi
