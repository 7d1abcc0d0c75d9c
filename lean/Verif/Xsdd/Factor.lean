import Verif.Xsdd.Engine
import Verif.Xsdd.Groups

/-!
# The factorised XSDD engine

Model of `VariableTagAnalysis`, `FactorizedIntegrator` and `FactorizedXsddEngine`
(/repo/pywmi/engines/xsdd/engine_factorized.py).
-/

namespace Pywmi
open Formula Prog

/-! ### Which groups of variables a node mentions -/

/-- `VariableTagAnalysis` (/repo/pywmi/engines/xsdd/engine_factorized.py:29-64).  `l2g` is
`literal_to_groups.get(l, [])`. -/
def tagWalker (l2g : ℤ → Finset ℕ) : SddWalker (Bool × Finset ℕ) where
  onTrue := .ok (true, ∅)
  onFalse := .ok (false, ∅)
  onAnd p s := .ok (p.1 && s.1, if p.1 && s.1 then p.2 ∪ s.2 else ∅)
  onOr rs := .ok (rs.any (·.1), if rs.any (·.1) then rs.foldl (fun g r => g ∪ r.2) ∅ else ∅)
  onLit l := .ok (true, l2g l)

/-- `node_to_groups[node.id]` after the walk (/repo/pywmi/engines/xsdd/engine_factorized.py:32-64, 321-323): the groups the
walk returns at the node.  Simplification: the entry of every node is computed from the node, instead of being stored in a
dictionary during the walk over the root; equal trees are the same node. -/
def nodeGroups (l2g : ℤ → Finset ℕ) (s : Sdd) : Finset ℕ :=
  match (tagWalker l2g).walk s with
  | .ok r => r.2
  | .error _ => ∅

/-! ### Integration along the diagram -/

/-- The fields of a `FactorizedIntegrator` (/repo/pywmi/engines/xsdd/engine_factorized.py:68-84), the methods of its algebra and
the order given to `recursive`. -/
structure FactCtx (E : Type) where
  alg : Algebra E
  /-- `algebra.parse_condition` -/
  parse : Formula → Except PyErr E
  /-- `algebra.integrate(domain, expression, variables)` -/
  integrate : Domain → E → List String → Except PyErr E
  domain : Domain
  lits : LiteralInfo
  groups : List VarGroup
  /-- `node_to_groups` -/
  tagsOf : Sdd → Finset ℕ
  labels : List (String × Formula × Formula)
  /-- the order in which Python lists a set of group numbers -/
  tagOrd : Finset ℕ → List ℕ
  order : Option (List ℕ)

namespace FactCtx
variable {E : Type}

/-- `self.groups[group_id]`: a dictionary with the positions of the list as keys
(/repo/pywmi/engines/xsdd/engine_factorized.py:194, 325). -/
def group (C : FactCtx E) (g : ℕ) : Except PyErr VarGroup :=
  match C.groups[g]? with
  | some p => .ok p
  | none => .error .keyError

/-- One round of the loop in `FactorizedIntegrator.integrate` (/repo/pywmi/engines/xsdd/engine_factorized.py:194-198). -/
def integrateStep (C : FactCtx E) (e : E) (g : ℕ) : Except PyErr E :=
  match C.group g with
  | .error err => .error err
  | .ok (vs, p) => C.integrate C.domain (C.alg.times e (polyToExpr C.alg p)) vs

/-- `FactorizedIntegrator.integrate` (/repo/pywmi/engines/xsdd/engine_factorized.py:190-199). -/
def integrateTags (C : FactCtx E) (e : E) (tags : List ℕ) : Except PyErr E := foldE C.integrateStep e tags

/-- `FactorizedIntegrator.walk_literal` (/repo/pywmi/engines/xsdd/engine_factorized.py:169-188). -/
def walkLiteral (C : FactCtx E) (l : ℤ) : Except PyErr (E × Finset String) :=
  match litValue C.lits l.natAbs with
  | .error e => .error e
  | .ok (.bool name) =>
    match C.labels.lookup name with
    | some (t, e) =>
      match polyFromSmt (if l > 0 then t else e) with
      | .error err => .error err
      | .ok d => .ok (polyToExpr C.alg d, if name ∈ C.lits.booleans.map (·.1) then {name} else ∅)
    | none => .ok (C.alg.one, {name})
  | .ok (.atom f) =>
    match C.parse (if l < 0 then mkNot f else f) with
    | .error err => .error err
    | .ok e => .ok (e, ∅)

/-- `min(order.index(tag) for tag in tags_shared)` for a non-empty set (/repo/pywmi/engines/xsdd/engine_factorized.py:153); a
ValueError for a tag that is not listed. -/
def firstIndex (order : List ℕ) (shared : Finset ℕ) : Except PyErr ℕ :=
  if shared ⊆ order.toFinset then .ok (order.findIdx fun g => g ∈ shared) else .error .valueError

/-- The tags integrated at an element (/repo/pywmi/engines/xsdd/engine_factorized.py:149-154). -/
def sharedTags (C : FactCtx E) (p s : Sdd) (tags : Finset ℕ) : Except PyErr (Finset ℕ) :=
  let shared := (C.tagsOf p ∩ tags) ∩ (C.tagsOf s ∩ tags)
  match C.order with
  | none => .ok shared
  | some order =>
    if order ≠ [] ∧ shared ≠ ∅ then
      match firstIndex order shared with
      | .error e => .error e
      | .ok i => .ok (shared ∪ (tags ∩ (order.drop i).toFinset))
    else .ok shared

/-- The order of integration at an element (/repo/pywmi/engines/xsdd/engine_factorized.py:164). -/
def listTags (C : FactCtx E) (shared : Finset ℕ) : List ℕ :=
  match C.order with
  | none => C.tagOrd shared
  | some order => if order ≠ [] then order.filter fun g => g ∈ shared else C.tagOrd shared

/-- The loop over the elements of a decision node, with `walk_and` inlined
(/repo/pywmi/engines/xsdd/engine_factorized.py:110-113, 145-167).  `plus` (lines 122-135) is the same code as in the other
engine. -/
def elements (C : FactCtx E) (tags : Finset ℕ) : List (Sdd × Sdd) → E × Finset String →
    Prog (Sdd × Finset ℕ) (E × Finset String)
  | [], acc => .done acc
  | (p, s) :: es, acc =>
    if p = .ff ∨ s = .ff then
      match smoothPlus C.alg acc (C.alg.zero, ∅) with
      | .error e => .fail e
      | .ok acc' => C.elements tags es acc'
    else
      match C.sharedTags p s tags with
      | .error e => .fail e
      | .ok shared =>
        .call (p, (C.tagsOf p ∩ tags) \ shared) fun rp =>
          .call (s, (C.tagsOf s ∩ tags) \ shared) fun rs =>
            match C.integrateTags (C.alg.times rp.1 rs.1) (C.listTags shared) with
            | .error e => .fail e
            | .ok r =>
              match smoothPlus C.alg acc (r, rp.2 ∪ rs.2) with
              | .error e => .fail e
              | .ok acc' => C.elements tags es acc'

/-- One call of `FactorizedIntegrator.recursive` (/repo/pywmi/engines/xsdd/engine_factorized.py:86-120). -/
def body (C : FactCtx E) : Sdd × Finset ℕ → Prog (Sdd × Finset ℕ) (E × Finset String)
  | (.ff, _) => .done (C.alg.zero, ∅)
  | (.tt, _) => .done (C.alg.one, ∅)
  | (.lit l, tags) =>
    .ofExcept <|
      match C.walkLiteral l with
      | .error e => .error e
      | .ok (e, vs) =>
        match C.integrateTags e (C.tagOrd tags) with
        | .error err => .error err
        | .ok r => .ok (r, vs)
  | (.dec es, tags) => C.elements tags es (C.alg.zero, ∅)

/-- `recursive(node, tags)` with an empty dictionary of results, keyed by node and tags
(/repo/pywmi/engines/xsdd/engine_factorized.py:86-120). -/
def recursive (C : FactCtx E) (s : Sdd) (tags : Finset ℕ) : Except PyErr (E × Finset String) :=
  (cwalk C.body (fun q => q.1.size) id (s, tags) []).1

end FactCtx

/-- The default `parse_condition` (/repo/pywmi/engines/algebraic_backend.py:89-92). -/
def defaultParse {E : Type} (A : Algebra E) (f : Formula) : Except PyErr E :=
  match linFromSmt f with
  | .error e => .error e
  | .ok d => .ok (linToExpr A d)

/-! ### The engine -/

/-- `get_group` (/repo/pywmi/engines/xsdd/engine_factorized.py:287-293). -/
def getGroup (groups : List VarGroup) (v : String) : Except PyErr ℕ :=
  if groups.findIdx (fun g => v ∈ g.1) < groups.length then .ok (groups.findIdx fun g => v ∈ g.1) else .error .valueError

/-- The sort key of a group (/repo/pywmi/engines/xsdd/engine_factorized.py:272-276): the last position of its variables, -1
without variables, a ValueError for a variable that is not listed. -/
def groupKey (reals : List String) (g : VarGroup) : Except PyErr ℤ :=
  if g.1.all (· ∈ reals) then .ok (g.1.foldl (fun m v => max m (reals.idxOf v : ℤ)) (-1)) else .error .valueError

/-- `group_order` (/repo/pywmi/engines/xsdd/engine_factorized.py:277-280); Python's sort is stable. -/
def groupOrder (reals : List String) (groups : List VarGroup) : Except PyErr (List ℕ) :=
  match mapE (groupKey reals) groups with
  | .error e => .error e
  | .ok ks => .ok (((ks.mapIdx fun i k => (k, i)).mergeSort fun a b => a.1 ≤ b.1).map (·.2))

/-- `literals.numbered[literal]`. -/
def numberOf (L : LiteralInfo) (lit : String) : Except PyErr ℕ :=
  match L.numbered.lookup lit with
  | some n => .ok n
  | none => .error .keyError

/-- The loop over the inequalities (/repo/pywmi/engines/xsdd/engine_factorized.py:297-302). -/
def atomGroups (L : LiteralInfo) (groups : List VarGroup) (d : List (ℤ × List ℕ)) (p : Formula × String) :
    Except PyErr (List (ℤ × List ℕ)) :=
  match numberOf L p.2 with
  | .error e => .error e
  | .ok n =>
    match linFromSmt p.1 with
    | .error e => .error e
    | .ok q =>
      match mapE (getGroup groups) (linVars q) with
      | .error e => .error e
      | .ok gs => .ok (assocSet (assocSet d n gs) (-(n : ℤ)) gs)

/-- The loop over the labels (/repo/pywmi/engines/xsdd/engine_factorized.py:304-313). -/
def labelGroups (L : LiteralInfo) (groups : List VarGroup) (d : List (ℤ × List ℕ)) (p : String × Formula × Formula) :
    Except PyErr (List (ℤ × List ℕ)) :=
  match L.booleans.lookup p.1 with
  | none => .error .keyError
  | some lit =>
    match numberOf L lit with
    | .error e => .error e
    | .ok n =>
      match mapE (getGroup groups) ((syms p.2.1).map (·.1)) with
      | .error e => .error e
      | .ok ts =>
        match mapE (getGroup groups) ((syms p.2.2).map (·.1)) with
        | .error e => .error e
        | .ok es => .ok (assocSet (assocSet d n ts) (-(n : ℤ)) es)

/-- `literal_to_groups` (/repo/pywmi/engines/xsdd/engine_factorized.py:295-313). -/
def literalGroups (L : LiteralInfo) (labels : List (String × Formula × Formula)) (groups : List VarGroup) :
    Except PyErr (List (ℤ × List ℕ)) :=
  match foldE (atomGroups L groups) [] L.abstractions with
  | .error e => .error e
  | .ok d => foldE (labelGroups L groups) d labels

/-- The constant factor (/repo/pywmi/engines/xsdd/engine_factorized.py:328-330, 346-354). -/
def constantGroup {E : Type} (A : Algebra E) (groups : List VarGroup) : Except PyErr E :=
  match groups.filter fun g => g.1 = [] with
  | [] => .ok A.one
  | [g] => .ok (polyToExpr A g.2)
  | _ => .error .valueError

/-- The options of a `FactorizedXsddEngine` (/repo/pywmi/engines/xsdd/engine_factorized.py:202-222). -/
structure FactOpts (E : Type) extends XsddOpts E where
  parse : Formula → Except PyErr E
  tagOrd : Finset ℕ → List ℕ
  ordered : Bool
  /-- `vtree_strategy`, which also sees the labels -/
  labelVtree : LiteralInfo → List (String × Formula × Formula) → Except PyErr (Vtree String)

namespace FactOpts
variable {E : Type}

/-- The integrator for a piece (/repo/pywmi/engines/xsdd/engine_factorized.py:331-338). -/
def ctx (o : FactOpts E) (D : Domain) (L : LiteralInfo) (labels : List (String × Formula × Formula)) (groups : List VarGroup)
    (l2g : List (ℤ × List ℕ)) (order : Option (List ℕ)) : FactCtx E where
  alg := o.alg
  parse := o.parse
  integrate := o.integrate
  domain := D
  lits := L
  groups := groups
  tagsOf := nodeGroups fun l => ((l2g.lookup l).getD []).toFinset
  labels := labels
  tagOrd := o.tagOrd
  order := order

/-- `compute_volume_for_piece` (/repo/pywmi/engines/xsdd/engine_factorized.py:268-355). -/
def termVolume (o : FactOpts E) (D : Domain) (labels : List (String × Formula × Formula)) (t : Dict) (L : LiteralInfo) (s : Sdd) :
    Except PyErr E :=
  match D.realVars with
  | .error e => .error e
  | .ok reals =>
    let groups := varGroups t reals
    match (if o.ordered then (groupOrder reals groups).map some else .ok none) with
    | .error e => .error e
    | .ok order =>
      match literalGroups L labels groups with
      | .error e => .error e
      | .ok l2g =>
        let C := o.ctx D L labels groups l2g order
        match C.recursive s (C.tagsOf s) with
        | .error e => .error e
        | .ok (ex, vs) =>
          match D.boolVars with
          | .error e => .error e
          | .ok bs =>
            match o.alg.power (o.alg.real 2) ((bs.length : ℚ) - vs.card) with
            | .error e => .error e
            | .ok w =>
              match constantGroup o.alg groups with
              | .error e => .error e
              | .ok c => .ok (o.alg.times c (o.alg.times ex w))

/-- `term_supports[term].add(piece_support)` (/repo/pywmi/engines/xsdd/engine_factorized.py:239-240). -/
def addSupport (c : Formula) (d : List (Dict × List Formula)) (t : Dict) : List (Dict × List Formula) :=
  assocSet d t (setUnion ((d.lookup t).getD []) [c])

/-- The loop over the pieces (/repo/pywmi/engines/xsdd/engine_factorized.py:234-240); an integer key has no terms. -/
def termSupports : Pieces → List (Dict × List Formula) → Except PyErr (List (Dict × List Formula))
  | [], d => .ok d
  | (.int _, _) :: _, _ => .error .attributeError
  | (.poly p, c) :: P, d => termSupports P ((getTerms p).foldl (addSupport c) d)

/-- The body of the loop over the terms (/repo/pywmi/engines/xsdd/engine_factorized.py:242-265). -/
def addTerm (o : FactOpts E) (D : Domain) (labels : List (String × Formula × Formula)) (base : Formula) (vol : E)
    (q : Dict × List Formula) : Except PyErr E :=
  match extractLiterals (mkAnd [mkOr (o.setOrd q.2), base]) with
  | .error e => .error e
  | .ok (g, L) =>
    match compileToSdd o.mgr g L (o.labelVtree L labels) with
    | .error e => .error e
    | .ok s =>
      match o.termVolume D labels q.1 L s with
      | .error e => .error e
      | .ok v => .ok (o.alg.plus vol v)

/-- `compute_volume_from_pieces` (/repo/pywmi/engines/xsdd/engine_factorized.py:230-266). -/
def fromTerms (o : FactOpts E) (D : Domain) (labels : List (String × Formula × Formula)) (base : Formula) (P : Pieces) :
    Except PyErr E :=
  match termSupports P [] with
  | .error e => .error e
  | .ok ts => foldE (o.addTerm D labels base) o.alg.zero ts

/-- `compute_volume(add_bounds=False)` of the factorised engine (/repo/pywmi/engines/xsdd/engine.py:203-234 with
/repo/pywmi/engines/xsdd/engine_factorized.py:224-266).  Simplification: as in `XsddOpts.volumeCore`, the registration of the
literals in the pool of a `PyXaddAlgebra` is left out. -/
def volumeCore (o : FactOpts E) (e : EngineObj) : Except PyErr ℝ :=
  match e.weight with
  | none => .error .attributeError
  | some w =>
    match o.baseSupport e.support w with
    | .error err => .error err
    | .ok base =>
      match extractLabels w with
      | .error err => .error err
      | .ok (labels, v) =>
        match splitUp o.simp v with
        | .error err => .error err
        | .ok P =>
          match o.fromTerms e.domain labels base P with
          | .error err => .error err
          | .ok x => o.toFloat x

/-- `compute_volume` (/repo/pywmi/engines/xsdd/engine.py:195-234). -/
def computeVolume (o : FactOpts E) (e : EngineObj) (addBounds : Bool) : Except PyErr ℝ :=
  if addBounds then
    match e.domain.getBounds with
    | .error err => .error err
    | .ok b => o.volumeCore (e.withConstraint b)
  else o.volumeCore e

end FactOpts
end Pywmi
