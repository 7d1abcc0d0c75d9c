import Verif.Sample.Sample

/-!
# Adaptive rejection

Model of /repo/pywmi/engines/adaptive_rejection.py.  Bounds and volumes are rationals, samples are elements of an ordered
field.  The SMT solver is a parameter that says whether a list of assertions has a model; the stopping criterion and the
score of a split are parameters as in the code.
-/

namespace Pywmi

/-- The bounds of a cell: for every real variable `((lb, closed?), (ub, closed?))`
(/repo/pywmi/engines/adaptive_rejection.py:162-163). -/
abbrev ABounds := List ((ℚ × Bool) × (ℚ × Bool))

/-- A split with its side: dimension, value, and whether it is the side `<=`. -/
abbrev ASplit := (ℕ × ℚ) × Bool

/-- What a `Node` stores (/repo/pywmi/engines/adaptive_rejection.py:62-74).  The field `asked` is not in the code: it records the
splits that were on the stack of the solver when `get_accepted_sample` was called for this node. -/
structure ACell (K : Type) where
  samples : List (List K)
  labels : List Bool
  volume : ℚ
  bounds : ABounds
  empty : Bool
  asked : Option (List ASplit)

/-- A tree of nodes; an inner node has a split and two children. -/
inductive ATree (K : Type) where
  | leaf (c : ACell K)
  | node (c : ACell K) (split : ℕ × ℚ) (l r : ATree K)

/-- The node itself. -/
def ATree.cell {K : Type} : ATree K → ACell K
  | .leaf c => c
  | .node c _ _ _ => c

/-- `TreeBuilder` and its oracle (/repo/pywmi/engines/adaptive_rejection.py:34-42, 152-169).  `solve` says whether
`solver.solve(); solver.get_model()` yields a model. -/
structure ABuilder (K : Type) where
  rng : Rng K
  pypow : K → K → Except PyErr K
  domain : Domain
  support : Formula
  solve : List Formula → Bool
  stop : ℚ → ℚ → ℕ → Bool
  score : List (List K) → List Bool → ℕ → ℚ → K
  count : ℕ

/-- The bounds of a real variable; a missing bound is a TypeError in the product of the widths
(/repo/pywmi/engines/adaptive_rejection.py:162-164, 240-242). -/
def realBounds (D : Domain) (v : String) : Except PyErr ((ℚ × Bool) × (ℚ × Bool)) :=
  match dictGet D.varDomains v with
  | .error e => .error e
  | .ok (some l, some u) => .ok ((l, true), (u, true))
  | .ok _ => .error .typeError

/-- `self.bounds` of the builder (/repo/pywmi/engines/adaptive_rejection.py:162-163). -/
def builderBounds (D : Domain) : Except PyErr ABounds :=
  match D.realVars with
  | .error e => .error e
  | .ok rs => Prog.mapE (realBounds D) rs

/-- `TreeBuilder.get_volume` (/repo/pywmi/engines/adaptive_rejection.py:235-243): `None` without bounds. -/
def boundsVolume (bs : ABounds) : Option ℚ :=
  if bs = [] then none else some (bs.foldl (fun v b => v * (b.2.1 - b.1.1)) 1)

/-- `change_bounds` with a dictionary (/repo/pywmi/domain.py:78-81), as called by the builder and by the nodes
(/repo/pywmi/engines/adaptive_rejection.py:69-70, 188). -/
def cellDomain (D : Domain) (rs : List String) (bs : ABounds) : Domain :=
  { D with varDomains := dictOf (List.zipWith (fun v b => (v, (some b.1.1, some b.2.1))) rs bs) }

/-- The assertion of `add_split` (/repo/pywmi/engines/adaptive_rejection.py:52-56).  A wrong dimension is reported here when the stack is used. -/
def splitAssertion (rs : List String) (p : ASplit) : Except PyErr Formula :=
  match rs[p.1.1]? with
  | none => .error .indexError
  | some v =>
    if p.2 then .ok (.le (.sym v .real) (.realC p.1.2)) else .ok (.lt (.realC p.1.2) (.sym v .real))

section
variable {K : Type} [Field K] [LinearOrder K]

/-- The loop that chooses the split (/repo/pywmi/engines/adaptive_rejection.py:206-217): the first best score. -/
def bestSplit (sc : ℕ → ℚ → ℚ → ℚ → K) : ABounds → ℕ → Option ((ℕ × ℚ) × K) → Option ((ℕ × ℚ) × K)
  | [], _, best => best
  | b :: bs, i, best =>
    let v := b.1.1 + (b.2.1 - b.1.1) / 2
    let s := sc i v b.1.1 b.2.1
    bestSplit sc bs (i + 1) <|
      match best with
      | none => some ((i, v), s)
      | some (sp, s') => if s > s' then some ((i, v), s) else some (sp, s')

/-- `get_accepted_sample() is not None` (/repo/pywmi/engines/adaptive_rejection.py:44-50): the solver holds the support and the
assertions of the stack. -/
def askOracle (B : ABuilder K) (rs : List String) (stk : List ASplit) : Except PyErr Bool :=
  match Prog.mapE (splitAssertion rs) stk with
  | .error e => .error e
  | .ok fs => .ok (B.solve (B.support :: fs))

/-- `remove_last_split` (/repo/pywmi/engines/adaptive_rejection.py:58-59). -/
def popSplit : List ASplit → Except PyErr (List ASplit)
  | [] => .error .indexError
  | _ :: stk => .ok stk

/-- The bounds of the side `<=` of a split (/repo/pywmi/engines/adaptive_rejection.py:220). -/
def lowerBounds (bs : ABounds) (sp : ℕ × ℚ) : ABounds :=
  bs.mapIdx fun i b => if i ≠ sp.1 then b else (b.1, (sp.2, true))
/-- The bounds of the side `>` of a split (/repo/pywmi/engines/adaptive_rejection.py:225). -/
def upperBounds (bs : ABounds) (sp : ℕ × ℚ) : ABounds :=
  bs.mapIdx fun i b => if i ≠ sp.1 then b else ((sp.2, false), b.2)

/-- `build_tree` below the root (/repo/pywmi/engines/adaptive_rejection.py:175-233).  `rs` are the real variables, `V` the volume of
the builder, `dom` the domain that is sampled, `stk` the stack of the solver with the last split first.  The recursion of the
code is bounded only by the stopping criterion: `fuel` bounds it here. -/
def buildTree (B : ABuilder K) (rs : List String) (V : Option ℚ) : ℕ → Domain → ABounds → Option ℚ → ℕ → B.rng.State → List ASplit →
    Except PyErr (ATree K × B.rng.State × List ASplit)
  | 0, _, _, _, _, _, _ => .error .fuel
  | fuel + 1, dom, bs, vol, depth, s, stk =>
    match uniform B.rng dom B.count none s with
    | .error e => .error e
    | .ok (samples, s) =>
      match evalMask B.pypow B.domain B.support samples with
      | .error e => .error e
      | .ok labels =>
        if B.count = 0 then .error .zeroDivision
        else
          match vol, V with
          | some vol, some V =>
            if V = 0 then .error .zeroDivision
            else if B.stop ((countTrue labels : ℚ) / (B.count : ℚ)) (vol / V) depth then
              .ok (.leaf ⟨samples, labels, vol, bs, false, none⟩, s, stk)
            else
              match (if countTrue labels > 0 then .ok (true, none) else
                  match askOracle B rs stk with
                  | .error e => .error e
                  | .ok b => .ok (b, some stk) : Except PyErr (Bool × Option (List ASplit))) with
              | .error e => .error e
              | .ok (false, asked) => .ok (.leaf ⟨samples, labels, vol, bs, true, asked⟩, s, stk)
              | .ok (true, asked) =>
                match bestSplit (fun i v lb ub => if countTrue labels < B.count then B.score samples labels i v
                    else ((ub - lb : ℚ) : K)) bs 0 none with
                | none => .error .typeError
                | some (sp, _) =>
                  let bs1 := lowerBounds bs sp
                  match buildTree B rs (some V) fuel (cellDomain B.domain rs bs1) bs1 (some (vol / 2)) (depth + 1) s
                      ((sp, true) :: stk) with
                  | .error e => .error e
                  | .ok (l, s, stk) =>
                    match popSplit stk with
                    | .error e => .error e
                    | .ok stk =>
                      let bs2 := upperBounds bs sp
                      match buildTree B rs (some V) fuel (cellDomain B.domain rs bs2) bs2 (some (vol / 2)) (depth + 1) s
                          ((sp, false) :: stk) with
                      | .error e => .error e
                      | .ok (r, s, stk) => .ok (.node ⟨samples, labels, vol, bs, false, asked⟩ sp l r, s, stk)
          | _, _ => .error .typeError

/-- `TreeBuilder(...)` followed by `build_tree()` (/repo/pywmi/engines/adaptive_rejection.py:153-192, 294-298): the tree, the
volume of the builder, and the state of the generator. -/
def buildRoot (B : ABuilder K) (fuel : ℕ) (s : B.rng.State) : Except PyErr (ATree K × Option ℚ × B.rng.State) :=
  match B.domain.realVars with
  | .error e => .error e
  | .ok rs =>
    match builderBounds B.domain with
    | .error e => .error e
    | .ok bs =>
      match buildTree B rs (boundsVolume bs) fuel B.domain bs (boundsVolume bs) 0 s [] with
      | .error e => .error e
      | .ok (T, s, _) => .ok (T, boundsVolume bs, s)

/-- The top-up of a leaf (/repo/pywmi/engines/adaptive_rejection.py:95-106); without a desired number nothing is drawn. -/
def topUp (B : ABuilder K) (rs : List String) (desired : Option ℕ) (c : ACell K) (s : B.rng.State) :
    Except PyErr (ACell K × B.rng.State) :=
  match desired with
  | none => .ok (c, s)
  | some n =>
    if n - c.samples.length > 0 then
      match uniform B.rng (cellDomain B.domain rs c.bounds) (n - c.samples.length) none s with
      | .error e => .error e
      | .ok (new, s) =>
        match evalMask B.pypow B.domain B.support new with
        | .error e => .error e
        | .ok ls => .ok ({ c with samples := c.samples ++ new, labels := c.labels ++ ls }, s)
    else .ok (c, s)

/-- `Node.get_volume` (/repo/pywmi/engines/adaptive_rejection.py:86-112).  The query is accepted and not used, as in the code.  The
nodes are updated in place: the tree afterwards is returned. -/
def treeVolume (B : ABuilder K) (rs : List String) (V : ℚ) (desired : Option ℕ) (query : Option Formula) :
    ATree K → B.rng.State → Except PyErr (ℚ × ATree K × B.rng.State)
  | .leaf c, s =>
    if c.empty then .ok (0, .leaf c, s)
    else
      match topUp B rs desired c s with
      | .error e => .error e
      | .ok (c, s) =>
        if c.labels.length = 0 ∨ V = 0 then .error .zeroDivision
        else .ok ((countTrue c.labels : ℚ) / (c.labels.length : ℚ) * (c.volume / V), .leaf c, s)
  | .node c sp l r, s =>
    if c.empty then .ok (0, .node c sp l r, s)
    else
      match treeVolume B rs V desired none l s with
      | .error e => .error e
      | .ok (a, l, s) =>
        match treeVolume B rs V desired none r s with
        | .error e => .error e
        | .ok (b, r, s) => .ok (a + b, .node c sp l r, s)

/-- `Node.get_empty_volume` (/repo/pywmi/engines/adaptive_rejection.py:114-118), for a positive volume of the builder. -/
def treeEmpty (V : ℚ) : ATree K → ℚ
  | .leaf c => if c.empty then c.volume / V else 0
  | .node _ _ l r => treeEmpty V l + treeEmpty V r

/-- `np.logical_and(evaluate(query), labels)` when there is a query (/repo/pywmi/engines/adaptive_rejection.py:123-125). -/
def queryLabels (B : ABuilder K) (query : Option Formula) (c : ACell K) : Except PyErr (List Bool) :=
  match query with
  | none => .ok c.labels
  | some q =>
    match evalMask B.pypow B.domain q c.samples with
    | .error e => .error e
    | .ok m => .ok (m.zipWith (· && ·) c.labels)

/-- `Node.get_weighted_volume` (/repo/pywmi/engines/adaptive_rejection.py:120-130). -/
def treeWeighted (B : ABuilder K) (V : ℚ) (w : Formula) (query : Option Formula) : ATree K → Except PyErr K
  | .leaf c =>
    if c.empty then .ok 0
    else
      match queryLabels B query c with
      | .error e => .error e
      | .ok ls =>
        match evalNums B.pypow B.domain w (maskRows c.samples ls) with
        | .error e => .error e
        | .ok ws =>
          if c.samples.length = 0 ∨ V = 0 then .error .zeroDivision
          else .ok (ws.foldl (· + ·) 0 / (c.samples.length : K) * ((c.volume / V : ℚ) : K))
  | .node _ _ l r =>
    match treeWeighted B V w query l with
    | .error e => .error e
    | .ok a =>
      match treeWeighted B V w query r with
      | .error e => .error e
      | .ok b => .ok (a + b)

/-- `self.weight and self.weight != smt.Real(1)` (/repo/pywmi/engines/adaptive_rejection.py:303, 311). -/
def properWeight : Option Formula → Option Formula
  | none => none
  | some w => if w = .realC 1 then none else some w

/-- `AdaptiveRejection.compute_volume` (/repo/pywmi/engines/adaptive_rejection.py:300-306) on a built tree. -/
def adaptiveVolume (B : ABuilder K) (rs : List String) (V : ℚ) (weight : Option Formula) (n : ℕ) (T : ATree K) (s : B.rng.State) :
    Except PyErr (K × ATree K × B.rng.State) :=
  match treeVolume B rs V (some n) none T s with
  | .error e => .error e
  | .ok (v, T, s) =>
    match properWeight weight with
    | none => .ok ((v * V : ℚ), T, s)
    | some w =>
      match treeWeighted B V w none T with
      | .error e => .error e
      | .ok a => .ok (a * (V : K), T, s)

/-- `AdaptiveRejection.compute_probability` (/repo/pywmi/engines/adaptive_rejection.py:308-314) on a built tree.  A division by zero
is an error (numpy numbers give nan instead). -/
def adaptiveProbability (B : ABuilder K) (rs : List String) (V : ℚ) (weight : Option Formula) (query : Formula) (n : ℕ) (T : ATree K)
    (s : B.rng.State) : Except PyErr (K × ATree K × B.rng.State) :=
  match treeVolume B rs V (some n) none T s with
  | .error e => .error e
  | .ok (v, T, s) =>
    match properWeight weight with
    | none =>
      match treeVolume B rs V none (some query) T s with
      | .error e => .error e
      | .ok (a, T, s) => if v = 0 then .error .zeroDivision else .ok ((a / v : ℚ), T, s)
    | some w =>
      match treeWeighted B V w (some query) T with
      | .error e => .error e
      | .ok a =>
        match treeWeighted B V w none T with
        | .error e => .error e
        | .ok b => if b = 0 then .error .zeroDivision else .ok (a / b, T, s)

/-- `make_stop_criterion` (/repo/pywmi/engines/adaptive_rejection.py:286-292). -/
def stopCriterion (maxRatio minVolume : Option ℚ) (maxDepth : Option ℕ) (ratio volume : ℚ) (depth : ℕ) : Bool :=
  (match maxRatio with | some m => decide (m ≤ ratio) | none => false) ||
  (match minVolume with | some m => decide (volume ≤ m) | none => false) ||
  (match maxDepth with | some m => decide (m ≤ depth) | none => false)

/-- The four counts of `information_gain` (/repo/pywmi/engines/adaptive_rejection.py:254-262): accepted and rejected samples with
`samples[:, dimension_index] <= split_value`, accepted and rejected samples without. -/
def gainCounts (samples : List (List K)) (labels : List Bool) (i : ℕ) (v : ℚ) : ℕ × ℕ × ℕ × ℕ :=
  let side := samples.map fun row => decide (row.getD i 0 ≤ (v : K))
  let tp := countTrue (side.zipWith (· && ·) labels)
  let tn := countTrue (side.zipWith (· && ·) (labels.map (!·)))
  (tp, tn, countTrue labels - tp, (labels.length - countTrue labels) - tn)

/-- `information_gain` (/repo/pywmi/engines/adaptive_rejection.py:254-267); the entropy is a parameter. -/
def infoGain (H : ℕ → ℕ → K) (samples : List (List K)) (labels : List Bool) (i : ℕ) (v : ℚ) : K :=
  let c := gainCounts samples labels i v
  let w : K := ((c.1 + c.2.1 : ℕ) : K) / (labels.length : K)
  H (countTrue labels) (labels.length - countTrue labels) - w * H c.1 c.2.1 - (1 - w) * H c.2.2.1 c.2.2.2

end
end Pywmi
