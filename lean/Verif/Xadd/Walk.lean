import Verif.Xadd.Pool

set_option linter.unusedSectionVars false
set_option linter.unusedSimpArgs false

/-!
# Walking diagrams bottom-up, and inversion

Model of `ParentsWalker`, `WalkingProfile`, `BottomUpWalker` (/repo/pywmi/engines/pyxadd/walk.py), of `LeafWalker`
(/repo/pywmi/engines/pyxadd/leaf_transform.py) and of `Pool.invert` (/repo/pywmi/engines/pyxadd/core.py:329-367).
Sets of parents are lists without repetition, dictionaries are association lists in the order of insertion.
-/

namespace Pywmi

/-! ### Parents -/

/-- `parents[n].add(m)`, with `parents[n] = set()` first for a new key
(/repo/pywmi/engines/pyxadd/walk.py:171-178). -/
def addParent : List (ℕ × List ℕ) → ℕ → ℕ → List (ℕ × List ℕ)
  | [], n, m => [(n, [m])]
  | (k, l) :: d, n, m => if k = n then (k, if m ∈ l then l else l ++ [m]) :: d else (k, l) :: addParent d n m

/-- `d[k] = v` for a key that is present. -/
def setKey {β : Type} : List (ℕ × β) → ℕ → β → List (ℕ × β)
  | [], _, _ => []
  | (k', v') :: d, k, v => if k' = k then (k', v) :: d else (k', v') :: setKey d k v

/-- State of `ParentsWalker`: the dictionary `_nodes` and the set `_seen`. -/
structure PWState where
  par : List (ℕ × List ℕ)
  seen : List ℕ

section
variable {E : Type} [DecidableEq E]

/-- `DepthFirstUniqueWalker._visit` with the methods of `ParentsWalker` (/repo/pywmi/engines/pyxadd/walk.py:77-88, 164-178),
with a bound on the recursion depth. -/
def visitParents (p : Pool E) : ℕ → ℕ → Option ℕ → PWState → Except PyErr PWState
  | 0, _, _, _ => .error .fuel
  | k + 1, n, parent, s =>
    let s1 : PWState := match parent with
      | some m => { s with par := addParent s.par n m }
      | none => s
    match p.node n with
    | none => .error .runtimeError
    | some (.leaf _) => .ok s1
    | some (.inner _ t f) =>
      if n ∈ s1.seen then .ok s1
      else
        match visitParents p k t (some n) { s1 with seen := n :: s1.seen } with
        | .error e => .error e
        | .ok s2 => visitParents p k f (some n) s2

/-- `ParentsWalker.walk` (/repo/pywmi/engines/pyxadd/walk.py:157-162). -/
def parentsOf (p : Pool E) (root : ℕ) : Except PyErr (List (ℕ × List ℕ)) :=
  match visitParents p (root + 1) root none ⟨[(root, [])], []⟩ with
  | .ok s => .ok s.par
  | .error e => .error e

/-! ### Profiles -/

/-- State of the loop of `extract_layers`; the top of the stack `watch` is the head of the list. -/
structure LayerState where
  pos : List (ℕ × ℕ)
  par : List (ℕ × List ℕ)
  watch : List ℕ

/-- The loop body for one child (/repo/pywmi/engines/pyxadd/walk.py:247-253). -/
def layerChild (cur : ℕ) (c : ℕ) (s : LayerState) : Except PyErr LayerState :=
  let pos1 := if (s.pos.lookup c).isSome then s.pos else s.pos ++ [(c, 0)]
  match s.par.lookup c with
  | none => .error .keyError
  | some l =>
    if cur ∈ l then
      match pos1.lookup c, pos1.lookup cur with
      | some a, some b =>
        .ok ⟨setKey pos1 c (max a (b + 1)), setKey s.par c (l.erase cur), if l.erase cur = [] then c :: s.watch else s.watch⟩
      | _, _ => .error .keyError
    else .error .keyError

/-- The loop of `extract_layers` (/repo/pywmi/engines/pyxadd/walk.py:239-253) with a bound on the number of rounds. -/
def layerLoop (p : Pool E) : ℕ → LayerState → Except PyErr LayerState
  | 0, _ => .error .fuel
  | k + 1, s =>
    match s.watch with
    | [] => .ok s
    | cur :: w =>
      match s.par.lookup cur with
      | none => .error .keyError
      | some (_ :: _) => .error .runtimeError
      | some [] =>
        match p.node cur with
        | none => .error .runtimeError
        | some (.leaf _) => layerLoop p k { s with watch := w }
        | some (.inner _ t f) =>
          match layerChild cur t { s with watch := w } with
          | .error e => .error e
          | .ok s1 =>
            match layerChild cur f s1 with
            | .error e => .error e
            | .ok s2 => layerLoop p k s2

/-- One layer of `nested_reverse` (/repo/pywmi/engines/pyxadd/walk.py:254-260, 229-231). -/
def layer (pos : List (ℕ × ℕ)) (i : ℕ) : Except PyErr (List ℕ) :=
  match (pos.filter fun q => q.2 = i).map (·.1) with
  | [] => .error .keyError
  | l => .ok l

/-- `extract_cache` (/repo/pywmi/engines/pyxadd/walk.py:225-232): the layers one after the other, reversed. -/
def layerNodes (pos : List (ℕ × ℕ)) : Except PyErr (List ℕ) :=
  match Prog.mapE (layer pos) (List.range (pos.map (·.2)).dedup.length) with
  | .ok ls => .ok ls.flatten.reverse
  | .error e => .error e

/-- The counts of `WalkingProfile.__init__` (/repo/pywmi/engines/pyxadd/walk.py:184-187). -/
def startCount (par : List (ℕ × List ℕ)) (n : ℕ) : Except PyErr (ℕ × (ℕ × ℕ)) :=
  match par.lookup n with
  | some l => .ok (n, (l.length, 0))
  | none => .error .keyError

/-- `WalkingProfile(diagram)` (/repo/pywmi/engines/pyxadd/walk.py:182-188). -/
def newProfile (p : Pool E) (root : ℕ) : Except PyErr Profile :=
  match parentsOf p root with
  | .error e => .error e
  | .ok par =>
    match layerLoop p (par.length + 1) ⟨[(root, 0)], par, [root]⟩ with
    | .error e => .error e
    | .ok s =>
      match layerNodes s.pos with
      | .error e => .error e
      | .ok ns =>
        match Prog.mapE (startCount par) ns with
        | .error e => .error e
        | .ok cs => .ok ⟨ns, cs, 0⟩

/-- The entry of the dictionary of profiles is the mutable object: it is replaced when it changes. -/
def putProfile (root : ℕ) (pr : Profile) : XM E Unit :=
  XM.modify fun p => { p with profiles := setKey p.profiles root pr }

/-- `get_profile` (/repo/pywmi/engines/pyxadd/walk.py:387-393) and `DefaultCache` (/repo/pywmi/engines/pyxadd/core.py:121-164). -/
def getProfile (root : ℕ) : XM E Profile := do
  let p ← XM.get
  match p.profiles.lookup root with
  | some pr => pure pr
  | none =>
    let pr ← XM.lift (newProfile p root)
    XM.modify fun p => { p with profiles := (root, pr) :: p.profiles }
    pure pr

/-- `WalkingProfile.count` (/repo/pywmi/engines/pyxadd/walk.py:200-216). -/
def profileCount (root c : ℕ) : XM E Bool := do
  let pr ← getProfile root
  match pr.counts.lookup c with
  | none => XM.fail .keyError
  | some (m, i) =>
    putProfile root { pr with counts := setKey pr.counts c (m, i + 1) }
    if i + 1 = m then pure true
    else if i + 1 < m then pure false
    else XM.fail .runtimeError

/-- `WalkingProfile.has_next` and `next` (/repo/pywmi/engines/pyxadd/walk.py:218-223): None if there is no next node. -/
def profileNext (root : ℕ) : XM E (Option ℕ) := do
  let pr ← getProfile root
  match pr.nodes[pr.next]? with
  | none => pure none
  | some n =>
    putProfile root { pr with next := pr.next + 1 }
    pure (some n)

/-- `WalkingProfile.reset` (/repo/pywmi/engines/pyxadd/walk.py:193-198). -/
def profileReset (root : ℕ) : XM E Unit := do
  let pr ← getProfile root
  putProfile root { pr with counts := pr.counts.map fun q => (q.1, (q.2.1, 0)), next := 0 }

/-! ### The walk -/

variable {α : Type}

/-- `_retrieve_message` (/repo/pywmi/engines/pyxadd/walk.py:314-318): the message, None if it was popped before, and the
remaining messages. -/
def retrieve (root c : ℕ) (ms : List (ℕ × α)) : XM E (Option α × List (ℕ × α)) := do
  let last ← profileCount root c
  if last then pure (ms.lookup c, ms.filter fun q => q.1 ≠ c)
  else
    match ms.lookup c with
    | some a => pure (some a, ms)
    | none => XM.fail .keyError

/-- The loop of `BottomUpWalker.walk` (/repo/pywmi/engines/pyxadd/walk.py:294-303) with a bound on the number of rounds. -/
def bottomUpLoop (vt : ℕ → E → XM E α) (vi : ℕ → Decision → Option α → Option α → XM E α) (root : ℕ) :
    ℕ → List (ℕ × α) → XM E (List (ℕ × α))
  | 0, _ => XM.fail .fuel
  | k + 1, ms => do
    let n ← profileNext root
    match n with
    | none => pure ms
    | some n =>
      let x ← getNode n
      match x with
      | .leaf e =>
        let a ← vt n e
        bottomUpLoop vt vi root k ((n, a) :: ms.filter fun q => q.1 ≠ n)
      | .inner d t f =>
        let r1 ← retrieve root t ms
        let r2 ← retrieve root f r1.2
        let a ← vi n d r1.1 r2.1
        bottomUpLoop vt vi root k ((n, a) :: r2.2.filter fun q => q.1 ≠ n)

/-- `BottomUpWalker.walk` (/repo/pywmi/engines/pyxadd/walk.py:292-312). -/
def bottomUp (vt : ℕ → E → XM E α) (vi : ℕ → Decision → Option α → Option α → XM E α) (root : ℕ) : XM E α := do
  let pr ← getProfile root
  let ms ← bottomUpLoop vt vi root (pr.nodes.length + 1) []
  match ms with
  | [(n, a)] =>
    if n = root then do
      profileReset root
      pure a
    else XM.fail .runtimeError
  | _ => XM.fail .runtimeError

/-! ### Inversion -/

/-- `Pool._transform_invert` (/repo/pywmi/engines/pyxadd/core.py:329-337). -/
def transformInvert (X : XCtx E) (_n : ℕ) (e : E) : XM E ℕ := do
  let p ← XM.get
  let b ← XM.lift (X.back.isOne e)
  if b then pure p.zeroId
  else do
    let b ← XM.lift (X.back.isZero e)
    if b then pure p.oneId else XM.fail .runtimeError

/-- A message as an operand of `apply`: looking up None raises (/repo/pywmi/engines/pyxadd/core.py:217-227). -/
def message : Option ℕ → XM E ℕ
  | some n => pure n
  | none => XM.fail .runtimeError

/-- `LeafWalker.visit_internal` (/repo/pywmi/engines/pyxadd/leaf_transform.py:15-20). -/
def leafInternal (X : XCtx E) (inv : ℕ → XM E ℕ) (_n : ℕ) (d : Decision) (t f : Option ℕ) : XM E ℕ := do
  let b ← boolTest X d
  let t ← message t
  let u ← apply X .mul b t
  let i ← inv b
  let f ← message f
  let v ← apply X .mul i f
  apply X .add u v

/-- `Pool.invert` (/repo/pywmi/engines/pyxadd/core.py:339-367) with a bound on the recursion depth.  `transform_leaves`
(/repo/pywmi/engines/pyxadd/leaf_transform.py:23-25) gets the profile and walks. -/
def invertF (X : XCtx E) : ℕ → ℕ → XM E ℕ
  | 0, _ => XM.fail .fuel
  | k + 1, n => do
    let x ← getNode n
    let p ← XM.get
    match x with
    | .inner d t f =>
      if t = p.oneId ∧ f = p.zeroId then internal X d p.zeroId p.oneId
      else if t = p.zeroId ∧ f = p.oneId then internal X d p.oneId p.zeroId
      else bottomUp (transformInvert X) (leafInternal X (invertF X k)) n
    | .leaf _ =>
      if n = p.oneId then pure p.zeroId
      else if n = p.zeroId then pure p.oneId
      else XM.fail .runtimeError

/-- `Pool.invert`: the tests of inner nodes are inverted without a further walk. -/
def invert (X : XCtx E) (n : ℕ) : XM E ℕ := invertF X 2 n

end
end Pywmi
