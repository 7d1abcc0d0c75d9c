import Verif.Parse.Nested
import Mathlib.Data.List.Sort

/-!
# Domains and densities

Model of /repo/pywmi/domain.py.  Python dictionaries are insertion-ordered association lists; numbers are rationals.
Bounds are a pair of optional numbers (`None` is a missing bound).
-/

namespace Pywmi
open Formula

/-- Bounds of a real variable, a tuple `(lb, ub)`. -/
abbrev Bounds := Option ℚ × Option ℚ

/-- `Domain` (/repo/pywmi/domain.py:22-25). -/
structure Domain where
  vars : List String
  varTypes : List (String × Ty)
  varDomains : List (String × Bounds)
deriving DecidableEq, Repr

/-- Writing a key of a dictionary: the position of an existing key is kept. -/
def dictSet {β : Type} (d : List (String × β)) (k : String) (v : β) : List (String × β) :=
  match d with
  | [] => [(k, v)]
  | (k', w) :: d => if k' = k then (k', v) :: d else (k', w) :: dictSet d k v

/-- `dict(pairs)`. -/
def dictOf {β : Type} (ps : List (String × β)) : List (String × β) := ps.foldl (fun d p => dictSet d p.1 p.2) []

/-- `d1.update(d2)`. -/
def dictUpdate {β : Type} (d ps : List (String × β)) : List (String × β) := ps.foldl (fun d p => dictSet d p.1 p.2) d

/-- `d[k]`, raising KeyError. -/
def dictGet {β : Type} (d : List (String × β)) (k : String) : Except PyErr β :=
  match d.lookup k with
  | some v => .ok v
  | none => .error .keyError

namespace Domain

/-- A comprehension `[v for v in vs if types[v] == ty]`; an unknown variable is a KeyError. -/
def ofType (types : List (String × Ty)) (ty : Ty) : List String → Except PyErr (List String)
  | [] => .ok []
  | v :: vs =>
    match dictGet types v with
    | .error e => .error e
    | .ok t =>
      match ofType types ty vs with
      | .error e => .error e
      | .ok rest => .ok (if t = ty then v :: rest else rest)

/-- `bool_vars` (/repo/pywmi/domain.py:28-29). -/
def boolVars (D : Domain) : Except PyErr (List String) := ofType D.varTypes .bool D.vars
/-- `real_vars` (/repo/pywmi/domain.py:32-33). -/
def realVars (D : Domain) : Except PyErr (List String) := ofType D.varTypes .real D.vars

/-- `get_symbol` (/repo/pywmi/domain.py:35-38). -/
def getSymbol (D : Domain) (v : String) : Except PyErr Formula :=
  match dictGet D.varTypes v with
  | .ok t => .ok (.sym v t)
  | .error e => .error e

/-- The loop of `get_bounds` (/repo/pywmi/domain.py:58-63); `float` is the identity. -/
def boundList (D : Domain) : List (String × Bounds) → Except PyErr (List Formula)
  | [] => .ok []
  | (v, lb, ub) :: ds =>
    match D.getSymbol v with
    | .error e => .error e
    | .ok s =>
      match D.boundList ds with
      | .error e => .error e
      | .ok rest =>
        .ok ((match lb with | some l => [Formula.le (.realC l) s] | none => []) ++
          ((match ub with | some u => [Formula.le s (.realC u)] | none => []) ++ rest))

/-- `get_bounds` (/repo/pywmi/domain.py:55-64). -/
def getBounds (D : Domain) : Except PyErr Formula :=
  match D.boundList D.varDomains with
  | .ok bs => .ok (mkAnd bs)
  | .error e => .error e

/-- The volume loop; `none` is `float("inf")` (/repo/pywmi/domain.py:89-94). -/
def volumeLoop (acc : ℚ) : List (String × Bounds) → Option ℚ
  | [] => some acc
  | (_, some l, some u) :: ds => volumeLoop (acc * (u - l)) ds
  | _ :: _ => none

/-- `get_bounding_box_volume` (/repo/pywmi/domain.py:83-94). -/
def boundingBoxVolume (D : Domain) : Except PyErr (Option ℚ) :=
  match D.realVars with
  | .error e => .error e
  | .ok rs => if rs.length = 0 then .ok (some 0) else .ok (volumeLoop 1 D.varDomains)

/-- `get_volume` (/repo/pywmi/domain.py:96-98); infinity times a positive number is infinity. -/
def getVolume (D : Domain) : Except PyErr (Option ℚ) :=
  match D.boundingBoxVolume with
  | .error e => .error e
  | .ok v =>
    match D.boolVars with
    | .error e => .error e
    | .ok bs => .ok (v.map (· * 2 ^ bs.length))

/-- The argument `real_variables` of `make`. -/
inductive RealArg where
  | missing
  | names (vs : List String)
  | dict (d : List (String × Bounds))

/-- The names that iterating over the argument gives. -/
def RealArg.iter : RealArg → Except PyErr (List String)
  | .missing => .error .typeError
  | .names vs => .ok vs
  | .dict d => .ok (d.map (·.1))

/-- `Domain.make` (/repo/pywmi/domain.py:100-123).  The argument `real_variable_bounds` is a list; passing a
dictionary there (lines 118-119) is not modelled. -/
def make (bools : List String) (reals : RealArg) (varBounds : Option (List Bounds)) (allBounds : Option Bounds) :
    Except PyErr Domain :=
  if (varBounds.getD []) ≠ [] ∧ allBounds.isSome then .error .valueError
  else
    let vb : Except PyErr (Option (List Bounds)) :=
      match allBounds with
      | none => .ok varBounds
      | some b =>
        match reals.iter with
        | .ok vs => .ok (some (vs.map fun _ => b))
        | .error e => .error e
    match vb with
    | .error e => .error e
    | .ok vb =>
      let r : Except PyErr (List String × List (String × Bounds)) :=
        match reals, vb with
        | .missing, none => .ok ([], [])
        | .dict d, none => .ok (d.map (·.1), d)
        | .names _, none => .error .attributeError
        | .names vs, some bs => .ok (vs, dictOf (vs.zip bs))
        | .dict _, some _ => .error .typeError
        | .missing, some _ => .error .typeError
      match r with
      | .error e => .error e
      | .ok (names, bounds) =>
        let types := dictUpdate (dictOf (bools.map fun v => (v, Ty.bool))) (bounds.map fun p => (p.1, Ty.real))
        .ok ⟨bools ++ names, types, bounds⟩

/-- The exported state (/repo/pywmi/domain.py:143-147): types become strings.  JSON keeps lists, strings and numbers. -/
structure State where
  vars : List String
  varTypes : List (String × String)
  varDomains : List (String × Bounds)
deriving DecidableEq, Repr

/-- `export_type` (/repo/pywmi/domain.py:135-141). -/
def exportType : Ty → String
  | .bool => "bool"
  | .real => "real"
/-- `import_type` (/repo/pywmi/domain.py:151-157). -/
def importType (s : String) : Except PyErr Ty :=
  if s = "bool" then .ok .bool else if s = "real" then .ok .real else .error .runtimeError

/-- `get_state` (/repo/pywmi/domain.py:134-147). -/
def getState (D : Domain) : State :=
  ⟨D.vars, dictOf (D.varTypes.map fun p => (p.1, exportType p.2)), D.varDomains⟩

/-- The comprehension over the types of a state. -/
def importTypes : List (String × String) → Except PyErr (List (String × Ty))
  | [] => .ok []
  | (v, s) :: ps =>
    match importType s with
    | .error e => .error e
    | .ok t =>
      match importTypes ps with
      | .error e => .error e
      | .ok rest => .ok ((v, t) :: rest)

/-- `from_state` (/repo/pywmi/domain.py:149-162). -/
def fromState (S : State) : Except PyErr Domain :=
  match importTypes S.varTypes with
  | .error e => .error e
  | .ok ts => .ok ⟨S.vars, dictOf ts, dictOf S.varDomains⟩

/-- Select from a dictionary, `{v: d[v] for v in vs}`. -/
def selectKeys {β : Type} (d : List (String × β)) : List String → Except PyErr (List (String × β))
  | [] => .ok []
  | v :: vs =>
    match dictGet d v with
    | .error e => .error e
    | .ok x =>
      match selectKeys d vs with
      | .error e => .error e
      | .ok rest => .ok ((v, x) :: rest)

/-- `row[i]` for the columns of the kept variables (/repo/pywmi/domain.py:169-170). -/
def projectRow (vars keep : List String) (row : List ℚ) : Except PyErr (List ℚ) :=
  match keep with
  | [] => .ok []
  | v :: vs =>
    if v ∉ vars then .error .valueError
    else
      match row[vars.idxOf v]? with
      | none => .error .indexError
      | some x =>
        match projectRow vars vs row with
        | .error e => .error e
        | .ok rest => .ok (x :: rest)

/-- `project` (/repo/pywmi/domain.py:164-171). -/
def project (D : Domain) (keep : List String) (data : List (List ℚ)) : Except PyErr (Domain × List (List ℚ)) :=
  match selectKeys D.varTypes keep with
  | .error e => .error e
  | .ok ts =>
    match selectKeys D.varDomains (keep.filter fun v => D.varTypes.lookup v = some .real) with
    | .error e => .error e
    | .ok ds =>
      match data.mapM (projectRow D.vars keep) with
      | .error e => .error e
      | .ok rows => .ok (⟨keep, dictOf ts, dictOf ds⟩, rows)

/-- A well-formed domain: distinct names, a type for exactly the variables, bounds for exactly the real ones. -/
structure WF (D : Domain) : Prop where
  nodup : D.vars.Nodup
  typesNodup : (D.varTypes.map (·.1)).Nodup
  types : ∀ v, v ∈ D.varTypes.map (·.1) ↔ v ∈ D.vars
  domNodup : (D.varDomains.map (·.1)).Nodup
  doms : ∀ v, v ∈ D.varDomains.map (·.1) ↔ (v, Ty.real) ∈ D.varTypes

end Domain

/-- `Density` (/repo/pywmi/domain.py:180-185). -/
structure Density where
  domain : Domain
  support : Formula
  weight : Formula
  queries : List Formula

/-- The exported state of a density (/repo/pywmi/domain.py:192-197). -/
structure Density.State where
  domain : Domain.State
  queries : List (List Char)
  formula : List Char
  weights : List Char

/-- `Density.get_state` (/repo/pywmi/domain.py:191-197). -/
def Density.getState (showReal : ℚ → Tok) (D : Density) : Except PyErr Density.State :=
  match Prog.mapE (smtToNested showReal) D.queries with
  | .error e => .error e
  | .ok qs =>
    match smtToNested showReal D.support with
    | .error e => .error e
    | .ok s =>
      match smtToNested showReal D.weight with
      | .error e => .error e
      | .ok w => .ok ⟨D.domain.getState, qs, s, w⟩

/-- `Density.from_state` (/repo/pywmi/domain.py:199-206). -/
def Density.fromState (readReal : Tok → Option ℚ) (S : Density.State) : Except PyErr Density :=
  match Domain.fromState S.domain with
  | .error e => .error e
  | .ok D =>
    match nestedToSmt readReal S.formula with
    | .error e => .error e
    | .ok s =>
      match nestedToSmt readReal S.weights with
      | .error e => .error e
      | .ok w =>
        match Prog.mapE (nestedToSmt readReal) S.queries with
        | .error e => .error e
        | .ok qs => .ok ⟨D, s, w, qs⟩

/-! ### Files of a density -/

/-- Names of the files in the directory of a `FileDensity` (/repo/pywmi/domain.py:210-224).  `badQuery` stands for a
file that matches `query_*.smt2` without a number. -/
inductive DFile where
  | domain | support | weight | query (i : ℕ) | badQuery (s : String) | other (s : String)
deriving DecidableEq, Repr

/-- Content of a file. -/
inductive DContent where
  | state (s : Domain.State) | smt (text : List Char)

/-- A directory: at most one content per name. -/
abbrev Dir := List (DFile × DContent)

/-- Writing a file replaces it. -/
def Dir.write (d : Dir) (f : DFile) (c : DContent) : Dir := (f, c) :: d.filter fun p => p.1 ≠ f

/-- `FileDensity` (/repo/pywmi/domain.py:209, 259); a weight may be `None`. -/
structure FileDensity where
  domain : Domain
  support : Formula
  weight : Option Formula
  queries : List Formula

/-- The query loop of `to_file` (/repo/pywmi/domain.py:237-238). -/
def writeQueries (wr : Formula → List Char) : ℕ → List Formula → Dir → Dir
  | _, [], d => d
  | i, q :: qs, d => writeQueries wr (i + 1) qs (d.write (.query i) (.smt (wr q)))

/-- `FileDensity.to_file` (/repo/pywmi/domain.py:226-238); `wr` is `smt.write_smtlib`. -/
def toFile (wr : Formula → List Char) (D : FileDensity) (d : Dir) : Dir :=
  let d := d.write .domain (.state D.domain.getState)
  let d := d.write .support (.smt (wr D.support))
  let d := match D.weight with | some w => d.write .weight (.smt (wr w)) | none => d
  writeQueries wr 0 D.queries d

/-- `smt.read_smtlib(path)`. -/
def readSmt (rd : List Char → Except PyErr Formula) (d : Dir) (f : DFile) : Except PyErr Formula :=
  match d.lookup f with
  | some (.smt t) => rd t
  | some (.state _) => .error .parseError
  | none => .error .osError

/-- The numbers of the files matching `query_*.smt2`; one without a number makes `int` raise. -/
def queryIds : Dir → Except PyErr (List ℕ)
  | [] => .ok []
  | (.query i, _) :: d => match queryIds d with | .ok is => .ok (i :: is) | .error e => .error e
  | (.badQuery _, _) :: _ => .error .valueError
  | _ :: d => queryIds d

/-- Read the queries in the order of the numbers. -/
def readQueries (rd : List Char → Except PyErr Formula) (d : Dir) : List ℕ → Except PyErr (List Formula)
  | [] => .ok []
  | i :: is =>
    match readSmt rd d (.query i) with
    | .error e => .error e
    | .ok q => match readQueries rd d is with | .ok qs => .ok (q :: qs) | .error e => .error e

/-- `FileDensity.from_file` (/repo/pywmi/domain.py:240-259). -/
def fromFile (rd : List Char → Except PyErr Formula) (d : Dir) : Except PyErr FileDensity :=
  match d.lookup .domain with
  | none => .error .osError
  | some (.smt _) => .error .parseError
  | some (.state S) =>
    match Domain.fromState S with
    | .error e => .error e
    | .ok D =>
      match readSmt rd d .support with
      | .error e => .error e
      | .ok sup =>
        let w : Except PyErr (Option Formula) :=
          match d.lookup .weight with
          | none => .ok none
          | some _ => match readSmt rd d .weight with | .ok w => .ok (some w) | .error e => .error e
        match w with
        | .error e => .error e
        | .ok w =>
          match queryIds d with
          | .error e => .error e
          | .ok ids =>
            match readQueries rd d (ids.insertionSort (· ≤ ·)) with
            | .error e => .error e
            | .ok qs => .ok ⟨D, sup, w, qs⟩

end Pywmi
