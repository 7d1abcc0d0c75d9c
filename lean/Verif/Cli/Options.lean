import Verif.Domain.Domain

/-!
# Engine descriptions on the command line (/repo/pywmi/__main__.py:33-185)
-/

namespace Pywmi

/-- Values of options. -/
inductive OptVal where
  | int (i : ℤ)
  | str (s : List Char)
  | flag (b : Bool)
  | strategy (s : String)
  | algebra (name : String) (reduce : Option String)
deriving DecidableEq, Repr

/-- Options as a dictionary. -/
abbrev Opts := List (String × OptVal)

/-- `option_string.startswith(prefix)`. -/
def startsWith (s p : List Char) : Bool := p.isPrefixOf s

/-- `int(option_string[1:])`, or ValueError (/repo/pywmi/__main__.py:41). -/
def intOpt (readInt : List Char → Option ℤ) (n : String) (s : List Char) :
    Except PyErr (Option (String × OptVal) × Opts) :=
  match readInt (s.drop 1) with
  | some i => .ok (some (n, .int i), [])
  | none => .error .valueError

/-- The `factorized` branch (/repo/pywmi/__main__.py:68-83): the pair, and the algebra it sets. -/
def factorizedOpt (W : List String) (s : List Char) : Except PyErr (Option (String × OptVal) × Opts) :=
  let nv := some ("factorized", OptVal.flag (startsWith s "factorized".toList))
  let parts := s.splitOn '.'
  if "factorized" ∈ W ∧ 1 < parts.length then
    if parts[1]? = some "psi".toList then .ok (nv, [("algebra", .algebra "psi" none)])
    else if parts[1]? = some "pyxadd".toList then
      .ok (nv, [("algebra", .algebra "pyxadd" (if parts[2]? = some "int_init_only".toList then some "only_init" else none))])
    else .error .valueError
  else .ok (nv, [])

/-- One option string (/repo/pywmi/__main__.py:39-95): the pair `n, v` (none is `None, None`) and the entries that are
set on the way. `readInt` is `int`. -/
def decodeOption (readInt : List Char → Option ℤ) (W : List String) (s : List Char) :
    Except PyErr (Option (String × OptVal) × Opts) :=
  if startsWith s ['t'] then intOpt readInt "timeout" s
  else if startsWith s ['s'] ∧ "seed" ∈ W then intOpt readInt "seed" s
  else if startsWith s ['n'] then intOpt readInt "sample_count" s
  else if startsWith s ['m'] then .ok (some ("mode", .str (s.drop 1)), [])
  else if startsWith s ['r'] ∧ "reduce" ∈ W then
    if s.drop 1 = "init_only".toList then .ok (some ("reduce_strategy", .strategy "no_sum_product_reduce"), [])
    else if s.drop 1 = "full".toList then .ok (some ("reduce_strategy", .strategy "full_reduce"), [])
    else if s.drop 1 = "none".toList then .ok (some ("reduce_strategy", .strategy "no_reduce"), [])
    else .ok (none, [])
  else if startsWith s ['b'] ∧ "backend" ∈ W then .ok (some ("backend", .str (s.drop 1)), [])
  else if startsWith s ['b'] ∧ "sample_count_build" ∈ W then intOpt readInt "sample_count_build" s
  else if startsWith s ['v'] ∧ "balance" ∈ W then .ok (some ("balance", .str (s.drop 1)), [])
  else if s = "min".toList ∧ "minimize" ∈ W then .ok (some ("minimize", .flag true), [])
  else if s = "pint".toList then .ok (some ("pint", .flag true), [])
  else if startsWith s "factorized".toList ∨ startsWith s "unfactorized".toList then factorizedOpt W s
  else if s = "prune".toList then .ok (some ("find_conflicts", .flag true), [])
  else if s = "order".toList then .ok (some ("ordered", .flag true), [])
  else if s = "collapse".toList then .ok (some ("collapse", .flag true), [])
  else if s = "cache".toList then .ok (some ("cache", .flag true), [])
  else if s = "repeated".toList then .ok (some ("repeated", .flag true), [])
  else .error .valueError

/-- The loop of `parse_options` (/repo/pywmi/__main__.py:38-100). -/
def parseLoop (readInt : List Char → Option ℤ) (W : List String) : List (List Char) → Opts → Except PyErr Opts
  | [], o => .ok o
  | s :: ss, o =>
    match decodeOption readInt W s with
    | .error e => .error e
    | .ok (nv, extra) =>
      let o := dictUpdate o extra
      match nv with
      | some (n, v) => parseLoop readInt W ss (if n ∈ W then dictSet o n v else o)
      | none => parseLoop readInt W ss o

/-- `parse_options` (/repo/pywmi/__main__.py:33-100). -/
def parseOptions (readInt : List Char → Option ℤ) (ss : List (List Char)) (W : List String) : Except PyErr Opts :=
  parseLoop readInt W ss []

/-- The convex integration backends (/repo/pywmi/__main__.py:138-160). -/
inductive BackendSpec where
  | rej (n bb : ℤ) (seed : Option ℤ)
  | xadd (mode : Option (List Char))
  | latte
deriving DecidableEq, Repr

/-- The backend string (/repo/pywmi/__main__.py:142-160). -/
def parseBackend (readInt : List Char → Option ℤ) (s : List Char) : Except PyErr BackendSpec :=
  let parts := s.splitOn '.'
  let intAt (i : ℕ) : Except PyErr ℤ :=
    match parts[i]? with
    | none => .error .indexError
    | some t => match readInt t with | some i => .ok i | none => .error .valueError
  if parts[0]? = some "rej".toList then
    match (if 2 < parts.length then intAt 2 else .ok 0), (if 3 < parts.length then (intAt 3).map some else .ok none), intAt 1 with
    | .ok bb, .ok seed, .ok n => .ok (.rej n bb seed)
    | .error e, _, _ => .error e
    | _, .error e, _ => .error e
    | _, _, .error e => .error e
  else if parts[0]? = some "xadd".toList then .ok (.xadd parts[1]?)
  else if parts[0]? = some "latte".toList then .ok .latte
  else .error .valueError

/-- The engines of the command line. -/
inductive EngineKind where
  | pa | mpwmi | rej | adapt | xadd | pyxadd | praise | xsdd
deriving DecidableEq, Repr

/-- Name of the engine in a description (/repo/pywmi/__main__.py:107-128). -/
def EngineKind.name : EngineKind → String
  | .pa => "pa" | .mpwmi => "mpwmi" | .rej => "rej" | .adapt => "adapt" | .xadd => "xadd"
  | .pyxadd => "pyxadd" | .praise => "praise" | .xsdd => "xsdd"

/-- The whitelist of each engine (/repo/pywmi/__main__.py:108-137). -/
def EngineKind.whitelist : EngineKind → List String
  | .pa => ["timeout"] | .mpwmi => ["cache"] | .rej => ["sample_count", "seed"] | .adapt => ["sample_count", "seed"]
  | .xadd => ["mode", "timeout"] | .pyxadd => ["reduce"] | .praise => []
  | .xsdd => ["backend", "factorized", "find_conflicts", "ordered", "balance", "minimize"]

/-- The keyword parameters of the constructors (/repo/pywmi/engines/pa.py:26, mpwmi.py:34, rejection.py:29,
adaptive_rejection.py:271-272, xadd.py:23, pyxadd/engine.py:127-135, praise.py:39, xsdd/engine.py:131-143, 282-291). -/
def EngineKind.params : EngineKind → List String
  | .pa => ["directory", "timeout"] | .mpwmi => ["cache"] | .rej => ["sample_count", "seed"]
  | .adapt => ["sample_count", "sample_count_build", "stop_criterion", "split_criterion", "seed"]
  | .xadd => ["mode", "timeout"] | .pyxadd => ["pool", "reduce_strategy", "algebra"] | .praise => []
  | .xsdd => ["algebra", "convex_backend", "find_conflicts", "ordered", "vtree_strategy", "minimize"]

/-- The parameters without default. -/
def EngineKind.required : EngineKind → List String
  | .rej => ["sample_count"] | .adapt => ["sample_count"] | _ => []

/-- An engine that was constructed: its kind, its keyword arguments and its backend. -/
structure EngineSpec where
  kind : EngineKind
  opts : Opts
  backend : Option BackendSpec
deriving DecidableEq, Repr

/-- Calling the constructor with keyword arguments: unknown and missing keywords raise TypeError.  The installation
checks of the engines are not modelled. -/
def construct (k : EngineKind) (o : Opts) (b : Option BackendSpec) : Except PyErr EngineSpec :=
  if (∀ p ∈ o, p.1 ∈ k.params) ∧ ∀ n ∈ k.required, n ∈ o.map (·.1) then .ok ⟨k, o, b⟩ else .error .typeError

/-- Which engine the first part of a description names (/repo/pywmi/__main__.py:107-128). -/
def kindOf (s : List Char) : Option EngineKind :=
  let l := s.map Char.toLower
  [EngineKind.pa, .mpwmi, .rej, .adapt, .xadd, .pyxadd, .praise, .xsdd].find? fun k => l = k.name.toList

/-- `get_engine` (/repo/pywmi/__main__.py:103-167); none is the implicit `None` for an unknown name. -/
def getEngine (readInt : List Char → Option ℤ) (desc : List Char) : Except PyErr (Option EngineSpec) :=
  let parts := desc.splitOn ':'
  match kindOf (parts.headD []) with
  | none => .ok none
  | some .praise => (construct .praise [] none).map some
  | some .xsdd =>
    match parseOptions readInt parts.tail EngineKind.xsdd.whitelist with
    | .error e => .error e
    | .ok o =>
      match o.lookup "backend" with
      | some (.str b) =>
        match parseBackend readInt b with
        | .error e => .error e
        | .ok b => (construct .xsdd (o.filter fun p => p.1 ≠ "backend") (some b)).map some
      | _ => (construct .xsdd (o.filter fun p => p.1 ≠ "backend") none).map some
  | some k =>
    match parseOptions readInt parts.tail k.whitelist with
    | .error e => .error e
    | .ok o => (construct k o none).map some

/-- `get_volume` (/repo/pywmi/__main__.py:170-185): engines are queried in turn; an engine may answer, give `None`, or
raise. The second component counts the engines that were run. -/
def getVolume {V : Type} : List (Except PyErr (Option V)) → Except PyErr (Option V) × ℕ
  | [] => (.ok none, 0)
  | .error e :: _ => (.error e, 1)
  | .ok (some v) :: _ => (.ok (some v), 1)
  | .ok none :: es => let r := getVolume es; (r.1, r.2 + 1)

end Pywmi
