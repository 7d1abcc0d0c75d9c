import Verif.Engine.Engine

/-!
# The engines that call an external solver

Model of /repo/pywmi/engines/xadd.py, /repo/pywmi/engines/praise.py, /repo/pywmi/engines/mpwmi.py and
/repo/pywmi/engines/pa.py.  The solvers themselves are parameters.  Texts are lists of characters.
-/

namespace Pywmi
open Formula Prog

/-! ## Regular expressions, as Python's `re` tries them -/

/-- A pattern: all ways to match a prefix of the text, as (matched, rest), in the order in which the backtracking
matcher of `re` tries them. -/
abbrev Rx := List Char → List (List Char × List Char)

namespace Rx

/-- A literal character. -/
def chr (c : Char) : Rx
  | [] => []
  | d :: s => if d = c then [([d], s)] else []

/-- `p?`, greedy. -/
def opt (p : Rx) : Rx := fun s => p s ++ [([], s)]

/-- Concatenation. -/
def seq (p q : Rx) : Rx := fun s => (p s).flatMap fun m => (q m.2).map fun m' => (m.1 ++ m'.1, m'.2)

/-- `\d`, for the ASCII digits (Python also accepts the other Unicode decimal digits). -/
def isDigit (c : Char) : Bool := '0' ≤ c && c ≤ '9'

/-- `\d*`, greedy. -/
def digits0 : Rx
  | [] => [([], [])]
  | c :: s => if isDigit c then (digits0 s).map (fun m => (c :: m.1, m.2)) ++ [([], c :: s)] else [([], c :: s)]

/-- `\d+`, greedy. -/
def digits1 : Rx
  | [] => []
  | c :: s => if isDigit c then (digits0 s).map (fun m => (c :: m.1, m.2)) else []

/-- `-?\d+\.\d+E?-?\d*` (/repo/pywmi/engines/xadd.py:22). -/
def number : Rx :=
  seq (opt (chr '-')) (seq digits1 (seq (chr '.') (seq digits1 (seq (opt (chr 'E')) (seq (opt (chr '-')) digits0)))))

/-- A match of `\n(number) (number)\n` at the start of the text: the two groups and the length of the match
(/repo/pywmi/engines/xadd.py:22). -/
def resultAt (s : List Char) : Option (List Char × List Char × ℕ) :=
  ((chr '\n' s).flatMap fun m0 => (number m0.2).flatMap fun m1 => (chr ' ' m1.2).flatMap fun m2 =>
    (number m2.2).flatMap fun m3 => (chr '\n' m3.2).map fun _ => (m1.1, m3.1, m1.1.length + m3.1.length + 3)).head?

/-- `pattern.findall` (/repo/pywmi/engines/xadd.py:64): leftmost matches that do not overlap; the first argument counts
the characters of the last match that are still to be skipped. -/
def findAll : ℕ → List Char → List (List Char × List Char)
  | _, [] => []
  | n + 1, _ :: s => findAll n s
  | 0, c :: s =>
    match resultAt (c :: s) with
    | some (a, b, k) => (a, b) :: findAll (k - 1) s
    | none => findAll 0 s

end Rx

/-! ## `float` of the texts the pattern matches -/

/-- The number written by decimal digits. -/
def decNat (cs : List Char) : ℕ := cs.foldl (fun n c => 10 * n + (c.toNat - '0'.toNat)) 0

/-- An optional minus sign at the start of a number, for `float` (/repo/pywmi/engines/xadd.py:63). -/
def stripMinus : List Char → Bool × List Char
  | '-' :: t => (true, t)
  | t => (false, t)

/-- `float(text)` (/repo/pywmi/engines/xadd.py:63) on the texts the pattern matches, idealised to the exact value:
`[-]digits.digits`, then nothing or `E[-]digits`.  The other forms `float` accepts do not match the pattern and are not
modelled (`ValueError`). -/
def pyFloat (text : List Char) : Except PyErr ℚ :=
  let (neg, t) := stripMinus text
  let (int, t) := t.span Rx.isDigit
  match t with
  | '.' :: t =>
    let (frac, t) := t.span Rx.isDigit
    if int = [] ∧ frac = [] then .error .valueError
    else
      let m : ℚ := decNat int + decNat frac / 10 ^ frac.length
      let m := if neg then -m else m
      match t with
      | [] => .ok m
      | 'E' :: t =>
        let (eneg, t) := stripMinus t
        let (ex, t) := t.span Rx.isDigit
        if ex = [] ∨ t ≠ [] then .error .valueError
        else .ok (if eneg then m / 10 ^ decNat ex else m * 10 ^ decNat ex)
      | _ => .error .valueError
  | _ => .error .valueError

/-! ## The XADD engine -/

/-- What `subprocess.check_output` does: the text printed, `CalledProcessError` or `TimeoutExpired`. -/
inductive SolverRun where
  | output (text : List Char)
  | failed
  | timeout
deriving DecidableEq

/-- The options of `XaddEngine` (/repo/pywmi/engines/xadd.py:24-35), and whether the JAR file exists when the solver is
called. -/
structure XaddOpts where
  mode : Option String
  timeout : Option ℕ
  jar : Bool

/-- The solver: the problem in the file (/repo/pywmi/engine.py:68-70), the queries if any, the mode and the time limit. -/
abbrev XaddSolver := Domain → Formula → Option Formula → Option (List Formula) → Option String → Option ℕ → SolverRun

/-- `timeout if timeout else self.timeout` (/repo/pywmi/engines/xadd.py:50). -/
def effTimeout (given own : Option ℕ) : Option ℕ :=
  match given with
  | some (n + 1) => some (n + 1)
  | _ => own

/-- `[self.mode] if self.mode else []` (/repo/pywmi/engines/xadd.py:54-56). -/
def modeArg : Option String → Option String
  | some m => if m = "" then none else some m
  | none => none

/-- `if timeout is None: timeout = self.timeout` (/repo/pywmi/engines/xadd.py:90-91). -/
def volTimeout (given own : Option ℕ) : Option ℕ :=
  match given with
  | none => own
  | some t => some t

/-- One result (/repo/pywmi/engines/xadd.py:62-65). -/
def xaddResult (queries : Option (List Formula)) (m : List Char × List Char) : Except PyErr ℚ :=
  match queries with
  | some _ => pyFloat m.1
  | none => pyFloat m.2

/-- `call_wmi` (/repo/pywmi/engines/xadd.py:42-83).  The temporary file is C55. -/
def callWmi (run : XaddSolver) (o : XaddOpts) (e : EngineObj) (queries : Option (List Formula)) (timeout : Option ℕ) :
    Except PyErr (Option (List ℚ)) :=
  if o.jar = false then .error .runtimeError
  else
    match run e.domain e.support e.weight queries (modeArg o.mode) (effTimeout timeout o.timeout) with
    | .failed => .ok none
    | .timeout => .ok none
    | .output text =>
      match mapE (xaddResult queries) (Rx.findAll 0 text) with
      | .error err => .error err
      | .ok rs => .ok (some rs)

/-- `XaddEngine.compute_volume` (/repo/pywmi/engines/xadd.py:85-96). -/
def jarVolume (run : XaddSolver) (o : XaddOpts) (e : EngineObj) (timeout : Option ℕ) (addBounds : Bool) :
    Except PyErr (Option ℚ) :=
  let here (e : EngineObj) (timeout : Option ℕ) : Except PyErr (Option ℚ) :=
    match callWmi run o e none (volTimeout timeout o.timeout) with
    | .error err => .error err
    | .ok none => .ok none
    | .ok (some []) => .ok none
    | .ok (some (r :: _)) => .ok (some r)
  if addBounds then
    match e.domain.getBounds with
    | .error err => .error err
    | .ok b => here (e.withConstraint b) timeout
  else here e timeout

/-- `Engine.compute_probabilities` (/repo/pywmi/engine.py:29-33) for an engine whose volume can be `None`: the comparison
`None > 0` and the division `None / volume` raise `TypeError`. -/
def computeProbabilitiesOpt {K : Type} [Field K] [LinearOrder K] (vol : EngineObj → Bool → Except PyErr (Option K)) (e : EngineObj)
    (queries : List Formula) (addBounds : Bool) : Except PyErr (List (Option K)) :=
  match vol e addBounds with
  | .error err => .error err
  | .ok v =>
    mapE (fun q =>
      match v with
      | none => .error .typeError
      | some v =>
        if v > 0 then
          match vol (e.withConstraint q) addBounds with
          | .error err => .error err
          | .ok none => .error .typeError
          | .ok (some vq) => .ok (some (vq / v))
        else .ok none) queries

/-! ### `normalize` -/

/-- The three files of `normalize` (/repo/pywmi/engines/xadd.py:116-131) as the solver gets them: the problem, the new
support, and the file to be overwritten; the answer is the run and the new content of the third file. -/
abbrev XaddNormalizer := Domain → Formula → Option Formula → Formula → Bool → Option ℕ → SolverRun × List Char

/-- The first of `f.readlines()` (/repo/pywmi/engines/xadd.py:151), with its line end; none for the empty file. -/
def firstLine (text : List Char) : Option (List Char) :=
  match text with
  | [] => none
  | _ => match text.span (· ≠ '\n') with
    | (l, '\n' :: _) => some (l ++ ['\n'])
    | (l, _) => some l

/-- `normalize` and `import_normalized` (/repo/pywmi/engines/xadd.py:104-151); `parse` is `nested_to_smt`. -/
def xaddNormalize (run : XaddNormalizer) (parse : List Char → Except PyErr Formula) (o : XaddOpts) (e : EngineObj)
    (newSupport : Formula) (conjoinOld paths : Bool) : Except PyErr (Option Formula) :=
  if o.jar = false then .error .runtimeError
  else
    let ns := if conjoinOld then .and [e.support, newSupport] else newSupport
    match run e.domain e.support e.weight ns paths o.timeout with
    | (.failed, _) => .error .other
    | (.timeout, _) => .ok none
    | (.output _, content) =>
      match firstLine content with
      | none => .error .indexError
      | some l =>
        match parse l with
        | .error err => .error err
        | .ok f => .ok (some f)

/-! ## The PRAiSE engine -/

section
variable {K : Type} [Field K] [LinearOrder K]

/-- `PRAiSEInference(support, weight).compute_normalized_probability(query)`. -/
abbrev PraiseSolver (K : Type) := Formula → Option Formula → Formula → Except PyErr K

/-- `compute_volume_pa` (/repo/pywmi/engines/praise.py:62-67): `query or TRUE()`. -/
def praiseCall (solve : PraiseSolver K) (support : Formula) (weight : Option Formula) (query : Option Formula) : Except PyErr K :=
  solve support weight (query.getD (.boolC true))

/-- `PraiseEngine.compute_volume` (/repo/pywmi/engines/praise.py:46-47): both arguments are ignored. -/
def praiseVolume (solve : PraiseSolver K) (e : EngineObj) (_addBounds : Bool) : Except PyErr K :=
  praiseCall solve e.support e.weight none

/-- `PraiseEngine.compute_probabilities` (/repo/pywmi/engines/praise.py:49-50). -/
def praiseProbabilities (solve : PraiseSolver K) (e : EngineObj) (queries : List Formula) (_addBounds : Bool) :
    Except PyErr (List K) :=
  mapE (fun q => praiseCall solve e.support e.weight (some q)) queries

/-! ## The message passing engine -/

/-- `MPWMI(support, weight).compute_volumes(queries, cache)`: the total and one volume per query. -/
abbrev MpwmiSolver (K : Type) := Formula → Option Formula → List Formula → Bool → Except PyErr (K × List K)

/-- The bounds step of `MPWMIEngine` (/repo/pywmi/engines/mpwmi.py:44-45, 51-52). -/
def withBounds (e : EngineObj) (addBounds : Bool) : Except PyErr EngineObj :=
  if addBounds then
    match e.domain.getBounds with
    | .error err => .error err
    | .ok b => .ok (e.withConstraint b)
  else .ok e

/-- `MPWMIEngine.compute_probabilities` (/repo/pywmi/engines/mpwmi.py:43-48); the numbers of the solver are taken to be
Python numbers, so that a division by zero raises. -/
def mpwmiProbabilities (solve : MpwmiSolver K) (cache : Bool) (e : EngineObj) (queries : List Formula) (addBounds : Bool) :
    Except PyErr (List K) :=
  match withBounds e addBounds with
  | .error err => .error err
  | .ok e =>
    match solve e.support e.weight queries cache with
    | .error err => .error err
    | .ok (Z, vs) => mapE (fun q => if Z = 0 then .error .zeroDivision else .ok (q / Z)) vs

/-- `MPWMIEngine.compute_volume` (/repo/pywmi/engines/mpwmi.py:50-54). -/
def mpwmiVolume (solve : MpwmiSolver K) (cache : Bool) (e : EngineObj) (addBounds : Bool) : Except PyErr K :=
  match withBounds e addBounds with
  | .error err => .error err
  | .ok e =>
    match solve e.support e.weight [] cache with
    | .error err => .error err
    | .ok (Z, _) => .ok Z

/-! ## The predicate abstraction engine -/

/-- `WMI(support, weight).computeWMI(True, mode, domA, domX)[0]`: support, weight, query, Boolean and real variables. -/
abbrev PaSolver (K : Type) := Formula → Option Formula → Formula → List String → List String → Except PyErr K

/-- The options of `PredicateAbstractionEngine` (/repo/pywmi/engines/pa.py:26-32). -/
structure PaOpts where
  directory : Option String
  timeout : Option ℕ

/-- `PredicateAbstractionEngine.compute_volume` (/repo/pywmi/engines/pa.py:34-41, 54-63); the options are not used. -/
def paVolume (solve : PaSolver K) (_o : PaOpts) (e : EngineObj) (addBounds : Bool) : Except PyErr K :=
  match withBounds e addBounds with
  | .error err => .error err
  | .ok e =>
    match e.domain.boolVars, e.domain.realVars with
    | .ok bs, .ok rs => solve e.support e.weight (.boolC true) bs rs
    | .error err, _ => .error err
    | _, .error err => .error err

end
end Pywmi
