import Verif.Cli.Options
import Verif.Engine.Wrappers

/-!
# The tasks of the command line

Model of `compare` and `parse` (/repo/pywmi/__main__.py:188-396).  Numbers are shown exactly; the four or two decimals
of the printed table are left out, and so are the progress messages.
-/

namespace Pywmi
open Formula Prog

/-- What a run of an engine gives: its name, whether it claims to be exact, its answer, and the time it took. -/
structure EngineRun where
  name : String
  exact : Bool
  answer : Except PyErr (Option ℚ)
  seconds : ℚ

/-- A row of the table (/repo/pywmi/__main__.py:278-281): name, time, relative time, volume and error; `none` is `-`.
The standard deviation of a single value is left out. -/
structure CompareRow where
  name : String
  seconds : ℚ
  relative : Option ℚ
  volume : Option ℚ
  error : Option ℚ
deriving DecidableEq

/-- What `compare` prints: the warnings, each with the names and values of two engines, and the table. -/
structure CompareOut where
  warnings : List ((String × ℚ) × (String × ℚ))
  rows : List CompareRow
deriving DecidableEq

/-- `error` (/repo/pywmi/__main__.py:199-206). -/
def compareError (exactVolume volume : Option ℚ) : Option ℚ :=
  match exactVolume, volume with
  | some e, some v => some (if e ≠ 0 then |v - e| / |e| else 0)
  | _, _ => none

/-- `r_duration` (/repo/pywmi/__main__.py:208-213). -/
def compareRelative (reference : Option ℚ) (d : ℚ) : Option ℚ :=
  match reference with
  | none => none
  | some r => some (if r ≠ 0 then d / r else 0)

/-- The main loop of `compare` (/repo/pywmi/__main__.py:234-256): the answers in order; the first exception ends it.
Every engine runs once, so that the mean is its answer. -/
def compareRuns : List EngineRun → Except PyErr (List (EngineRun × Option ℚ))
  | [] => .ok []
  | r :: rs =>
    match r.answer with
    | .error e => .error e
    | .ok v =>
      match compareRuns rs with
      | .error e => .error e
      | .ok rest => .ok ((r, v) :: rest)

/-- `exact_volumes` and `exact_durations` (/repo/pywmi/__main__.py:252-254). -/
def exactAnswers (rs : List (EngineRun × Option ℚ)) : List (ℚ × ℚ) :=
  rs.filterMap fun p => match p.2 with
    | some v => if p.1.exact then some (v, p.1.seconds) else none
    | none => none

/-- The condition of /repo/pywmi/__main__.py:261-263, with `delta` of line 223. -/
def disagree (a b : ℚ) : Bool := |a - b| > 1 / 10 ^ 5 * min |a| |b|

/-- The pairs of positions `i < j` of /repo/pywmi/__main__.py:259-260, in order. -/
def indexPairs (n : ℕ) : List (ℕ × ℕ) :=
  (List.range (n - 1)).flatMap fun i => ((List.range n).filter fun j => i < j).map fun j => (i, j)

/-- The warnings (/repo/pywmi/__main__.py:258-269): `engines[i]` and `engines[j]` with the positions among the exact
answers. -/
def compareWarnings (engines : List EngineRun) (exact : List (ℚ × ℚ)) : List ((String × ℚ) × (String × ℚ)) :=
  (indexPairs exact.length).filterMap fun p =>
    match exact[p.1]?, exact[p.2]?, engines[p.1]?, engines[p.2]? with
    | some a, some b, some e, some e' => if disagree a.1 b.1 then some ((e.name, a.1), (e'.name, b.1)) else none
    | _, _, _, _ => none

/-- `min(exact_durations, key=...)[1]` (/repo/pywmi/__main__.py:272-276). -/
def fastest : List (ℚ × ℚ) → Option ℚ
  | [] => none
  | p :: ps => some (ps.foldl (fun m q => if q.2 < m then q.2 else m) p.2)

/-- `compare` (/repo/pywmi/__main__.py:188-283). -/
def compareEngines (engines : List EngineRun) : Except PyErr CompareOut :=
  match compareRuns engines with
  | .error e => .error e
  | .ok rs =>
    let ex := exactAnswers rs
    let warnings := compareWarnings engines ex
    let ev := if warnings ≠ [] then none else ex.head?.map (·.1)
    let fd := fastest ex
    .ok ⟨warnings, rs.map fun p => ⟨p.1.name, p.1.seconds, compareRelative fd p.1.seconds, p.2, compareError ev p.2⟩⟩

/-- The query that the task `compare` uses (/repo/pywmi/__main__.py:387-389): none means the volume.  A negative index
counts from the end. -/
def compareQuery {Q : Type} (queries : List Q) (index : Option ℤ) : Except PyErr (Option Q) :=
  match index with
  | none => .ok none
  | some i =>
    if i < queries.length then
      match (if 0 ≤ i then queries[i.toNat]? else if -i ≤ queries.length then queries[(queries.length + i).toNat]? else none) with
      | some q => .ok (some q)
      | none => .error .indexError
    else .ok none

/-- The task `prob` (/repo/pywmi/__main__.py:377-384): every engine answers with a list. -/
def probTask {V : Type} (answers : List (Except PyErr (List (Option V)))) : Except PyErr (Option (List (Option V))) × ℕ :=
  getVolume (answers.map fun a => a.map some)

/-- The task `normalize` (/repo/pywmi/__main__.py:392-395): `not args.total` is the second positional argument, which is
`conjoin_old_support`; the output path is not used. -/
def normalizeTask (run : XaddNormalizer) (parse : List Char → Except PyErr Formula) (jar : Bool) (e : EngineObj)
    (newSupport : Formula) (total : Bool) (_outputPath : String) : Except PyErr (Option Formula) :=
  xaddNormalize run parse ⟨some "original", none, jar⟩ e newSupport (!total) true

end Pywmi
