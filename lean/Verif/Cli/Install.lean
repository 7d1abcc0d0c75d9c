import Verif.Smt.Formula

/-!
# The installation utility (/repo/pywmi/install.py)

The file system is reduced to the one file the utility changes, `engines/xadd.jar`; the server is a parameter.  A run is
modelled by the list of the states of that file, so that an interruption at any moment leaves one of these states.
-/

namespace Pywmi

/-- A file is absent or has a content (bytes as numbers). -/
abbrev JarFile := Option (List ℕ)

/-- The server of the JAR: whether `urlopen` reaches it, the blocks that arrive, and whether the connection then breaks
(`/repo/pywmi/install.py:83`). -/
structure JarServer where
  reachable : Bool
  blocks : List (List ℕ)
  breaks : Bool
deriving DecidableEq, Repr

/-- What a run leaves: how it ended, what it printed, and the states of the file in order of time. -/
structure InstallRun where
  result : Except PyErr Unit
  printed : List String
  states : List JarFile

/-- The states of the file during `shutil.copyfileobj(response, out_file)` (/repo/pywmi/install.py:84), after the blocks
so far.  Simplification: every block written is on disk at once. -/
def copyStates (sofar : List ℕ) : List (List ℕ) → List JarFile
  | [] => []
  | b :: bs => some (sofar ++ b) :: copyStates (sofar ++ b) bs

/-- `with urlopen(url) as response, open(file_name, "wb") as out_file: copyfileobj(...)`
(/repo/pywmi/install.py:83-84): `urlopen` comes first, then `open` empties the file. -/
def downloadJar (net : JarServer) : Except PyErr Unit × List JarFile :=
  if net.reachable then
    (if net.breaks then .error .osError else .ok (), some [] :: copyStates [] net.blocks)
  else (.error .osError, [])

/-- Last state, starting from `j`. -/
def lastState (j : JarFile) (l : List JarFile) : JarFile := l.getLast?.getD j

/-- `check_installation_xadd_jar` (/repo/pywmi/install.py:52-54). -/
def checkJar (j : JarFile) : Bool := j.isSome

/-- `install_xadd(upgrade, remove)` (/repo/pywmi/install.py:69-84). -/
def installXadd (upgrade remove : Bool) (net : JarServer) (j : JarFile) : InstallRun :=
  let (out1, st1, j1) : List String × List JarFile × JarFile :=
    if remove then
      if j.isSome then (["Removed XADD solver"], [none], none) else (["XADD solver is not installed"], [], j)
    else ([], [], j)
  if (!upgrade && j1.isSome) then ⟨.ok (), out1 ++ ["XADD solver already installed"], j :: st1⟩
  else
    let d := downloadJar net
    ⟨d.1, out1 ++ ["Downloading JAR file"], j :: st1 ++ d.2⟩

/-- The file after a run. -/
def InstallRun.after (r : InstallRun) : JarFile := lastState none r.states

/-- Components of the listing (/repo/pywmi/install.py:114-120). -/
inductive Component where
  | psi | latte | smtSolver | gurobi | xaddJar
deriving DecidableEq, Repr

/-- The dictionary `components`, in order of insertion (/repo/pywmi/install.py:114-120). -/
def componentOrder : List Component := [.psi, .latte, .smtSolver, .gurobi, .xaddJar]

/-- Names in the listing (/repo/pywmi/install.py:114-120). -/
def Component.name : Component → String
  | .psi => "PSI" | .latte => "Latte" | .smtSolver => "SMT Solver" | .gurobi => "Gurobi" | .xaddJar => "XADD JAR"

/-- The list `solvers` (/repo/pywmi/install.py:107-112). -/
def listedSolvers : List (String × List Component) :=
  [("pa", [.latte, .smtSolver]), ("pyxadd", [.smtSolver]), ("XADD", [.gurobi, .smtSolver, .xaddJar]), ("XSDD", [.psi])]

/-- `"v" if … else "x"` (/repo/pywmi/install.py:128, 132, 142). -/
def tick (b : Bool) : String := if b then "v" else "x"

/-- One row of the table (/repo/pywmi/install.py:125-136). -/
def listRow (found : Component → Bool) (s : String × List Component) : List String :=
  (s.1 ++ " (" ++ tick (s.2.all found) ++ ")") ::
    componentOrder.map fun c => if c ∈ s.2 then tick (found c) else "-"

/-- The headers of the table (/repo/pywmi/install.py:139-143). -/
def listHeaders (found : Component → Bool) : List String :=
  "Solver \\ Component" :: componentOrder.map fun c => c.name ++ " (" ++ tick (found c) ++ ")"

/-- `check_installation_pyxadd` (/repo/pywmi/install.py:57-58). -/
def checkPyxadd (found : Component → Bool) : Bool := found .psi && found .smtSolver
/-- `check_installation_pa` (/repo/pywmi/install.py:61-62). -/
def checkPa (found : Component → Bool) : Bool := found .latte && found .smtSolver
/-- `check_installation_xadd` (/repo/pywmi/install.py:65-66); the constructor of `XaddEngine` checks the same two
(/repo/pywmi/engines/xadd.py:25-32). -/
def checkXadd (found : Component → Bool) : Bool := found .xaddJar && found .gurobi

/-- The arguments of the command (/repo/pywmi/install.py:88-104). -/
structure InstallArgs where
  solver : Option String
  force : Bool
  remove : Bool
  list : Bool
deriving DecidableEq, Repr

/-- What the command does (/repo/pywmi/install.py:105-149): a table, a run of the installer, or a message. -/
inductive InstallAct where
  | table (headers : List String) (rows : List (List String))
  | ran (r : InstallRun)
  | unknown (msg : String)

/-- `main()` (/repo/pywmi/install.py:104-149). -/
def installMain (found : Component → Bool) (net : JarServer) (j : JarFile) (a : InstallArgs) : InstallAct :=
  if a.solver = none ∧ a.list = true then
    .table (listHeaders found) (listedSolvers.map (listRow found))
  else if a.solver = some "xadd" then .ran (installXadd a.force a.remove net j)
  else .unknown ("Unknown solver " ++ a.solver.getD "None")

/-- The states of the file during the command. -/
def InstallAct.states (j : JarFile) : InstallAct → List JarFile
  | .ran r => r.states
  | _ => [j]

end Pywmi
