import Verif.Parse.Smtlib
import Verif.Parse.Minizinc
import Verif.Cli.Options
import Verif.Domain.Domain

/-!
# Importing problems in other formats

Model of /repo/pywmi/convert.py.  Files are given by what their readers return; the order in which Python goes through a
set is a parameter.
-/

namespace Pywmi
open Formula Prog

/-- A density with the formulas of the readers (`Density`, /repo/pywmi/domain.py:180-185). -/
structure PDensity where
  domain : Domain
  support : Pt
  weight : Pt
  queries : List Pt

/-- The dialects (/repo/pywmi/convert.py:106-115). -/
inductive Dialect where
  | wrap | xaddMspn | wmiMspn | smtSynthetic | generateTree | generate100 | smt | mzn
deriving DecidableEq, Repr

/-- The lookup of `Import.import_density` (/repo/pywmi/convert.py:106-124). -/
def dialectOf (dialect : Option String) : Except PyErr Dialect :=
  match dialect with
  | none => .ok .wrap
  | some d =>
    match [("xadd_mspn", Dialect.xaddMspn), ("wmi_mspn", .wmiMspn), ("smt_synthetic", .smtSynthetic),
      ("wmi_generate_tree", .generateTree), ("wmi_generate_100", .generate100), ("smt", .smt), ("mzn", .mzn)].lookup d with
    | some k => .ok k
    | none => .error .valueError

/-- `import_smt` (/repo/pywmi/convert.py:83-87); the script is the file, `setA` and `setX` the orders of the two sets. -/
def importSmt (simp : Pt → Pt) (setA : List String → List String) (setX : List (String × PTy) → List (String × PTy)) (cs : List SCmd) :
    Except PyErr PDensity :=
  match parseSmtlib simp [] [] cs with
  | .error e => .error e
  | .ok R =>
    match Domain.make (setA R.bools) (.dict (dictOf ((setX R.reals).map fun p => (p.1, (none, none))))) none none with
    | .error e => .error e
    | .ok D => .ok ⟨D, R.support, R.weight, R.queries⟩

/-- The bounds that the reader keeps for a variable (parser/minizinc/visitor.py:152-169). -/
def MReal.pair (r : MReal) : Bounds := match r.bounds with | none => (none, none) | some (l, u) => (some l, some u)

/-- `import_mzn` (/repo/pywmi/convert.py:90-94). -/
def importMzn (simp : Pt → Pt) (setA : List String → List String) (is : List MItem) : Except PyErr PDensity :=
  match parseMzn simp [] [] none is with
  | .error e => .error e
  | .ok R =>
    match Domain.make (setA R.bools) (.dict (dictOf (R.reals.map fun r => (r.name, r.pair)))) none none with
    | .error e => .error e
    | .ok D => .ok ⟨D, R.support, R.weight, R.queries⟩

/-- The names and types of the free variables of the three formulas, in some order (/repo/pywmi/convert.py:65, 77). -/
def freeVars (order : List (String × Ty) → List (String × Ty)) (q s w : Formula) : List (String × Ty) :=
  order (syms q ++ syms s ++ syms w).dedup

/-- `import_wmi_generate_tree` (/repo/pywmi/convert.py:60-68); `q`, `s` and `w` are what `read_smtlib` returns. -/
def importGenerateTree (order : List (String × Ty) → List (String × Ty)) (q s w : Formula) : Except PyErr Density :=
  let vs := freeVars order q s w
  match Domain.make ((vs.filter fun v => v.2 = .bool).map (·.1))
      (.dict (dictOf ((vs.filter fun v => v.2 = .real).map fun v => (v.1, (some 0, some 1))))) none none with
  | .error e => .error e
  | .ok D => .ok ⟨D, s, w, [q]⟩

/-- `import_wmi_generate_100` (/repo/pywmi/convert.py:71-80): the real variables are not given to `make`. -/
def importGenerate100 (order : List (String × Ty) → List (String × Ty)) (q s w : Formula) : Except PyErr Density :=
  let vs := freeVars order q s w
  match Domain.make ((vs.filter fun v => v.2 = .bool).map (·.1)) .missing none (some (some (-100), some 100)) with
  | .error e => .error e
  | .ok D => .ok ⟨D, s, w, [q]⟩

/-- `os.path.basename` (/repo/pywmi/convert.py:12). -/
def baseName (path : List Char) : List Char := (path.splitOn '/').getLastD []

/-- The numbers of variables in a file name (/repo/pywmi/convert.py:12-15, 36-39); `readInt` is `int`. -/
def mspnCounts (readInt : List Char → Option ℤ) (path : List Char) : Except PyErr (ℤ × ℤ) :=
  let parts := (baseName path).splitOn '_'
  match parts[1]? with
  | none => .error .indexError
  | some r =>
    match readInt r with
    | none => .error .valueError
    | some r =>
      match parts[2]? with
      | none => .error .indexError
      | some b =>
        match readInt b with
        | none => .error .valueError
        | some b => .ok (r, b)

/-- The domain of the mspn files (/repo/pywmi/convert.py:17-18, 41-42). -/
def mspnDomain (r b : ℤ) : Except PyErr Domain :=
  Domain.make ((List.range b.toNat).map fun i => s!"A_{i}")
    (.dict (dictOf ((List.range r.toNat).map fun i => (s!"x_{i}", (some 0, some 1))))) none none

/-- `import_xadd_mspn` (/repo/pywmi/convert.py:10-25); `weight` is what `nested_to_smt` makes of the first line, an
`IndexError` for the empty file. -/
def importXaddMspn (readInt : List Char → Option ℤ) (path : List Char) (weight : Except PyErr Formula) : Except PyErr Density :=
  match mspnCounts readInt path with
  | .error e => .error e
  | .ok (r, b) =>
    match mspnDomain r b with
    | .error e => .error e
    | .ok D =>
      match weight with
      | .error e => .error e
      | .ok w => .ok ⟨D, .boolC true, w, [.boolC true]⟩

/-- `import_wmi_mspn` (/repo/pywmi/convert.py:28-44); the query and the weight are optional files. -/
def importWmiMspn (readInt : List Char → Option ℤ) (path : List Char) (q : Option Formula) (s : Formula) (w : Option Formula) :
    Except PyErr Density :=
  match mspnCounts readInt path with
  | .error e => .error e
  | .ok (r, b) =>
    match mspnDomain r b with
    | .error e => .error e
    | .ok D => .ok ⟨D, s, w.getD (.realC 1), [q.getD (.boolC true)]⟩

/-- `import_smt_synthetic` (/repo/pywmi/convert.py:47-57); the domain is the stored state, `theory` the parsed formula. -/
def importSynthetic (state : Domain.State) (theory : Except PyErr Formula) : Except PyErr Density :=
  match Domain.fromState state with
  | .error e => .error e
  | .ok D =>
    match theory with
    | .error e => .error e
    | .ok f =>
      match D.getBounds with
      | .error e => .error e
      | .ok b => .ok ⟨D, .and [f, b], .realC 1, [.boolC true]⟩

end Pywmi
