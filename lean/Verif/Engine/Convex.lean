import Verif.Math.Latte
import Verif.Engine.Wrappers
import Mathlib.Data.Nat.Digits.Defs
import Mathlib.Data.Real.Basic

/-!
# The convex integration back-ends

Model of /repo/pywmi/engines/convex_integrator.py and /repo/pywmi/engines/latte_backend.py.  LattE itself and the SMT
solver are parameters.  Texts are lists of characters.
-/

namespace Pywmi
open Formula Prog

/-! ## An engine as back-end -/

/-- `EngineConvexIntegrationBackend.integrate` (/repo/pywmi/engines/convex_integrator.py:22-24).  `vol` is `compute_volume`
of a copy of the engine with another problem; its `add_bounds` has the default value `True`. -/
def engineIntegrate {K : Type} (vol : EngineObj → Bool → Except PyErr K) (D : Domain) (bounds : List Dict) (p : Dict) :
    Except PyErr K :=
  match mapE linToSmt bounds with
  | .error e => .error e
  | .ok fs =>
    match polyToSmt p with
    | .error e => .error e
    | .ok w => vol ⟨D, mkAnd fs, some w⟩ true

/-! ## LattE -/

namespace Latte

/-- `str` of a Python integer that is not negative. -/
def natText (n : ℕ) : List Char :=
  if n = 0 then ['0'] else ((Nat.digits 10 n).map fun d => Char.ofNat ('0'.toNat + d)).reverse

/-- `str` of a Python integer. -/
def intText (z : ℤ) : List Char := if z < 0 then '-' :: natText z.natAbs else natText z.natAbs

/-- `str` of a Python `Fraction`. -/
def fracText (q : ℚ) : List Char := if q.den = 1 then intText q.num else intText q.num ++ '/' :: natText q.den

/-- One row, `" ".join(map(str, e))` (/repo/pywmi/engines/latte_backend.py:67).  The entries are integers. -/
def rowText (row : List ℚ) : List Char := [' '].intercalate (row.map fun a => intText a.num)

/-- The file with the inequalities (/repo/pywmi/engines/latte_backend.py:65-67). -/
def hrepText (n : ℕ) (rows : List (List ℚ)) : List Char :=
  natText rows.length ++ ' ' :: natText (n + 1) ++ '\n' :: ['\n'].intercalate (rows.map rowText) ++ ['\n']

/-- One monomial, `"[{},[{}]]"` (/repo/pywmi/engines/latte_backend.py:70). -/
def monoText (m : ℚ × List ℕ) : List Char :=
  '[' :: fracText m.1 ++ ',' :: '[' :: [','].intercalate (m.2.map natText) ++ [']', ']']

/-- The file with the polynomial (/repo/pywmi/engines/latte_backend.py:69-71). -/
def polyText (ms : List (ℚ × List ℕ)) : List Char := '[' :: [','].intercalate (ms.map monoText) ++ [']', '\n']

/-! ### The answer -/

/-- `\s`, for the ASCII characters (Python also accepts other Unicode white space and the separators 28 to 31). -/
def isSpace (c : Char) : Bool := c == ' ' || c == '\t' || c == '\n' || c == '\r' || c == '\x0b' || c == '\x0c'

/-- `\s*`, greedy. -/
def spaces0 : Rx
  | [] => [([], [])]
  | c :: s => if isSpace c then (spaces0 s).map (fun m => (c :: m.1, m.2)) ++ [([], c :: s)] else [([], c :: s)]

/-- `\s+`, greedy. -/
def spaces1 : Rx
  | [] => []
  | c :: s => if isSpace c then (spaces0 s).map (fun m => (c :: m.1, m.2)) else []

/-- A literal text. -/
def lit : List Char → Rx
  | [], s => [([], s)]
  | c :: t, s => Rx.seq (Rx.chr c) (lit t) s

/-- A match of `Answer:\s+(-?\d+)/(\d+).*` at the start of the text: the two groups
(/repo/pywmi/engines/latte_backend.py:36). -/
def answerAt (s : List Char) : Option (List Char × List Char) :=
  ((lit "Answer:".toList s).flatMap fun m0 => (spaces1 m0.2).flatMap fun m1 =>
    (Rx.seq (Rx.opt (Rx.chr '-')) Rx.digits1 m1.2).flatMap fun m2 => (Rx.chr '/' m2.2).flatMap fun m3 =>
      (Rx.digits1 m3.2).map fun m4 => (m2.1, m4.1)).head?

/-- A match of the whole pattern at the start of the text: `.*` is greedy and does not cross the end of a line. -/
def lineAnswer : List Char → Option (List Char × List Char)
  | [] => answerAt []
  | c :: s => if c = '\n' then answerAt (c :: s) else (lineAnswer s).or (answerAt (c :: s))

/-- `re.search(pattern, output)` (/repo/pywmi/engines/latte_backend.py:85): the leftmost match. -/
def search : List Char → Option (List Char × List Char)
  | [] => lineAnswer []
  | c :: s => (lineAnswer (c :: s)).or (search s)

/-- `int(text)` for a text of the form `-?\d+`. -/
def readInt (t : List Char) : ℤ :=
  let (neg, ds) := stripMinus t
  if neg then -(decNat ds : ℤ) else decNat ds

/-- `float(Fraction(int(a), int(b)))` (/repo/pywmi/engines/latte_backend.py:88), idealised to the exact value. -/
def fraction (a b : List Char) : Except PyErr ℚ :=
  if readInt b = 0 then .error .zeroDivision else .ok (readInt a / readInt b)

/-- The value read from the output (/repo/pywmi/engines/latte_backend.py:85-88). -/
def readAnswer (out : List Char) : Except PyErr ℚ :=
  match search out with
  | none => .ok 0
  | some (a, b) => fraction a b

/-- The loop over the bounds (/repo/pywmi/engines/latte_backend.py:52-57): the formula and the rows. -/
def prepare (vars : List String) : Formula → List (List ℚ) → List Dict → Except PyErr (Formula × List (List ℚ))
  | f, rows, [] => .ok (f, rows)
  | f, rows, d :: ds =>
    match linScaleToInteger d with
    | .error e => .error e
    | .ok i =>
      match linToSmt i with
      | .error e => .error e
      | .ok g => prepare vars (.and [f, g]) (rows ++ [linB i :: vars.map fun v => -linCoef i [v]]) ds

/-- `LatteIntegrator.integrate` (/repo/pywmi/engines/latte_backend.py:50-88).  `run` is the program `integrate`, given the
text of the polynomial and of the inequalities: its output, or `none` for `CalledProcessError`; `sat` tells whether the
solver finds a model.  `CalledProcessError` raised again is `other`.  The list of real variables is looked up first; Python
looks it up in each use. -/
def integrate (run : List Char → List Char → Option (List Char)) (sat : Formula → Bool) (D : Domain) (bounds : List Dict)
    (p : Dict) : Except PyErr ℚ :=
  match D.realVars with
  | .error e => .error e
  | .ok vars =>
    match prepare vars (.boolC true) [] bounds with
    | .error e => .error e
    | .ok (f, rows) =>
      match run (polyText (latteMonomials vars p)) (hrepText vars.length rows) with
      | none => if sat f then .error .other else .ok 0
      | some out => readAnswer out

end Latte
end Pywmi
