import Verif.Domain.Domain

/-!
# Saving and loading as JSON text

Model of /repo/pywmi/export.py with the parts of Python's `json` that it uses: `json.dumps` and `json.dump` with their
defaults (ASCII only, separators ", " and ": ") and `json.loads`/`json.load`.  Both work on characters.  A number is
turned into a text and back by `int` and `float`, which are parameters (`NumLib`); the syntax of number texts is
modelled.  Strings are sequences of Unicode scalar values: lone surrogates, which Python allows, are not modelled, and
the reader refuses them.
-/

namespace Pywmi

/-- The floats without a numeral. -/
inductive JSpecial where
  | nan | inf | negInf
deriving DecidableEq, Repr

/-- Values that `json` reads and writes: None, bool, int and float, str, list, dict with strings as keys. -/
inductive Json where
  | null
  | bool (b : Bool)
  | num (q : ℚ)
  | special (s : JSpecial)
  | str (s : String)
  | arr (vs : List Json)
  | obj (ps : List (String × Json))

/-- A numeral: sign, whole part, digits after the point (none: no point), exponent with optional sign. -/
structure Numeral where
  neg : Bool
  int : ℕ
  frac : List (Fin 10)
  exp : Option (Option Bool × Fin 10 × List (Fin 10))
deriving DecidableEq, Repr

/-- `int.__repr__`, `float.__repr__` (json/encoder.py) and `int`, `float` on numerals (json/scanner.py). -/
structure NumLib where
  text : ℚ → Numeral
  read : Numeral → ℚ

namespace Json

/-! ## Writing -/

/-- The character of a digit. -/
def digitChar (d : Fin 10) : Char := Char.ofNat (48 + d.val)

/-- The decimal digits of a natural number. -/
def natDigits (n : ℕ) : List (Fin 10) :=
  if n < 10 then [Fin.ofNat 10 n] else natDigits (n / 10) ++ [Fin.ofNat 10 n]
termination_by n

/-- The characters of a numeral; Python writes exponents with a small e. -/
def numChars (t : Numeral) : List Char :=
  (if t.neg then ['-'] else []) ++ ((natDigits t.int).map digitChar ++
    ((if t.frac.isEmpty then [] else '.' :: t.frac.map digitChar) ++
      match t.exp with
      | none => []
      | some (s, d, ds) =>
        'e' :: ((match s with | none => [] | some true => ['-'] | some false => ['+']) ++ (d :: ds).map digitChar)))

/-- A hexadecimal digit as `'{0:04x}'` writes it. -/
def hexChar (n : ℕ) : Char := if n < 10 then Char.ofNat (48 + n) else Char.ofNat (87 + n)

/-- `'\\u{0:04x}'.format(n)` (json/encoder.py, `py_encode_basestring_ascii`). -/
def u4 (n : ℕ) : List Char :=
  ['\\', 'u', hexChar (n / 4096), hexChar (n / 256 % 16), hexChar (n / 16 % 16), hexChar (n % 16)]

/-- One character of a string (json/encoder.py, `ESCAPE_DCT` and `py_encode_basestring_ascii`). -/
def escChar (c : Char) : List Char :=
  if c = '"' then ['\\', '"']
  else if c = '\\' then ['\\', '\\']
  else if c = '\n' then ['\\', 'n']
  else if c = '\r' then ['\\', 'r']
  else if c = '\t' then ['\\', 't']
  else if c.toNat = 12 then ['\\', 'f']
  else if c.toNat = 8 then ['\\', 'b']
  else if 32 ≤ c.toNat ∧ c.toNat ≤ 126 then [c]
  else if c.toNat < 65536 then u4 c.toNat
  else u4 (55296 + (c.toNat - 65536) / 1024) ++ u4 (56320 + (c.toNat - 65536) % 1024)

/-- A string with its quotes. -/
def encStr (s : String) : List Char := '"' :: (s.toList.flatMap escChar ++ ['"'])

/-- The floats without a numeral (json/encoder.py, `floatstr`). -/
def specialChars : JSpecial → List Char
  | .nan => ['N', 'a', 'N']
  | .inf => ['I', 'n', 'f', 'i', 'n', 'i', 't', 'y']
  | .negInf => ['-', 'I', 'n', 'f', 'i', 'n', 'i', 't', 'y']

mutual
/-- `json.dumps(value)` (/repo/pywmi/export.py:21-25). -/
def enc (L : NumLib) : Json → List Char
  | .null => ['n', 'u', 'l', 'l']
  | .bool true => ['t', 'r', 'u', 'e']
  | .bool false => ['f', 'a', 'l', 's', 'e']
  | .num q => numChars (L.text q)
  | .special s => specialChars s
  | .str s => encStr s
  | .arr [] => ['[', ']']
  | .arr (v :: vs) => '[' :: (enc L v ++ (encMore L vs ++ [']']))
  | .obj [] => ['{', '}']
  | .obj ((k, v) :: ps) => '{' :: (encStr k ++ (':' :: ' ' :: (enc L v ++ (encPairs L ps ++ ['}']))))
/-- The further items of a list. -/
def encMore (L : NumLib) : List Json → List Char
  | [] => []
  | v :: vs => ',' :: ' ' :: (enc L v ++ encMore L vs)
/-- The further entries of a dictionary. -/
def encPairs (L : NumLib) : List (String × Json) → List Char
  | [] => []
  | (k, v) :: ps => ',' :: ' ' :: (encStr k ++ (':' :: ' ' :: (enc L v ++ encPairs L ps)))
end

/-! ## Reading -/

/-- `WHITESPACE_STR` of json/decoder.py. -/
def isSpace (c : Char) : Bool := c = ' ' || c = '\t' || c = '\n' || c = '\r'

/-- Skip white space. -/
def skip (cs : List Char) : List Char := cs.dropWhile isSpace

/-- The value of a decimal digit. -/
def charDigit (c : Char) : Option (Fin 10) :=
  if 48 ≤ c.toNat ∧ c.toNat ≤ 57 then some (Fin.ofNat 10 (c.toNat - 48)) else none

/-- The longest run of digits. -/
def readDigits : List Char → List (Fin 10) × List Char
  | [] => ([], [])
  | c :: cs =>
    match charDigit c with
    | none => ([], c :: cs)
    | some d => (d :: (readDigits cs).1, (readDigits cs).2)

/-- The number of a run of digits. -/
def digitsNat (ds : List (Fin 10)) : ℕ := ds.foldl (fun a d => 10 * a + d.val) 0

/-- `0|[1-9][0-9]*` in `NUMBER_RE` of json/scanner.py. -/
def readWhole (cs : List Char) : Option (ℕ × List Char) :=
  match readDigits cs with
  | ([], _) => none
  | (d :: ds, r) => if d = 0 then some (0, cs.tail) else some (digitsNat (d :: ds), r)

/-- `(\.[0-9]+)?`. -/
def readFrac (cs : List Char) : List (Fin 10) × List Char :=
  match cs with
  | [] => ([], [])
  | c :: r =>
    if c = '.' then
      match readDigits r with
      | ([], _) => ([], c :: r)
      | (d :: ds, r') => (d :: ds, r')
    else ([], c :: r)

/-- `[-+]?`. -/
def readSign : List Char → Option Bool × List Char
  | [] => (none, [])
  | c :: r => if c = '-' then (some true, r) else if c = '+' then (some false, r) else (none, c :: r)

/-- `([eE][-+]?[0-9]+)?`. -/
def readExp (cs : List Char) : Option (Option Bool × Fin 10 × List (Fin 10)) × List Char :=
  match cs with
  | [] => (none, [])
  | c :: r =>
    if c = 'e' ∨ c = 'E' then
      match readDigits (readSign r).2 with
      | ([], _) => (none, c :: r)
      | (d :: ds, r') => (some ((readSign r).1, d, ds), r')
    else (none, c :: r)

/-- `match_number` (json/scanner.py). -/
def readNumber (cs : List Char) : Option (Numeral × List Char) :=
  let neg := cs.head? = some '-'
  match readWhole (if neg then cs.tail else cs) with
  | none => none
  | some (n, r) => some (⟨neg, n, (readFrac r).1, (readExp (readFrac r).2).1⟩, (readExp (readFrac r).2).2)

/-- The rest after a fixed text. -/
def strip : List Char → List Char → Option (List Char)
  | [], cs => some cs
  | _ :: _, [] => none
  | p :: ps, c :: cs => if p = c then strip ps cs else none

/-- The value of a hexadecimal digit. -/
def hexVal (c : Char) : Option ℕ :=
  if 48 ≤ c.toNat ∧ c.toNat ≤ 57 then some (c.toNat - 48)
  else if 97 ≤ c.toNat ∧ c.toNat ≤ 102 then some (c.toNat - 87)
  else if 65 ≤ c.toNat ∧ c.toNat ≤ 70 then some (c.toNat - 55)
  else none

/-- Four hexadecimal digits (`_decode_uXXXX` of json/decoder.py). -/
def hex4 : List Char → Option (ℕ × List Char)
  | a :: b :: c :: d :: r =>
    match hexVal a, hexVal b, hexVal c, hexVal d with
    | some a, some b, some c, some d => some (4096 * a + 256 * b + 16 * c + d, r)
    | _, _, _, _ => none
  | _ => none

/-- One step of the string scanner: the end of the string, a character, or an error. -/
inductive Step where
  | stop (r : List Char)
  | char (c : Char) (r : List Char)
  | fail

/-- The character of a code that is no surrogate. -/
def plainChar (n : ℕ) (r : List Char) : Step := if 56320 ≤ n ∧ n ≤ 57343 then .fail else .char (Char.ofNat n) r

/-- After a high surrogate (json/decoder.py, `py_scanstring`): a low one must follow. -/
def lowChar (n : ℕ) (r : List Char) : Step :=
  match strip ['\\', 'u'] r with
  | none => .fail
  | some r =>
    match hex4 r with
    | none => .fail
    | some (m, r) =>
      if 56320 ≤ m ∧ m ≤ 57343 then .char (Char.ofNat (65536 + ((n - 55296) * 1024 + (m - 56320)))) r else .fail

/-- After a backslash (json/decoder.py, `BACKSLASH`). -/
def escStep : List Char → Step
  | [] => .fail
  | c :: r =>
    if c = 'u' then
      match hex4 r with
      | none => .fail
      | some (n, r) => if 55296 ≤ n ∧ n ≤ 56319 then lowChar n r else plainChar n r
    else if c = '"' then .char '"' r
    else if c = '\\' then .char '\\' r
    else if c = '/' then .char '/' r
    else if c = 'b' then .char (Char.ofNat 8) r
    else if c = 'f' then .char (Char.ofNat 12) r
    else if c = 'n' then .char '\n' r
    else if c = 'r' then .char '\r' r
    else if c = 't' then .char '\t' r
    else .fail

/-- One step inside a string; control characters are refused (`strict`). -/
def strStep : List Char → Step
  | [] => .fail
  | c :: r =>
    if c = '"' then .stop r
    else if c = '\\' then escStep r
    else if c.toNat < 32 then .fail
    else .char c r

/-- `scanstring` after the opening quote (json/decoder.py). -/
def readStrF : ℕ → List Char → Except PyErr (List Char × List Char)
  | 0, _ => .error .fuel
  | n + 1, cs =>
    match strStep cs with
    | .fail => .error .valueError
    | .stop r => .ok ([], r)
    | .char c r =>
      match readStrF n r with
      | .error e => .error e
      | .ok (s, r) => .ok (c :: s, r)

/-- `scanstring`; every step uses up a character. -/
def readStr (cs : List Char) : Except PyErr (String × List Char) :=
  match readStrF (cs.length + 1) cs with
  | .error e => .error e
  | .ok (s, r) => .ok (String.ofList s, r)

/-- Constants and numbers (`_scan_once` of json/scanner.py). -/
def readAtom (L : NumLib) (cs : List Char) : Except PyErr (Json × List Char) :=
  match strip ['n', 'u', 'l', 'l'] cs with
  | some r => .ok (.null, r)
  | none =>
  match strip ['t', 'r', 'u', 'e'] cs with
  | some r => .ok (.bool true, r)
  | none =>
  match strip ['f', 'a', 'l', 's', 'e'] cs with
  | some r => .ok (.bool false, r)
  | none =>
  match readNumber cs with
  | some (t, r) => .ok (.num (L.read t), r)
  | none =>
  match strip (specialChars .nan) cs with
  | some r => .ok (.special .nan, r)
  | none =>
  match strip (specialChars .inf) cs with
  | some r => .ok (.special .inf, r)
  | none =>
  match strip (specialChars .negInf) cs with
  | some r => .ok (.special .negInf, r)
  | none => .error .valueError

mutual
/-- `scan_once` (json/scanner.py). -/
def readVal (L : NumLib) : ℕ → List Char → Except PyErr (Json × List Char)
  | 0, _ => .error .fuel
  | _ + 1, [] => .error .valueError
  | n + 1, c :: cs =>
    if c = '"' then
      match readStr cs with
      | .error e => .error e
      | .ok (s, r) => .ok (.str s, r)
    else if c = '{' then
      match strip ['}'] (skip cs) with
      | some r => .ok (.obj [], r)
      | none =>
        match readPairs L n (skip cs) with
        | .error e => .error e
        | .ok (ps, r) => .ok (.obj (dictOf ps), r)
    else if c = '[' then
      match strip [']'] (skip cs) with
      | some r => .ok (.arr [], r)
      | none =>
        match readItems L n (skip cs) with
        | .error e => .error e
        | .ok (vs, r) => .ok (.arr vs, r)
    else readAtom L (c :: cs)
/-- The items of a list (`JSONArray` of json/decoder.py). -/
def readItems (L : NumLib) : ℕ → List Char → Except PyErr (List Json × List Char)
  | 0, _ => .error .fuel
  | n + 1, cs =>
    match readVal L n cs with
    | .error e => .error e
    | .ok (v, r) =>
      match skip r with
      | [] => .error .valueError
      | c :: r =>
        if c = ']' then .ok ([v], r)
        else if c = ',' then
          match readItems L n (skip r) with
          | .error e => .error e
          | .ok (vs, r) => .ok (v :: vs, r)
        else .error .valueError
/-- The entries of a dictionary (`JSONObject` of json/decoder.py). -/
def readPairs (L : NumLib) : ℕ → List Char → Except PyErr (List (String × Json) × List Char)
  | 0, _ => .error .fuel
  | n + 1, cs =>
    match strip ['"'] cs with
    | none => .error .valueError
    | some r =>
      match readStr r with
      | .error e => .error e
      | .ok (k, r) =>
        match strip [':'] (skip r) with
        | none => .error .valueError
        | some r =>
          match readVal L n (skip r) with
          | .error e => .error e
          | .ok (v, r) =>
            match skip r with
            | [] => .error .valueError
            | c :: r =>
              if c = '}' then .ok ([(k, v)], r)
              else if c = ',' then
                match readPairs L n (skip r) with
                | .error e => .error e
                | .ok (ps, r) => .ok ((k, v) :: ps, r)
              else .error .valueError
end

/-- `json.loads(text)` (/repo/pywmi/export.py:32-38): white space around the value is allowed, anything else is not. -/
def loads (L : NumLib) (cs : List Char) : Except PyErr Json :=
  match readVal L (2 * cs.length + 1) (skip cs) with
  | .error e => .error e
  | .ok (v, r) => if (skip r).isEmpty then .ok v else .error .valueError

/-! ## Values of states -/

/-- `state[key]`. -/
def get (v : Json) (k : String) : Except PyErr Json :=
  match v with
  | .obj ps => dictGet ps k
  | _ => .error .typeError

/-- A list of strings.  Simplified: `str(v)` of other values (/repo/pywmi/domain.py:159) is taken as an error. -/
def strings : List Json → Except PyErr (List String)
  | [] => .ok []
  | .str s :: vs => match strings vs with | .ok ss => .ok (s :: ss) | .error e => .error e
  | _ :: _ => .error .typeError

/-- A dictionary of strings, with the same simplification. -/
def stringDict : List (String × Json) → Except PyErr (List (String × String))
  | [] => .ok []
  | (k, .str s) :: ps => match stringDict ps with | .ok ss => .ok ((k, s) :: ss) | .error e => .error e
  | _ :: _ => .error .typeError

/-- A bound: a number or None. -/
def bound : Json → Except PyErr (Option ℚ)
  | .null => .ok none
  | .num q => .ok (some q)
  | _ => .error .typeError

/-- A dictionary of pairs of bounds.  Simplified: Python keeps other values and fails when they are used. -/
def boundDict : List (String × Json) → Except PyErr (List (String × Bounds))
  | [] => .ok []
  | (k, .arr [l, u]) :: ps =>
    match bound l, bound u with
    | .ok l, .ok u => match boundDict ps with | .ok ds => .ok ((k, (l, u)) :: ds) | .error e => .error e
    | _, _ => .error .typeError
  | _ :: _ => .error .typeError

/-- A bound as a value. -/
def ofBound : Option ℚ → Json
  | none => .null
  | some q => .num q

end Json

open Json

/-- The dictionary of `Domain.get_state` (/repo/pywmi/domain.py:143-147); tuples are written as lists. -/
def Domain.State.toJson (S : Domain.State) : Json :=
  .obj [("variables", .arr (S.vars.map .str)),
    ("var_types", .obj (S.varTypes.map fun p => (p.1, .str p.2))),
    ("var_domains", .obj (S.varDomains.map fun p => (p.1, .arr [ofBound p.2.1, ofBound p.2.2])))]

/-- The parts that `Domain.from_state` takes from a dictionary (/repo/pywmi/domain.py:159-161). -/
def Domain.State.ofJson (v : Json) : Except PyErr Domain.State :=
  match v.get "variables", v.get "var_types", v.get "var_domains" with
  | .ok (.arr vs), .ok (.obj ts), .ok (.obj ds) =>
    match strings vs, stringDict ts, boundDict ds with
    | .ok vs, .ok ts, .ok ds => .ok ⟨vs, ts, ds⟩
    | _, _, _ => .error .typeError
  | .error e, _, _ => .error e
  | _, .error e, _ => .error e
  | _, _, .error e => .error e
  | _, _, _ => .error .typeError

/-- The dictionary of `Density.get_state` (/repo/pywmi/domain.py:192-197). -/
def Density.State.toJson (S : Density.State) : Json :=
  .obj [("domain", S.domain.toJson), ("queries", .arr (S.queries.map fun q => .str (String.ofList q))),
    ("formula", .str (String.ofList S.formula)), ("weights", .str (String.ofList S.weights))]

/-- The parts that `Density.from_state` takes from a dictionary (/repo/pywmi/domain.py:200-206). -/
def Density.State.ofJson (v : Json) : Except PyErr Density.State :=
  match v.get "domain" with
  | .error e => .error e
  | .ok d =>
    match Domain.State.ofJson d with
    | .error e => .error e
    | .ok d =>
      match v.get "formula", v.get "weights", v.get "queries" with
      | .ok (.str f), .ok (.str w), .ok (.arr qs) =>
        match strings qs with
        | .ok qs => .ok ⟨d, qs.map String.toList, f.toList, w.toList⟩
        | .error e => .error e
      | .error e, _, _ => .error e
      | _, .error e, _ => .error e
      | _, _, .error e => .error e
      | _, _, _ => .error .typeError

/-! ## Objects -/

/-- `Domain.dumps` (/repo/pywmi/export.py:24-25). -/
def Domain.dumps (L : NumLib) (D : Domain) : List Char := enc L D.getState.toJson

/-- `Domain.loads` (/repo/pywmi/export.py:36-38). -/
def Domain.loads (L : NumLib) (cs : List Char) : Except PyErr Domain :=
  match Json.loads L cs with
  | .error e => .error e
  | .ok v =>
    match Domain.State.ofJson v with
    | .error e => .error e
    | .ok S => Domain.fromState S

/-- `Density.dumps` (/repo/pywmi/export.py:24-25). -/
def Density.dumps (L : NumLib) (showReal : ℚ → Tok) (D : Density) : Except PyErr (List Char) :=
  match D.getState showReal with
  | .error e => .error e
  | .ok S => .ok (enc L S.toJson)

/-- `Density.loads` (/repo/pywmi/export.py:36-38). -/
def Density.loads (L : NumLib) (readReal : Tok → Option ℚ) (cs : List Char) : Except PyErr Density :=
  match Json.loads L cs with
  | .error e => .error e
  | .ok v =>
    match Density.State.ofJson v with
    | .error e => .error e
    | .ok S => Density.fromState readReal S

/-- A call of `Density.to_file` on an existing or new file (/repo/pywmi/export.py:17-22): the file is emptied before the
state is computed.  The result is the outcome of the call and the content of the file afterwards. -/
def Density.toFile (L : NumLib) (showReal : ℚ → Tok) (D : Density) (_old : Option (List Char)) :
    Except PyErr Unit × Option (List Char) :=
  match D.dumps L showReal with
  | .error e => (.error e, some [])
  | .ok t => (.ok (), some t)

/-- The content of the file when the process dies in `Density.to_file` (/repo/pywmi/export.py:17-22): before the file is
opened, or after some characters were written.  All characters are ASCII (`dumps_ascii`), so a cut between bytes is a cut
between characters. -/
def Density.crashed (L : NumLib) (showReal : ℚ → Tok) (D : Density) (old : Option (List Char)) :
    ℕ → Option (List Char)
  | 0 => old
  | k + 1 =>
    match D.dumps L showReal with
    | .error _ => some []
    | .ok t => some (t.take k)

/-- `Density.from_file` (/repo/pywmi/export.py:27-34). -/
def Density.fromFile (L : NumLib) (readReal : Tok → Option ℚ) : Option (List Char) → Except PyErr Density
  | none => .error .osError
  | some t => Density.loads L readReal t

/-- The test of a `Decision` object: a formula, or whatever `from_state` was given. -/
inductive TestObj where
  | formula (f : Formula)
  | value (v : Json)

/-- `Decision.dumps` (/repo/pywmi/engines/pyxadd/decision.py:115-116). -/
def decisionDumps (L : NumLib) (showReal : ℚ → Tok) (f : Formula) : Except PyErr (List Char) :=
  match smtToNested showReal f with
  | .error e => .error e
  | .ok t => .ok (enc L (.obj [("test", .str (String.ofList t))]))

/-- `Decision.loads` (/repo/pywmi/engines/pyxadd/decision.py:118-120): the text is not turned into a formula. -/
def decisionLoads (L : NumLib) (cs : List Char) : Except PyErr TestObj :=
  match Json.loads L cs with
  | .error e => .error e
  | .ok v => match v.get "test" with | .error e => .error e | .ok t => .ok (.value t)

end Pywmi
