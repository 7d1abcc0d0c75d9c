import Verif.Smt.Transform
import Verif.Math.Poly

/-!
# Literal tables and literal extraction: model of /repo/pywmi/engines/xsdd/literals.py
-/

namespace Pywmi
open Formula

section
variable {κ ν : Type} [DecidableEq κ]

/-- `d[k] = v` on an insertion-ordered dictionary: an existing key keeps its place. -/
def assocSet : List (κ × ν) → κ → ν → List (κ × ν)
  | [], k, v => [(k, v)]
  | (k', w) :: d, k, v => if k' = k then (k', v) :: d else (k', w) :: assocSet d k v

/-- `del d[k]` for a present key (keys are unique). -/
def assocDel : List (κ × ν) → κ → List (κ × ν)
  | [], _ => []
  | (k', w) :: d, k => if k' = k then d else (k', w) :: assocDel d k
end

/-- What a literal stands for: booleans are strings, abstractions are formulas (`isinstance(x, str)`,
/repo/pywmi/engines/xsdd/literals.py:43, 47-49). -/
inductive LitVal where
  | bool (name : String)
  | atom (f : Formula)
deriving DecidableEq, Repr

/-- `LiteralInfo` (/repo/pywmi/engines/xsdd/literals.py:42-63) without `labels`. The numbering caches are not part of the
state: `_numbered_cache_ok` is never set, so every access recomputes them (lines 78-81). -/
structure LiteralInfo where
  literals : List (String × LitVal)
  abstractions : List (Formula × String)
  booleans : List (String × String)

namespace LiteralInfo

/-- Building `literals`: booleans first, then abstractions (/repo/pywmi/engines/xsdd/literals.py:50-54). -/
def table (abstractions : List (Formula × String)) (booleans : List (String × String)) : List (String × LitVal) :=
  abstractions.foldl (fun d p => assocSet d p.2 (.atom p.1))
    (booleans.foldl (fun d p => assocSet d p.2 (.bool p.1)) [])

/-- `LiteralInfo.__init__` (/repo/pywmi/engines/xsdd/literals.py:44-63). -/
def make (abstractions : List (Formula × String)) (booleans : List (String × String)) : Except PyErr LiteralInfo :=
  if ∃ l ∈ booleans.map (·.2), l ∈ abstractions.map (·.2) then .error .assertionError
  else .ok ⟨table abstractions booleans, abstractions, booleans⟩

/-- `numbered` (/repo/pywmi/engines/xsdd/literals.py:65-68, 79-80). -/
def numbered (L : LiteralInfo) : List (String × ℕ) := L.literals.mapIdx fun i p => (p.1, i + 1)

/-- `inv_numbered` (/repo/pywmi/engines/xsdd/literals.py:70-73, 81). -/
def invNumbered (L : LiteralInfo) : List (ℕ × String) := L.literals.mapIdx fun i p => (i + 1, p.1)

/-- `number_to_lit` (/repo/pywmi/engines/xsdd/literals.py:83-85). -/
def numberToLit (L : LiteralInfo) (n : ℤ) : Except PyErr String :=
  match L.invNumbered.lookup n.natAbs with
  | some l => .ok l
  | none => .error .keyError

/-- `__getitem__` (/repo/pywmi/engines/xsdd/literals.py:101-102). -/
def getItem (L : LiteralInfo) (lit : String) : Except PyErr LitVal :=
  match L.literals.lookup lit with
  | some v => .ok v
  | none => .error .keyError

/-- `number_to_val` (/repo/pywmi/engines/xsdd/literals.py:87-90). -/
def numberToVal (L : LiteralInfo) (n : ℤ) : Except PyErr LitVal :=
  match L.numberToLit n with
  | .ok l => L.getItem l
  | .error e => .error e

/-- `is_lit_boolean` (/repo/pywmi/engines/xsdd/literals.py:97-99): tests whether the *literal* is a string, which every
literal is. -/
def isLitBoolean (_L : LiteralInfo) (_lit : String) : Bool := true

/-- `is_number_boolean` (/repo/pywmi/engines/xsdd/literals.py:92-95). -/
def isNumberBoolean (L : LiteralInfo) (n : ℤ) : Except PyErr Bool :=
  match L.numberToLit n with
  | .ok l => .ok (L.isLitBoolean l)
  | .error e => .error e

/-- Updates through the two delegating dictionaries. -/
inductive Op where
  | setBool (name lit : String)
  | setAtom (f : Formula) (lit : String)
  | delBool (name : String)
  | delAtom (f : Formula)
  | clearBool
  | clearAtom
deriving DecidableEq

/-- `InverseDictDelegate.__setitem__` (/repo/pywmi/engines/xsdd/literals.py:23-27) on `booleans`. -/
def setBool (L : LiteralInfo) (name lit : String) : LiteralInfo × Option PyErr :=
  if name ∈ L.booleans.map (·.1) ∨ lit ∉ L.literals.map (·.1) then
    ({ L with booleans := assocSet L.booleans name lit, literals := assocSet L.literals lit (.bool name) }, none)
  else (L, some .assertionError)

/-- `InverseDictDelegate.__setitem__` (/repo/pywmi/engines/xsdd/literals.py:23-27) on `abstractions`. -/
def setAtom (L : LiteralInfo) (f : Formula) (lit : String) : LiteralInfo × Option PyErr :=
  if f ∈ L.abstractions.map (·.1) ∨ lit ∉ L.literals.map (·.1) then
    ({ L with abstractions := assocSet L.abstractions f lit, literals := assocSet L.literals lit (.atom f) }, none)
  else (L, some .assertionError)

/-- `InverseDictDelegate.__delitem__` (/repo/pywmi/engines/xsdd/literals.py:29-33) on `booleans`: the entry is deleted
and then read, so the call always ends in a KeyError, after the deletion if the key was present. -/
def delBool (L : LiteralInfo) (name : String) : LiteralInfo × Option PyErr :=
  if name ∈ L.booleans.map (·.1) then ({ L with booleans := assocDel L.booleans name }, some .keyError)
  else (L, some .keyError)

/-- `InverseDictDelegate.__delitem__` (/repo/pywmi/engines/xsdd/literals.py:29-33) on `abstractions`. -/
def delAtom (L : LiteralInfo) (f : Formula) : LiteralInfo × Option PyErr :=
  if f ∈ L.abstractions.map (·.1) then ({ L with abstractions := assocDel L.abstractions f }, some .keyError)
  else (L, some .keyError)

/-- `InverseDictDelegate.clear` (/repo/pywmi/engines/xsdd/literals.py:35-41) on `booleans`: the second loop deletes from
the dictionary it iterates over, so after the first deletion the iterator raises RuntimeError. -/
def clearBool (L : LiteralInfo) : LiteralInfo × Option PyErr :=
  if ∀ p ∈ L.booleans, p.2 ∈ L.literals.map (·.1) then
    match L.booleans with
    | [] => (L, none)
    | (_, lit) :: rest => ({ L with booleans := rest, literals := assocDel L.literals lit }, some .runtimeError)
  else (L, some .assertionError)

/-- `InverseDictDelegate.clear` (/repo/pywmi/engines/xsdd/literals.py:35-41) on `abstractions`. -/
def clearAtom (L : LiteralInfo) : LiteralInfo × Option PyErr :=
  if ∀ p ∈ L.abstractions, p.2 ∈ L.literals.map (·.1) then
    match L.abstractions with
    | [] => (L, none)
    | (_, lit) :: rest => ({ L with abstractions := rest, literals := assocDel L.literals lit }, some .runtimeError)
  else (L, some .assertionError)

/-- One update; the state survives an exception. -/
def step (L : LiteralInfo) : Op → LiteralInfo × Option PyErr
  | .setBool n l => L.setBool n l
  | .setAtom f l => L.setAtom f l
  | .delBool n => L.delBool n
  | .delAtom f => L.delAtom f
  | .clearBool => L.clearBool
  | .clearAtom => L.clearAtom

/-- A history of updates whose exceptions are caught by the caller. -/
def run (L : LiteralInfo) (ops : List Op) : LiteralInfo := ops.foldl (fun L o => (L.step o).1) L

end LiteralInfo

/-! ### Extraction -/

mutual
/-- `is_all_real` (/repo/pywmi/engines/xsdd/literals.py:117-125). -/
def isAllReal : Formula → Bool
  | .sym _ ty => ty = .real
  | .realC _ => true
  | .times as => isAllRealList as
  | .plus as => isAllRealList as
  | .minus l r => isAllReal l && isAllReal r
  | .pow b e => isAllReal b && isAllReal e
  | _ => false
/-- `all(is_all_real(arg) for arg in args)`. -/
def isAllRealList : List Formula → Bool
  | [] => true
  | a :: as => isAllReal a && isAllRealList as
end

/-- The two dictionaries filled by `extract_and_replace_literals` (/repo/pywmi/engines/xsdd/literals.py:129-130). -/
structure LitTables where
  abstractions : List (Formula × String)
  booleans : List (String × String)
deriving DecidableEq

/-- `f"b{n}"` (/repo/pywmi/engines/xsdd/literals.py:148). -/
def boolLit (n : ℕ) : String := "b" ++ Nat.repr n
/-- `f"a{n}"` (/repo/pywmi/engines/xsdd/literals.py:157). -/
def atomLit (n : ℕ) : String := "a" ++ Nat.repr n

/-- The symbol case of `recurse` (/repo/pywmi/engines/xsdd/literals.py:145-149). -/
def extractSym (T : LitTables) (name : String) : Formula × LitTables :=
  match T.booleans.lookup name with
  | some l => (.sym l .bool, T)
  | none => (.sym (boolLit T.booleans.length) .bool,
      { T with booleans := T.booleans ++ [(name, boolLit T.booleans.length)] })

/-- The test case of `recurse` (/repo/pywmi/engines/xsdd/literals.py:153-158); `to_canonical` (108-109) is
`normalizeAtom`. -/
def extractTest (T : LitTables) (f : Formula) (args : List Formula) : Except PyErr (Formula × LitTables) :=
  if isAllRealList args then
    match normalizeAtom f with
    | .error e => .error e
    | .ok c =>
      match T.abstractions.lookup c with
      | some l => .ok (.sym l .bool, T)
      | none => .ok (.sym (atomLit T.abstractions.length) .bool,
          { T with abstractions := T.abstractions ++ [(c, atomLit T.abstractions.length)] })
  else .error .assertionError

mutual
/-- `recurse` (/repo/pywmi/engines/xsdd/literals.py:141-160). Simplification: the bounded `lru_cache` is left out; it
changes nothing because a formula met again finds all its literals in the tables (`extract_again`). -/
def extractRec : Formula → LitTables → Except PyErr (Formula × LitTables)
  | .boolC b, T => .ok (.boolC b, T)
  | .sym n ty, T => if ty = .bool then .ok (extractSym T n) else .error .assertionError
  | .and as, T =>
    match extractList as T with
    | .ok (rs, T') => .ok (mkAnd rs, T')
    | .error e => .error e
  | .or as, T =>
    match extractList as T with
    | .ok (rs, T') => .ok (mkOr rs, T')
    | .error e => .error e
  | .not a, T =>
    match extractRec a T with
    | .ok (r, T') => .ok (mkNot r, T')
    | .error e => .error e
  | .implies l r, T =>
    match extractRec l T with
    | .error e => .error e
    | .ok (a, T1) =>
      match extractRec r T1 with
      | .ok (b, T2) => .ok (.implies a b, T2)
      | .error e => .error e
  | .iff l r, T =>
    match extractRec l T with
    | .error e => .error e
    | .ok (a, T1) =>
      match extractRec r T1 with
      | .ok (b, T2) => .ok (.iff a b, T2)
      | .error e => .error e
  | .ite c t e, T =>
    match extractRec c T with
    | .error e => .error e
    | .ok (a, T1) =>
      match extractRec t T1 with
      | .error e => .error e
      | .ok (b, T2) =>
        match extractRec e T2 with
        | .ok (d, T3) => .ok (.ite a b d, T3)
        | .error e => .error e
  | .le l r, T => extractTest T (.le l r) [l, r]
  | .lt l r, T => extractTest T (.lt l r) [l, r]
  | .equals l r, T => extractTest T (.equals l r) [l, r]
  | _, _ => .error .runtimeError
/-- `(recurse(arg) for arg in formula.args())`, from left to right. -/
def extractList : List Formula → LitTables → Except PyErr (List Formula × LitTables)
  | [], T => .ok ([], T)
  | a :: as, T =>
    match extractRec a T with
    | .error e => .error e
    | .ok (r, T1) =>
      match extractList as T1 with
      | .ok (rs, T2) => .ok (r :: rs, T2)
      | .error e => .error e
end

/-- `extract_and_replace_literals` (/repo/pywmi/engines/xsdd/literals.py:128-164); the private pysmt environment is not
modelled. -/
def extractLiterals (f : Formula) : Except PyErr (Formula × LiteralInfo) :=
  match extractRec f ⟨[], []⟩ with
  | .error e => .error e
  | .ok (g, T) =>
    match LiteralInfo.make T.abstractions T.booleans with
    | .ok L => .ok (g, L)
    | .error e => .error e

end Pywmi
