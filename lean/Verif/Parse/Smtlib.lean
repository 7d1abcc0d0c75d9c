import Verif.Parse.Pysmt

set_option linter.unusedSectionVars false
set_option linter.unusedSimpArgs false

/-!
# Reading SMT-LIB files

The visitor of the parse tree, /repo/pywmi/parser/smtlib/visitor.py, and the entry point
/repo/pywmi/parser/smtlib/smtlibParser.py.  The generated ANTLR parser is not modelled: the model starts from the tree, whose
shape is that of the rules `command`, `term`, `symbol`, `sort` of /repo/pywmi/parser/smtlib/smtlib.g4.  Numbers are already
read (`int(text)`, `float(text)`); `float` is idealised to the rational that the text denotes.  The flag `var` of the
entries is never looked at by this visitor and is left out, as are the texts of messages.
-/

namespace Pywmi

/-- The rule `symbol` (smtlib.g4:516-593). -/
inductive SSym
  | name (s : String)
  | predef (s : String)
  | quoted (s : String)
  deriving DecidableEq, Repr

/-- The rule `sort` (smtlib.g4:665-668): an identifier, an indexed identifier or a parametric sort. -/
inductive SSort
  | ident (s : SSym)
  | indexed
  | param
  deriving DecidableEq, Repr

/-- The rule `term` (smtlib.g4:695-704).  `indexed` is `(_ …)` or `(as …)` as a term, `appIndexed` the same as a head,
`binder` stands for let, forall, exists, match and `!`. -/
inductive STerm
  | numeral (n : ℕ)
  | decimal (q : ℚ)
  | hex (n : ℕ)
  | bin (n : ℕ)
  | str
  | ident (s : SSym)
  | indexed
  | app (s : SSym) (ts : List STerm)
  | appIndexed
  | binder

/-- The rule `command` (smtlib.g4:926-963); `other` stands for the commands that are not supported. -/
inductive SCmd
  | assert (t : STerm)
  | declareConst (s : SSym) (sort : SSort)
  | declareFun (s : SSym) (args : List SSort) (sort : SSort)
  | weight (t : STerm)
  | query (t : STerm)
  | other

/-- An entry of `self.variables` or the result of a term: the keys `value` and `type` (`.real` is the string "float"). -/
structure SEntry where
  value : Pt
  ty : PTy

/-- `self.variables`, in order of insertion. -/
abbrev STable := List (String × SEntry)

/-- `self.variables[x]`. -/
def STable.get (T : STable) (x : String) : Option SEntry := (T.find? fun p => p.1 = x).map Prod.snd

/-- Assignment to a key of the dictionary at `x`. -/
def STable.put (T : STable) (x : String) (e : SEntry) : STable := T.map fun p => if p.1 = x then (x, e) else p

/-- What `visitTerm` returns: the dictionary of a variable itself (so writes to it are seen by everyone), a new dictionary, or the
dictionary of a symbol, which has no key `type`. -/
inductive SRes
  | var (x : String)
  | own (e : SEntry)
  | symb (s : String)

/-- The dictionary behind a result. -/
def SRes.get (T : STable) : SRes → Except PyErr SEntry
  | .var x => match T.get x with
    | some e => .ok e
    | none => .error .keyError
  | .own e => .ok e
  | .symb _ => .error .keyError

/-- Writing to the dictionary behind a result. -/
def SRes.put (T : STable) (e : SEntry) : SRes → STable × SRes
  | .var x => (T.put x e, .var x)
  | .own _ => (T, .own e)
  | .symb s => (T, .symb s)

/-- `_cast` (visitor.py:32-43): `none` is the answer False. -/
def castS (T : STable) (a b : SRes) : Except PyErr (Option (STable × SRes × SRes)) :=
  match a.get T with
  | .error e => .error e
  | .ok ea => match b.get T with
    | .error e => .error e
    | .ok eb =>
      if ea.ty = eb.ty then .ok (some (T, a, b))
      else if (ea.ty = .real ∧ eb.ty = .int) ∨ (ea.ty = .int ∧ eb.ty = .real) then
        match pToReal ea.value with
        | .error e => .error e
        | .ok va => match pToReal eb.value with
          | .error e => .error e
          | .ok vb =>
            let r1 := a.put T ⟨va, .real⟩
            let r2 := b.put r1.1 ⟨vb, .real⟩
            .ok (some (r2.1, r1.2, r2.2))
      else .ok none

/-- `visitSimpleSymbol`, `visitQuotedSymbol`, `visitPredefSymbol`, `visitSymbol` (visitor.py:80-123): a constant or a name.
For a quoted symbol the visitor returns a string, and every caller indexes it with a string: a TypeError. -/
def symVal : SSym → Except PyErr (Bool ⊕ String)
  | .name s => .ok (.inr s)
  | .predef s =>
    if s = "true" then .ok (.inl true)
    else if s = "false" then .ok (.inl false)
    else if s = "not" ∨ s = "Bool" then .ok (.inr s)
    else .error .parseError
  | .quoted _ => .error .typeError

/-- `same_type_op` (visitor.py:240). -/
def sameTypeOps : List String := ["=", ">", ">=", "<", "<=", "=>", "+", "-", "*", "/", "and", "or"]

/-- A new dictionary. -/
def ownRes (T : STable) (ty : PTy) (v : Except PyErr Pt) : Except PyErr (SRes × STable) :=
  match v with
  | .ok p => .ok (.own ⟨p, ty⟩, T)
  | .error e => .error e

/-- The operators (visitor.py:267-386), applied to the entries `es` of the children `rs`. -/
def applyS (T : STable) (op : String) (rs : List SRes) (es : List SEntry) : Except PyErr (SRes × STable) :=
  if op = "=" then match es with
    | [a, b] => ownRes T .bool (pEqualsOrIff a.value b.value)
    | _ => .error .parseError
  else if op = ">" then match es with
    | [a, b] => ownRes T .bool (pNode (.lt b.value a.value))
    | _ => .error .parseError
  else if op = ">=" then match es with
    | [a, b] => ownRes T .bool (pNode (.le b.value a.value))
    | _ => .error .parseError
  else if op = "<" then match es with
    | [a, b] => ownRes T .bool (pNode (.lt a.value b.value))
    | _ => .error .parseError
  else if op = "<=" then match es with
    | [a, b] => ownRes T .bool (pNode (.le a.value b.value))
    | _ => .error .parseError
  else if op = "=>" then match es with
    | [a, b] => ownRes T .bool (pNode (.implies a.value b.value))
    | _ => .error .parseError
  else if op = "+" then match es with
    | a :: _ => ownRes T a.ty (pPlus (es.map SEntry.value))
    | [] => .error .typeError
  else if op = "-" then match es with
    | [a, b] => ownRes T a.ty (pNode (.minus a.value b.value))
    | [a] =>
      if a.ty = .int then ownRes T .int (pTimes [a.value, .intC (-1)])
      else if a.ty = .real then ownRes T .real (pTimes [a.value, .realC (-1)])
      else .error .parseError
    | _ => .error .parseError
  else if op = "*" then match es with
    | a :: _ => ownRes T a.ty (pTimes (es.map SEntry.value))
    | [] => .error .typeError
  else if op = "/" then match es with
    | [a, b] => match pToReal a.value with
      | .error e => .error e
      | .ok va => match pToReal b.value with
        | .error e => .error e
        | .ok vb => ownRes T .real (pDiv va vb)
    | _ => .error .parseError
  else if op = "and" then ownRes T .bool (pAnd (es.map SEntry.value))
  else if op = "or" then ownRes T .bool (pOr (es.map SEntry.value))
  else if op = "not" then match es with
    | [a] => ownRes T .bool (pNot a.value)
    | _ => .error .parseError
  else if op = "ite" then match rs, es with
    | [c, t, e], [ec, _, _] =>
      if ec.ty ≠ .bool then .error .parseError
      else match castS T t e with
        | .error e => .error e
        | .ok none => .error .parseError
        | .ok (some (T', t', e')) =>
          match c.get T', t'.get T', e'.get T' with
          | .ok vc, .ok vt, .ok ve => ownRes T' vt.ty (pNode (.ite vc.value vt.value ve.value))
          | _, _, _ => .error .keyError
    | _, _ => .error .parseError
  else .error .parseError

/-- The entries of the children. -/
def getAll (T : STable) : List SRes → Except PyErr (List SEntry)
  | [] => .ok []
  | r :: rs => match r.get T with
    | .error e => .error e
    | .ok v => match getAll T rs with
      | .error e => .error e
      | .ok vs => .ok (v :: vs)

mutual
/-- `visitTerm` (visitor.py:235-411). -/
def sTerm (T : STable) : STerm → Except PyErr (SRes × STable)
  | .numeral n => .ok (.own ⟨.intC n, .int⟩, T)
  | .decimal q => .ok (.own ⟨.realC q, .real⟩, T)
  | .hex n => .ok (.own ⟨.intC n, .int⟩, T)
  | .bin n => .ok (.own ⟨.intC n, .int⟩, T)
  | .str => .error .parseError
  | .ident s => match symVal s with
    | .error e => .error e
    | .ok (.inl b) => .ok (.own ⟨.boolC b, .bool⟩, T)
    | .ok (.inr x) => if (T.get x).isSome then .ok (.var x, T) else .ok (.symb x, T)
  | .indexed => .error .parseError
  | .app s ts => match symVal s with
    | .error e => .error e
    | .ok h => match sTerms T (match h with | .inl _ => "" | .inr op => op) [] ts with
      | .error e => .error e
      | .ok (rs, T') => match h with
        | .inl _ => .error .parseError
        | .inr op => match getAll T' rs with
          | .error e => .error e
          | .ok es => applyS T' op rs es
  | .appIndexed => .error .parseError
  | .binder => .error .parseError
/-- The loop over the children (visitor.py:247-265); `acc` is `terms` reversed, its head is `last`. -/
def sTerms (T : STable) (op : String) (acc : List SRes) : List STerm → Except PyErr (List SRes × STable)
  | [] => .ok (acc.reverse, T)
  | t :: ts => match sTerm T t with
    | .error e => .error e
    | .ok (.symb _, _) => .error .parseError
    | .ok (r, T1) => match acc with
      | [] => sTerms T1 op [r] ts
      | l :: acc' =>
        if op ∈ sameTypeOps then
          match castS T1 l r with
          | .error e => .error e
          | .ok none => .error .parseError
          | .ok (some (T2, l', r')) => sTerms T2 op (r' :: l' :: acc') ts
        else sTerms T1 op (r :: l :: acc') ts
end

/-- The attributes of the visitor (visitor.py:14-29). -/
structure SState where
  table : STable
  bools : List String
  reals : List (String × PTy)
  support : List Pt
  weight : Option Pt
  queries : List Pt

/-- `__init__` (visitor.py:14-29) with the names of the given variables. -/
def SState.init (A X : List String) : SState where
  table := (A.map fun a => (a, ⟨.sym a .bool, .bool⟩)) ++ X.map fun x => (x, ⟨.sym x .real, .real⟩)
  bools := A
  reals := X.map fun x => (x, .real)
  support := []
  weight := none
  queries := []

/-- `visitSort` (visitor.py:201-205) followed by the comparison with the names of the sorts. -/
def sortVal : SSort → Except PyErr PTy
  | .ident s => match symVal s with
    | .error e => .error e
    | .ok (.inl _) => .error .parseError
    | .ok (.inr n) =>
      if n = "Int" then .ok .int else if n = "Real" then .ok .real else if n = "Bool" then .ok .bool else .error .parseError
  | .indexed => .error .parseError
  | .param => .error .parseError

/-- The branches `declare-const` and `declare-fun` (visitor.py:655-676, 681-707).  A name that is the constant true or false is no
string, `Symbol` rejects it. -/
def declareS (S : SState) (s : SSym) (args : List SSort) (sort : SSort) : Except PyErr SState :=
  match symVal s with
  | .error e => .error e
  | .ok (.inl _) => if args ≠ [] then .error .parseError else match sortVal sort with
    | .error e => .error e
    | .ok _ => .error .other
  | .ok (.inr x) =>
    if (S.table.get x).isSome then .error .parseError
    else if args ≠ [] then .error .parseError
    else match sortVal sort with
      | .error e => .error e
      | .ok .bool => .ok { S with table := S.table ++ [(x, ⟨.sym x .bool, .bool⟩)], bools := S.bools ++ [x] }
      | .ok .int => .ok { S with table := S.table ++ [(x, ⟨.sym x .int, .int⟩)], reals := S.reals ++ [(x, .int)] }
      | .ok .real => .ok { S with table := S.table ++ [(x, ⟨.sym x .real, .real⟩)], reals := S.reals ++ [(x, .real)] }

/-- `visitCommand` (visitor.py:644-779).  The messages for a weight or a query of a wrong type call `ctx.expr()`, which commands
do not have: an AttributeError.  An integer is made real in place, its type is left. -/
def sCmd (S : SState) : SCmd → Except PyErr SState
  | .assert t => match sTerm S.table t with
    | .error e => .error e
    | .ok (r, T) => match r.get T with
      | .error e => .error e
      | .ok v => if v.ty ≠ .bool then .error .parseError else .ok { S with table := T, support := S.support ++ [v.value] }
  | .declareConst s sort => declareS S s [] sort
  | .declareFun s args sort => declareS S s args sort
  | .weight t => match sTerm S.table t with
    | .error e => .error e
    | .ok (r, T) =>
      if S.weight.isSome then .error .parseError
      else match r.get T with
        | .error e => .error e
        | .ok v => match v.ty with
          | .real => .ok { S with table := T, weight := some v.value }
          | .int => match pToReal v.value with
            | .error e => .error e
            | .ok p => .ok { S with table := (r.put T ⟨p, .int⟩).1, weight := some p }
          | .bool => .error .attributeError
  | .query t => match sTerm S.table t with
    | .error e => .error e
    | .ok (r, T) => match r.get T with
      | .error e => .error e
      | .ok v => match v.ty with
        | .bool => .ok { S with table := T, queries := S.queries ++ [v.value] }
        | .int => match pToReal v.value with
          | .error e => .error e
          | .ok p => .ok { S with table := (r.put T ⟨p, .int⟩).1, queries := S.queries ++ [p] }
        | .real => .error .attributeError
  | .other => .error .parseError

/-- `visitScript` (visitor.py:483-485). -/
def sScript (S : SState) : List SCmd → Except PyErr SState
  | [] => .ok S
  | c :: cs => match sCmd S c with
    | .error e => .error e
    | .ok S' => sScript S' cs

/-- The result of the reader. -/
structure SResult where
  support : Pt
  weight : Pt
  bools : List String
  reals : List (String × PTy)
  queries : List Pt

/-- `SmtlibParser.parse` and `visitStart` (smtlibParser.py:12-35, visitor.py:63-71).  `simp` is pysmt's `simplify`; the sets of
variables are lists here. -/
def parseSmtlib (simp : Pt → Pt) (A X : List String) (cs : List SCmd) : Except PyErr SResult :=
  match sScript (.init A X) cs with
  | .error e => .error e
  | .ok S => match pAnd S.support with
    | .error e => .error e
    | .ok f => .ok ⟨simp f, simp (S.weight.getD (.realC 1)), S.bools, S.reals, S.queries⟩

end Pywmi
