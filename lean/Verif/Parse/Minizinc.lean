import Verif.Parse.Pysmt

set_option linter.unusedSectionVars false
set_option linter.unusedSimpArgs false

/-!
# Reading MiniZinc files

The visitor of the parse tree, /repo/pywmi/parser/minizinc/visitor.py, and the entry point
/repo/pywmi/parser/minizinc/minizincParser.py.  The generated ANTLR parser is not modelled: the model starts from the tree.
An included file is the tree of that file in place of its name, so files that include themselves (endless recursion) are left
out.  Numbers are already read; `float` is idealised to the rational that the text denotes.  Texts of messages are left out.
-/

namespace Pywmi

/-- The binary operators of the rule `expr` (minizinc.g4:122-130); `other` stands for those that `visitExpr` rejects. -/
inductive ZOp
  | div | mult | minus | plus | nq | eq | eqeq | ge | le | gt | lt | and | xor | or | rimpl | impl | equiv | other
  deriving DecidableEq, Repr

mutual
/-- The rules `expr`, `expr_atom`, `num_expr` (minizinc.g4:122-163).  Brackets are gone; `bad` stands for everything that is
rejected: annotations, strings, sets, arrays, let, calls, `_`. -/
inductive MExpr
  | bin (op : ZOp) (l r : MExpr)
  | not (e : MExpr)
  | neg (e : MExpr)
  | pos (e : MExpr)
  | ident (x : String)
  | boolL (b : Bool)
  | intL (n : ℕ)
  | floatL (q : ℚ)
  | ite (b : MBranch)
  | bad
/-- The expressions of `if … then … elseif … then … else … endif` (minizinc.g4:236). -/
inductive MBranch
  | last (c t e : MExpr)
  | more (c t : MExpr) (rest : MBranch)
end

/-- The rule `base_ti_expr_tail` (minizinc.g4:96-102); `named` is a type with a name, `other` sets, arrays, options and the like. -/
inductive MType
  | bool | int | float | string | named | other
  | range (lo hi : MExpr)

/-- The rule `item` (minizinc.g4:23-24); `annotated` is its alternative `annotation item`, `other` stands for the rejected items. -/
inductive MItem
  | incl (items : List MItem)
  | decl (var : Bool) (t : MType) (x : String) (annotations : Bool) (e : Option MExpr)
  | assign (x : String) (e : MExpr)
  | constr (e : MExpr)
  | weight (e : MExpr)
  | query (e : MExpr)
  | annotated (i : MItem)
  | other

/-- The dictionary of an expression: the keys `value`, `type` and `var`. -/
structure MVal where
  value : Pt
  ty : PTy
  var : Bool

/-- An entry of `self.variables`; a parameter may have no value yet. -/
structure MEntry where
  value : Option Pt
  ty : PTy
  var : Bool

/-- `self.variables`. -/
abbrev MTable := List (String × MEntry)

/-- `self.variables[x]`. -/
def MTable.get (T : MTable) (x : String) : Option MEntry := (T.find? fun p => p.1 = x).map Prod.snd

/-- `self.variables[x]['value'] = v`. -/
def MTable.set (T : MTable) (x : String) (v : Pt) : MTable := T.map fun p => if p.1 = x then (p.1, { p.2 with value := some v }) else p

/-- `_cast` (visitor.py:35-46): `none` is the answer False. -/
def castM (a b : MVal) : Except PyErr (Option (MVal × MVal)) :=
  if a.ty = b.ty then .ok (some (a, b))
  else if (a.ty = .real ∧ b.ty = .int) ∨ (a.ty = .int ∧ b.ty = .real) then
    match pToReal a.value with
    | .error e => .error e
    | .ok va => match pToReal b.value with
      | .error e => .error e
      | .ok vb => .ok (some (⟨va, .real, a.var⟩, ⟨vb, .real, b.var⟩))
  else .ok none

/-- The term of a binary operator and its type (visitor.py:415-488, 586-605); `ty` is the type of the left operand. -/
def mOpTerm (op : ZOp) (ty : PTy) (l r : Pt) : Except PyErr (Pt × PTy) :=
  match op with
  | .div => match pToReal l with
    | .error e => .error e
    | .ok vl => match pToReal r with
      | .error e => .error e
      | .ok vr => (pDiv vl vr).map (·, .real)
  | .mult => (pTimes [l, r]).map (·, ty)
  | .minus => (pNode (.minus l r)).map (·, ty)
  | .plus => (pPlus [l, r]).map (·, ty)
  | .nq => (pNotEquals l r).map (·, .bool)
  | .eq => (pNode (.iff l r)).map (·, .bool)
  | .eqeq => (pNode (.iff l r)).map (·, .bool)
  | .ge => (pNode (.le r l)).map (·, .bool)
  | .le => (pNode (.le l r)).map (·, .bool)
  | .gt => (pNode (.lt r l)).map (·, .bool)
  | .lt => (pNode (.lt l r)).map (·, .bool)
  | .and => (pAnd [l, r]).map (·, .bool)
  | .xor => (pXor l r).map (·, .bool)
  | .or => (pOr [l, r]).map (·, .bool)
  | .rimpl => (pNode (.implies r l)).map (·, .bool)
  | .impl => (pNode (.implies l r)).map (·, .bool)
  | .equiv => (pNode (.iff l r)).map (·, .bool)
  | .other => .error .parseError

/-- `visitExpr` for two operands (visitor.py:404-488) and `visitNum_expr` (visitor.py:574-605), which does the same on fewer
operators. -/
def mBin (op : ZOp) (l r : MVal) : Except PyErr MVal :=
  match castM l r with
  | .error e => .error e
  | .ok none => .error .parseError
  | .ok (some (l', r')) => match mOpTerm op l'.ty l'.value r'.value with
    | .error e => .error e
    | .ok (p, t) => .ok ⟨p, t, l'.var || r'.var⟩

/-- One condition (visitor.py:754-766, 773-786). -/
def mIte (c t e : MVal) : Except PyErr MVal :=
  if c.ty ≠ .bool then .error .parseError
  else match castM t e with
    | .error e => .error e
    | .ok none => .error .parseError
    | .ok (some (t', e')) => match pNode (.ite c.value t'.value e'.value) with
      | .error e => .error e
      | .ok p => .ok ⟨p, t'.ty, c.var || t'.var || e'.var⟩

mutual
/-- `visitExpr`, `visitExpr_atom`, `visitExpr_atom_head` (visitor.py:400-560) and their counterparts for the endpoints of ranges,
`visitNum_expr`, `visitNum_expr_atom_head` (visitor.py:570-651), which do the same on the trees they get. -/
def mExpr (T : MTable) : MExpr → Except PyErr MVal
  | .bin op l r => match mExpr T l with
    | .error e => .error e
    | .ok vl => match mExpr T r with
      | .error e => .error e
      | .ok vr => mBin op vl vr
  | .not e => match mExpr T e with
    | .error e => .error e
    | .ok v => if v.ty = .bool then (pNot v.value).map (⟨·, .bool, v.var⟩) else .error .parseError
  | .neg e => match mExpr T e with
    | .error e => .error e
    | .ok v => match v.ty with
      | .real => (pTimes [v.value, .realC (-1)]).map (⟨·, .real, v.var⟩)
      | .int => (pTimes [v.value, .intC (-1)]).map (⟨·, .int, v.var⟩)
      | .bool => .error .parseError
  | .pos e => mExpr T e
  | .ident x => match T.get x with
    | none => .error .parseError
    | some e => match e.value with
      | none => .error .parseError
      | some p => .ok ⟨p, e.ty, e.var⟩
  | .boolL b => .ok ⟨.boolC b, .bool, false⟩
  | .intL n => .ok ⟨.intC n, .int, false⟩
  | .floatL q => .ok ⟨.realC q, .real, false⟩
  | .ite b => mBranch T b
  | .bad => .error .parseError
/-- `visitIf_then_else_expr` (visitor.py:745-789): from the last condition to the first. -/
def mBranch (T : MTable) : MBranch → Except PyErr MVal
  | .last c t e => match mExpr T c with
    | .error e => .error e
    | .ok vc => match mExpr T t with
      | .error e => .error e
      | .ok vt => match mExpr T e with
        | .error e => .error e
        | .ok ve => mIte vc vt ve
  | .more c t rest => match mBranch T rest with
    | .error e => .error e
    | .ok ve => match mExpr T t with
      | .error e => .error e
      | .ok vt => match mExpr T c with
        | .error e => .error e
        | .ok vc => mIte vc vt ve
end

/-- A numeric variable of the domain with its bounds, `None` or a number. -/
structure MReal where
  name : String
  ty : PTy
  bounds : Option (ℚ × ℚ)

/-- The attributes of the visitor (visitor.py:14-32). -/
structure MState where
  table : MTable
  bools : List String
  reals : List MReal
  support : List Pt
  weight : Option Pt
  queries : List Pt

/-- `__init__` (visitor.py:14-32): every given number has the type float. -/
def MState.init (A : List String) (X : List MReal) (w : Option Pt) : MState where
  table := (A.map fun a => (a, ⟨some (.sym a .bool), .bool, true⟩)) ++ X.map fun x => (x.name, ⟨some (.sym x.name x.ty), .real, true⟩)
  bools := A
  reals := X
  support := []
  weight := w
  queries := []

/-- `constant_value()` of a constant that is a number.  On other terms pysmt returns a payload that is no number; the model stops
with an error there. -/
def constValue : Pt → Except PyErr ℚ
  | .intC z => .ok z
  | .realC q => .ok q
  | _ => .error .other

/-- `visitBase_ti_expr`, `visitBase_type`, `visitBase_ti_expr_tail` (visitor.py:311-381): the type, and the endpoints of a range.
A named type is a string, which is then indexed with a string: a TypeError. -/
def mType (T : MTable) (var : Bool) : MType → Except PyErr (PTy × Option (Pt × Pt))
  | .bool => .ok (.bool, none)
  | .int => .ok (.int, none)
  | .float => .ok (.real, none)
  | .string => .error .parseError
  | .named => .error .typeError
  | .other => .error .parseError
  | .range lo hi => match mExpr T lo with
    | .error e => .error e
    | .ok a => match mExpr T hi with
      | .error e => .error e
      | .ok b => match castM a b with
        | .error e => .error e
        | .ok none => .error .parseError
        | .ok (some (a', b')) =>
          if a'.ty = .bool then .error .parseError
          else if ¬ var then .error .parseError
          else .ok (a'.ty, some (a'.value, b'.value))

/-- The value given to a variable or parameter of type `ty` (visitor.py:134-146, 207-218). -/
def mGiven (var : Bool) (ty : PTy) (v : MVal) : Except PyErr Pt :=
  if ¬ var ∧ v.var then .error .parseError
  else if ty ≠ v.ty then
    if ty = .real ∧ v.ty = .int then pToReal v.value else .error .parseError
  else .ok v.value

/-- The optional value of a declaration. -/
def mGivenOpt (T : MTable) (var : Bool) (ty : PTy) : Option MExpr → Except PyErr (Option Pt)
  | none => .ok none
  | some e => match mExpr T e with
    | .error e => .error e
    | .ok v => match mGiven var ty v with
      | .error e => .error e
      | .ok p => .ok (some p)

/-- The bounds of a declaration with a range (visitor.py:164-169). -/
def mBounds (simp : Pt → Pt) : Option (Pt × Pt) → Except PyErr (Option (ℚ × ℚ))
  | none => .ok none
  | some (lo, hi) => match constValue (simp lo) with
    | .error e => .error e
    | .ok a => match constValue (simp hi) with
      | .error e => .error e
      | .ok b => .ok (some (a, b))

/-- `visitVar_decl_item` (visitor.py:118-182). -/
def mDecl (simp : Pt → Pt) (S : MState) (var : Bool) (t : MType) (x : String) (ann : Bool) (e : Option MExpr) : Except PyErr MState :=
  match mType S.table var t with
  | .error e => .error e
  | .ok (ty, rng) =>
    if ann then .error .parseError
    else if (S.table.get x).isSome then .error .parseError
    else match mGivenOpt S.table var ty e with
      | .error e => .error e
      | .ok v =>
        if var then
          match mBounds simp rng with
          | .error e => .error e
          | .ok bs =>
            let S' : MState := { S with
              table := S.table ++ [(x, ⟨some (.sym x ty), ty, true⟩)]
              bools := if ty = .bool then S.bools ++ [x] else S.bools
              reals := if ty = .bool then S.reals else S.reals ++ [⟨x, ty, bs⟩] }
            match v with
            | none => .ok S'
            | some p => match pEqualsOrIff (.sym x ty) p with
              | .error e => .error e
              | .ok q => .ok { S' with support := S'.support ++ [q] }
        else .ok { S with table := S.table ++ [(x, ⟨v.map simp, ty, false⟩)] }

/-- `visitAssign_item` (visitor.py:196-225).  The branch for decision variables (line 223, with an undefined name) is never
reached, because they have a value; it is kept as a NameError. -/
def mAssign (simp : Pt → Pt) (S : MState) (x : String) (e : MExpr) : Except PyErr MState :=
  match mExpr S.table e with
  | .error e => .error e
  | .ok v => match S.table.get x with
    | none => .error .parseError
    | some i =>
      if i.value.isSome then .error .parseError
      else match mGiven i.var i.ty v with
        | .error e => .error e
        | .ok p => if i.var then .error .other else .ok { S with table := S.table.set x (simp p) }

/-- `visitWeight_item` (visitor.py:268-281). -/
def mWeight (S : MState) (e : MExpr) : Except PyErr MState :=
  match mExpr S.table e with
  | .error e => .error e
  | .ok v =>
    if S.weight.isSome then .error .parseError
    else match v.ty with
      | .real => .ok { S with weight := some v.value }
      | .int => match pToReal v.value with
        | .error e => .error e
        | .ok p => .ok { S with weight := some p }
      | .bool => .error .parseError

/-- What an included file leaves behind (visitor.py:98-114).  The lists of variables are shared with the included visitor, the table
is replaced by its table. -/
def mAfter (simp : Pt → Pt) (S C : MState) : Except PyErr MState :=
  match pAnd C.support with
  | .error e => .error e
  | .ok f =>
    let w := simp (C.weight.getD (.realC 1))
    .ok { S with
      table := C.table
      bools := C.bools
      reals := C.reals
      support := S.support ++ [simp f]
      queries := S.queries ++ C.queries
      weight := match w with
        | .realC q => if q = 1 then S.weight else some w
        | w => some w }

mutual
/-- `visitItem` (visitor.py:83-84) and the items. -/
def mItem (simp : Pt → Pt) (S : MState) : MItem → Except PyErr MState
  | .incl is => match mItems simp (.init S.bools S.reals S.weight) is with
    | .error e => .error e
    | .ok C => mAfter simp S C
  | .decl var t x ann e => mDecl simp S var t x ann e
  | .assign x e => mAssign simp S x e
  | .constr e => match mExpr S.table e with
    | .error e => .error e
    | .ok v => if v.ty ≠ .bool then .error .parseError else .ok { S with support := S.support ++ [v.value] }
  | .weight e => mWeight S e
  | .query e => match mExpr S.table e with
    | .error e => .error e
    | .ok v => if v.ty ≠ .bool then .error .parseError else .ok { S with queries := S.queries ++ [v.value] }
  | .annotated i => mItem simp S i
  | .other => .error .parseError
/-- The items of a file. -/
def mItems (simp : Pt → Pt) (S : MState) : List MItem → Except PyErr MState
  | [] => .ok S
  | i :: is => match mItem simp S i with
    | .error e => .error e
    | .ok S' => mItems simp S' is
end

/-- What the reader returns (without the table). -/
structure MResult where
  support : Pt
  weight : Pt
  bools : List String
  reals : List MReal
  queries : List Pt

/-- `MinizincParser.parse` and `visitMinizinc` (minizincParser.py:13-35, visitor.py:69-79). -/
def parseMzn (simp : Pt → Pt) (A : List String) (X : List MReal) (w : Option Pt) (is : List MItem) : Except PyErr MResult :=
  match mItems simp (.init A X w) is with
  | .error e => .error e
  | .ok S => match pAnd S.support with
    | .error e => .error e
    | .ok f => .ok ⟨simp f, simp (S.weight.getD (.realC 1)), S.bools, S.reals, S.queries⟩

end Pywmi
