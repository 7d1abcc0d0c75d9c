import Verif.Smt.Transform

set_option linter.unusedSectionVars false
set_option linter.unusedSimpArgs false

/-!
# The nested string format

Model of /repo/pywmi/parse.py: tokenizer, tree builder, conversion of trees to formulas, and the printer.  Strings
are lists of characters.  Printing a real constant (`str(float(value))`) and reading it (`float(text)`) are the
parameters `showReal` and `readReal`.
-/

namespace Pywmi
open Formula Prog

/-- A token: a string without white space. -/
abbrev Tok := List Char

/-- White space for Python's `str.split()` (ASCII and the Unicode separators). -/
def isWs (c : Char) : Bool :=
  c.toNat ∈ [9, 10, 11, 12, 13, 28, 29, 30, 31, 32, 133, 160, 5760, 8192, 8193, 8194, 8195, 8196, 8197, 8198, 8199,
    8200, 8201, 8202, 8232, 8233, 8239, 8287, 12288]

/-- `str.replace` of one character (used at /repo/pywmi/parse.py:26). -/
def replaceChar (c : Char) (by' : List Char) (s : List Char) : List Char :=
  s.flatMap fun d => if d = c then by' else [d]

/-- `str.split()`: the maximal runs without white space; `acc` is the run being read. -/
def words (acc : List Char) : List Char → List Tok
  | [] => if acc = [] then [] else [acc]
  | c :: cs =>
    if isWs c then (if acc = [] then words [] cs else acc :: words [] cs)
    else words (acc ++ [c]) cs

/-- `tokenize` (/repo/pywmi/parse.py:24-26). -/
def tokenize (s : List Char) : List Tok :=
  words [] (replaceChar ')' [' ', ')', ' '] (replaceChar '(' [' ', '(', ' '] s))

/-- `Node` (/repo/pywmi/parse.py:7-16). -/
inductive Ast where
  | node (name : Option Tok) (children : List Ast)

/-- State of `tokenized_string_to_ast`: the open nodes (innermost first) and the last closed root.  Simplification:
the code appends a node to its parent when it is opened and then mutates it; the model appends it when it is closed,
which gives the same tree because only the innermost open node is ever changed. -/
structure BuildSt where
  stack : List (Option Tok × List Ast)
  root : Option Ast

/-- `SmtParser.operators` (/repo/pywmi/parse.py:62). -/
def nestedOperators : List Tok :=
  ["ite".toList, ['^'], ['~'], ['&'], ['|'], ['*'], ['+'], ['-'], "exp".toList, ['<', '='], ['<'], ['>'], ['>', '='],
    ['-', '>'], ['='], "const".toList, "var".toList]

/-- One iteration of the loop of `tokenized_string_to_ast` (/repo/pywmi/parse.py:33-49), with the operators of
`SmtParser`. -/
def buildStep (st : BuildSt) (t : Tok) : Except PyErr BuildSt :=
  if t = ['('] then .ok { st with stack := (none, []) :: st.stack }
  else if t = [')'] then
    match st.stack with
    | [] => .error .indexError
    | [(n, cs)] => .ok ⟨[], some (.node n cs)⟩
    | (n, cs) :: (n', cs') :: rest => .ok { st with stack := (n', cs' ++ [.node n cs]) :: rest }
  else
    match st.stack with
    | [] => .error .attributeError
    | (some n, cs) :: rest => .ok { st with stack := (some n, cs ++ [.node (some t) []]) :: rest }
    | (none, cs) :: rest =>
      if t ∈ nestedOperators then .ok { st with stack := (some t, cs) :: rest } else .error .runtimeError

/-- The tree of the open nodes, when the string ends before they are closed. -/
def collapse : Ast → List (Option Tok × List Ast) → Ast
  | a, [] => a
  | a, (n, cs) :: rest => collapse (.node n (cs ++ [a])) rest

/-- The loop. -/
def buildLoop : BuildSt → List Tok → Except PyErr BuildSt
  | st, [] => .ok st
  | st, t :: ts =>
    match buildStep st t with
    | .ok st' => buildLoop st' ts
    | .error e => .error e

/-- `tokenized_string_to_ast` (/repo/pywmi/parse.py:29-50); `none` is Python's `None`. -/
def buildAst (ts : List Tok) : Except PyErr (Option Ast) :=
  match buildLoop ⟨[], none⟩ ts with
  | .error e => .error e
  | .ok st =>
    match st.stack with
    | [] => .ok st.root
    | (n, cs) :: rest => .ok (some (collapse (.node n cs) rest))

mutual
/-- pysmt's type checker, run for every node that is created. -/
def tyOf : Formula → Option Ty
  | .and as => if allTy .bool as then some .bool else none
  | .or as => if allTy .bool as then some .bool else none
  | .implies l r => if tyOf l = some .bool ∧ tyOf r = some .bool then some .bool else none
  | .not a => if tyOf a = some .bool then some .bool else none
  | .times as => if allTy .real as then some .real else none
  | .plus as => if allTy .real as then some .real else none
  | .minus l r => if tyOf l = some .real ∧ tyOf r = some .real then some .real else none
  | .ite c t e => if tyOf c = some .bool ∧ tyOf t = tyOf e then tyOf t else none
  | .pow b e => if tyOf b = some .real ∧ tyOf e = some .real then some .real else none
  | .le l r => if tyOf l = some .real ∧ tyOf r = some .real then some .bool else none
  | .lt l r => if tyOf l = some .real ∧ tyOf r = some .real then some .bool else none
  | .equals l r => if tyOf l = some .real ∧ tyOf r = some .real then some .bool else none
  | .iff l r => if tyOf l = some .bool ∧ tyOf r = some .bool then some .bool else none
  | .sym _ t => some t
  | .boolC _ => some .bool
  | .realC _ => some .real
/-- All formulas of a list have the type. -/
def allTy (ty : Ty) : List Formula → Bool
  | [] => true
  | a :: as => tyOf a == some ty && allTy ty as
end

/-- Creation of a node by pysmt: a node that does not type-check raises PysmtTypeError. -/
def checked (f : Formula) : Except PyErr Formula := if (tyOf f).isSome then .ok f else .error .typeError

/-- `checked` after a constructor that can raise itself. -/
def checkedE (x : Except PyErr Formula) : Except PyErr Formula :=
  match x with
  | .ok f => checked f
  | .error e => .error e

/-- The branches of `ast_to_smt` for operators applied to converted children (/repo/pywmi/parse.py:88-117); the
arity check `convert_children(number)` comes first, see `arityOk`.  `exp` is not modelled (an error here). -/
def applyOp (n : Tok) (as : List Formula) : Except PyErr Formula :=
  if n = "ite".toList then match as with | [c, t, e] => checked (.ite c t e) | _ => .error .other
  else if n = ['~'] then match as with | [a] => checked (mkNot a) | _ => .error .other
  else if n = ['^'] then match as with | [b, e] => checkedE (mkPow b e) | _ => .error .other
  else if n = ['&'] then checked (mkAnd as)
  else if n = ['|'] then checked (mkOr as)
  else if n = ['*'] then checkedE (mkTimes as)
  else if n = ['+'] then checkedE (mkPlus as)
  else if n = ['-'] then match as with | [l, r] => checked (.minus l r) | _ => .error .other
  else if n = ['<', '='] then match as with | [l, r] => checked (.le l r) | _ => .error .other
  else if n = ['>', '='] then match as with | [l, r] => checked (.le r l) | _ => .error .other
  else if n = ['<'] then match as with | [l, r] => checked (.lt l r) | _ => .error .other
  else if n = ['>'] then match as with | [l, r] => checked (.lt r l) | _ => .error .other
  else if n = ['='] then match as with | [l, r] => checked (.equals l r) | _ => .error .other
  else .error .runtimeError

/-- The arity check of `convert_children` (/repo/pywmi/parse.py:83-86). -/
def arityOk (n : Tok) (k : ℕ) : Bool :=
  if n = "ite".toList then k == 3
  else if n = ['~'] then k == 1
  else if n ∈ [['^'], ['-'], ['<', '='], ['>', '='], ['<'], ['>'], ['=']] then k == 2
  else true

/-- The name of a tree. -/
def Ast.name : Ast → Option Tok
  | .node n _ => n

/-- The branch `const` (/repo/pywmi/parse.py:118-125): `bool(text)` is true for every non-empty text and for no
`None`; `float(None)` is a TypeError. -/
def constToSmt (readReal : Tok → Option ℚ) (cs : List Ast) : Except PyErr Formula :=
  match cs with
  | [a, b] =>
    if a.name = some "bool".toList then
      match b.name with
      | some v => .ok (.boolC (v ≠ []))
      | none => .ok (.boolC false)
    else if a.name = some "real".toList then
      match b.name with
      | some v => match readReal v with
        | some q => .ok (.realC q)
        | none => .error .valueError
      | none => .error .typeError
    else .error .other
  | _ => .error .valueError

/-- The branch `var` (/repo/pywmi/parse.py:126-134).  pysmt's check that a name keeps one type is not modelled. -/
def varToSmt (cs : List Ast) : Except PyErr Formula :=
  match cs with
  | [a, b] =>
    if a.name = some "bool".toList then
      match b.name with
      | some v => .ok (.sym (String.ofList v) .bool)
      | none => .error .typeError
    else if a.name = some "real".toList then
      match b.name with
      | some v => .ok (.sym (String.ofList v) .real)
      | none => .error .typeError
    else .error .other
  | _ => .error .valueError

mutual
/-- `SmtParser.ast_to_smt` (/repo/pywmi/parse.py:77-136). -/
def astToSmt (readReal : Tok → Option ℚ) : Ast → Except PyErr Formula
  | .node none _ => .error .runtimeError
  | .node (some n) cs =>
    if n = "const".toList then constToSmt readReal cs
    else if n = "var".toList then varToSmt cs
    else if n ∈ [['-', '>'], "exp".toList] ∨ n ∉ nestedOperators then .error .runtimeError
    else if arityOk n cs.length = false then .error .other
    else
      match astListToSmt readReal cs with
      | .ok as => applyOp n as
      | .error e => .error e
/-- The children, left to right. -/
def astListToSmt (readReal : Tok → Option ℚ) : List Ast → Except PyErr (List Formula)
  | [] => .ok []
  | c :: cs =>
    match astToSmt readReal c with
    | .ok f =>
      match astListToSmt readReal cs with
      | .ok fs => .ok (f :: fs)
      | .error e => .error e
    | .error e => .error e
end

/-- `nested_to_smt` (/repo/pywmi/parse.py:53-54, 67-68); `None.name` is an AttributeError. -/
def nestedToSmt (readReal : Tok → Option ℚ) (s : List Char) : Except PyErr Formula :=
  match buildAst (tokenize s) with
  | .error e => .error e
  | .ok none => .error .attributeError
  | .ok (some a) => astToSmt readReal a

/-- `combined_nested_to_wmi` (/repo/pywmi/parse.py:57-58, 70-74). -/
def combinedToWmi (readReal : Tok → Option ℚ) (s : List Char) : Except PyErr (Formula × Formula) :=
  match buildAst (tokenize s) with
  | .error e => .error e
  | .ok none => .error .attributeError
  | .ok (some (.node n cs)) =>
    match cs with
    | [] => .error .indexError
    | c :: rest =>
      match astToSmt readReal c with
      | .error e => .error e
      | .ok f =>
        match astToSmt readReal (.node n rest) with
        | .error e => .error e
        | .ok g => .ok (f, g)

/-- `" ".join(parts)`. -/
def joinSp : List (List Char) → List Char
  | [] => []
  | [a] => a
  | a :: b :: as => a ++ ' ' :: joinSp (b :: as)

/-- `convert_children` of the printer (/repo/pywmi/parse.py:149-150). -/
def printOp (op : Tok) (args : List (List Char)) : List Char := '(' :: op ++ ' ' :: joinSp args ++ [')']

/-- `format_type` (/repo/pywmi/parse.py:152-159). -/
def tyName : Ty → Tok
  | .bool => "bool".toList
  | .real => "real".toList

/-- `smt_to_nested` (/repo/pywmi/parse.py:139-201), written with the dispatcher of `SmtWalker`, which rewrites
implications and equivalences in the same way.  `exp` and integers are not modelled. -/
def nestedW (showReal : ℚ → Tok) : Walker (List Char) where
  onAnd as := .callAll as fun rs => .done (printOp ['&'] rs)
  onOr as := .callAll as fun rs => .done (printOp ['|'] rs)
  onNot a := .call a fun r => .done (printOp ['~'] [r])
  onTimes as := .callAll as fun rs => .done (printOp ['*'] rs)
  onPlus as := .callAll as fun rs => .done (printOp ['+'] rs)
  onMinus l r := call2 l r fun a b => .ok (printOp ['-'] [a, b])
  onIte i t e := .call i fun a => .call t fun b => .call e fun d => .done (printOp "ite".toList [a, b, d])
  onPow b e := if e = .realC 1 then .call b .done else call2 b e fun a d => .ok (printOp ['^'] [a, d])
  onLte l r := call2 l r fun a b => .ok (printOp ['<', '='] [a, b])
  onLt l r := call2 l r fun a b => .ok (printOp ['<'] [a, b])
  onEquals l r := call2 l r fun a b => .ok (printOp ['='] [a, b])
  onSymbol n t := .done (printOp "var".toList [tyName t, n.toList])
  onBool b := .done (printOp "const".toList ["bool".toList, if b then "True".toList else "False".toList])
  onReal q := .done (printOp "const".toList ["real".toList, showReal q])

/-- `smt_to_nested`. -/
def smtToNested (showReal : ℚ → Tok) (f : Formula) : Except PyErr (List Char) := (nestedW showReal).walk f

/-! ### Tokens of printed trees -/

/-- A token that survives tokenizing: not empty, no white space, no parenthesis. -/
def TokSafe (t : Tok) : Prop := t ≠ [] ∧ ∀ c ∈ t, isWs c = false ∧ c ≠ '(' ∧ c ≠ ')'

instance (t : Tok) : Decidable (TokSafe t) := by unfold TokSafe; infer_instance

/-- The two replacements. -/
def pad (s : List Char) : List Char := replaceChar ')' [' ', ')', ' '] (replaceChar '(' [' ', '(', ' '] s)

theorem tokenize_eq (s : List Char) : tokenize s = words [] (pad s) := rfl

theorem pad_nil : pad [] = [] := rfl
theorem pad_open (s : List Char) : pad ('(' :: s) = ' ' :: '(' :: ' ' :: pad s := by
  simp [pad, replaceChar]
theorem pad_close (s : List Char) : pad (')' :: s) = ' ' :: ')' :: ' ' :: pad s := by
  simp [pad, replaceChar]
theorem pad_other {c : Char} (h1 : c ≠ '(') (h2 : c ≠ ')') (s : List Char) : pad (c :: s) = c :: pad s := by
  simp [pad, replaceChar, h1, h2]

theorem pad_tok {t : Tok} (h : ∀ c ∈ t, isWs c = false ∧ c ≠ '(' ∧ c ≠ ')') (s : List Char) :
    pad (t ++ s) = t ++ pad s := by
  induction t with
  | nil => rfl
  | cons c t ih =>
    have hc := h c (by simp)
    rw [List.cons_append, pad_other hc.2.1 hc.2.2, ih fun d hd => h d (by simp [hd])]
    rfl

theorem words_tok {t : Tok} (h : ∀ c ∈ t, isWs c = false) (acc s : List Char) :
    words acc (t ++ s) = words (acc ++ t) s := by
  induction t generalizing acc with
  | nil => simp
  | cons c t ih =>
    rw [List.cons_append, words, if_neg (by simp [h c (by simp)]), ih fun d hd => h d (by simp [hd])]
    simp

theorem isWs_space : isWs ' ' = true := by decide
theorem isWs_open : isWs '(' = false := by decide
theorem isWs_close : isWs ')' = false := by decide

theorem words_space (s : List Char) : words [] (' ' :: s) = words [] s := by
  simp [words, isWs_space]

theorem words_tok_space {t : Tok} (h : TokSafe t) (s : List Char) :
    words [] (t ++ ' ' :: s) = t :: words [] s := by
  rw [words_tok fun c hc => (h.2 c hc).1, List.nil_append, words, if_pos isWs_space, if_neg h.1]

theorem tokenize_open (s : List Char) : tokenize ('(' :: s) = ['('] :: tokenize s := by
  rw [tokenize_eq, pad_open, words_space, words, if_neg (by simp [isWs_open]), List.nil_append, words,
    if_pos isWs_space, if_neg (by simp), tokenize_eq]

theorem tokenize_close (s : List Char) : tokenize (')' :: s) = [')'] :: tokenize s := by
  rw [tokenize_eq, pad_close, words_space, words, if_neg (by simp [isWs_close]), List.nil_append, words,
    if_pos isWs_space, if_neg (by simp), tokenize_eq]

theorem tokenize_space (s : List Char) : tokenize (' ' :: s) = tokenize s := by
  rw [tokenize_eq, pad_other (by decide) (by decide), words_space, tokenize_eq]

/-- A safe token before a space or a closing parenthesis is read as one token. -/
theorem tokenize_tok {t : Tok} (h : TokSafe t) {s : List Char}
    (hs : ∃ s', s = ' ' :: s' ∨ s = ')' :: s') : tokenize (t ++ s) = t :: tokenize s := by
  obtain ⟨s', rfl | rfl⟩ := hs
  · rw [tokenize_eq, pad_tok h.2, pad_other (by decide) (by decide), words_tok_space h, tokenize_space, tokenize_eq]
  · rw [tokenize_eq, pad_tok h.2, pad_close, words_tok_space h, tokenize_close]
    congr 1

mutual
/-- The text of a tree: leaves are tokens, inner nodes are parenthesised. -/
def showAst : Ast → List Char
  | .node n [] => n.getD []
  | .node n (c :: cs) => '(' :: n.getD [] ++ showTail (c :: cs) ++ [')']
/-- The children, each after a space. -/
def showTail : List Ast → List Char
  | [] => []
  | c :: cs => ' ' :: showAst c ++ showTail cs
end

mutual
/-- The tokens of a tree. -/
def toksOf : Ast → List Tok
  | .node n [] => [n.getD []]
  | .node n (c :: cs) => ['('] :: n.getD [] :: toksTail (c :: cs) ++ [[')']]
/-- The tokens of the children. -/
def toksTail : List Ast → List Tok
  | [] => []
  | c :: cs => toksOf c ++ toksTail cs
end

mutual
/-- Trees that the printer produces: every name is a safe token, inner nodes are operators. -/
def AstOk : Ast → Prop
  | .node n [] => ∃ t, n = some t ∧ TokSafe t
  | .node n (c :: cs) => (∃ t, n = some t ∧ TokSafe t ∧ t ∈ nestedOperators) ∧ AstAllOk (c :: cs)
/-- All trees of a list. -/
def AstAllOk : List Ast → Prop
  | [] => True
  | c :: cs => AstOk c ∧ AstAllOk cs
end

theorem astAllOk_iff (cs : List Ast) : AstAllOk cs ↔ ∀ c ∈ cs, AstOk c := by
  induction cs with
  | nil => simp [AstAllOk]
  | cons c cs ih => simp [AstAllOk, ih]

theorem tokenize_show_aux (a : Ast) : AstOk a → ∀ s, (∃ s', s = ' ' :: s' ∨ s = ')' :: s') ∨ a.casesOn (fun _ cs => cs ≠ []) →
    tokenize (showAst a ++ s) = toksOf a ++ tokenize s := by
  refine Ast.rec (motive_1 := fun a => AstOk a → ∀ s, (∃ s', s = ' ' :: s' ∨ s = ')' :: s') ∨
      a.casesOn (fun _ cs => cs ≠ []) → tokenize (showAst a ++ s) = toksOf a ++ tokenize s)
    (motive_2 := fun cs => AstAllOk cs → ∀ s, (∃ s', s = ' ' :: s' ∨ s = ')' :: s') →
      tokenize (showTail cs ++ s) = toksTail cs ++ tokenize s) ?_ ?_ ?_ a
  · intro n cs ih hok s hs
    cases cs with
    | nil =>
      obtain ⟨t, rfl, ht⟩ := by simpa [AstOk] using hok
      rcases hs with hs | hs
      · simpa [showAst, toksOf] using tokenize_tok ht hs
      · exact absurd rfl hs
    | cons c cs =>
      obtain ⟨⟨t, rfl, ht, -⟩, hall⟩ := by simpa only [AstOk] using hok
      have h1 : ∃ s', showTail (c :: cs) ++ (')' :: s) = ' ' :: s' ∨ showTail (c :: cs) ++ (')' :: s) = ')' :: s' :=
        ⟨showAst c ++ showTail cs ++ (')' :: s), .inl (by simp [showTail])⟩
      simp only [showAst, toksOf, Option.getD_some, List.cons_append, List.append_assoc, List.nil_append]
      rw [tokenize_open, tokenize_tok ht h1, ih hall _ ⟨s, .inr rfl⟩, tokenize_close]
  · intro _ s _; simp [showTail, toksTail]
  · intro c cs ihc ihcs hok s hs
    obtain ⟨h1, h2⟩ := by simpa only [AstAllOk] using hok
    simp only [showTail, toksTail, List.cons_append, List.append_assoc]
    rw [tokenize_space]
    have hnext : ∃ s', showTail cs ++ s = ' ' :: s' ∨ showTail cs ++ s = ')' :: s' := by
      cases cs with
      | nil => simpa [showTail] using hs
      | cons d ds => exact ⟨showAst d ++ showTail ds ++ s, .inl (by simp [showTail])⟩
    rw [ihc h1 _ (.inl hnext), ihcs h2 s hs]

/-! ### Building the tree of printed tokens -/

theorem buildLoop_append (st : BuildSt) (ts us : List Tok) : buildLoop st (ts ++ us) =
    match buildLoop st ts with | .ok st' => buildLoop st' us | .error e => .error e := by
  induction ts generalizing st with
  | nil => rfl
  | cons t ts ih =>
    simp only [List.cons_append, buildLoop]
    cases buildStep st t with
    | ok st' => exact ih st'
    | error e => rfl

theorem tokSafe_not_paren {t : Tok} (h : TokSafe t) : t ≠ ['('] ∧ t ≠ [')'] := by
  constructor
  · rintro rfl; exact (h.2 '(' (by simp)).2.1 rfl
  · rintro rfl; exact (h.2 ')' (by simp)).2.2 rfl

/-- Reading the tokens of a tree below an open named node appends the tree to its children. -/
theorem build_child (a : Ast) : AstOk a → ∀ (n : Tok) (cs : List Ast) (rest : List (Option Tok × List Ast)) (r : Option Ast),
    buildLoop ⟨(some n, cs) :: rest, r⟩ (toksOf a) = .ok ⟨(some n, cs ++ [a]) :: rest, r⟩ := by
  refine Ast.rec (motive_1 := fun a => AstOk a → ∀ (n : Tok) (cs : List Ast) (rest : List (Option Tok × List Ast))
      (r : Option Ast), buildLoop ⟨(some n, cs) :: rest, r⟩ (toksOf a) = .ok ⟨(some n, cs ++ [a]) :: rest, r⟩)
    (motive_2 := fun as => AstAllOk as → ∀ (n : Tok) (cs : List Ast) (rest : List (Option Tok × List Ast))
      (r : Option Ast), buildLoop ⟨(some n, cs) :: rest, r⟩ (toksTail as) = .ok ⟨(some n, cs ++ as) :: rest, r⟩)
    ?_ ?_ ?_ a
  · intro m bs ih hok n cs rest r
    cases bs with
    | nil =>
      obtain ⟨t, rfl, ht⟩ := by simpa [AstOk] using hok
      have := tokSafe_not_paren ht
      simp [toksOf, buildLoop, buildStep, this.1, this.2]
    | cons b bs =>
      obtain ⟨⟨t, rfl, ht, hop⟩, hall⟩ := by simpa only [AstOk] using hok
      have hp := tokSafe_not_paren ht
      simp only [toksOf, Option.getD_some, List.cons_append, buildLoop, buildStep, if_true, hp.1, hp.2, if_false, hop]
      rw [buildLoop_append, ih hall]
      simp [buildLoop, buildStep]
  · intro _ n cs rest r; simp [toksTail, buildLoop]
  · intro b bs ihb ihbs hok n cs rest r
    obtain ⟨h1, h2⟩ := by simpa only [AstAllOk] using hok
    rw [toksTail, buildLoop_append, ihb h1]
    simp only [ihbs h2, List.append_assoc, List.singleton_append]

/-- Reading the text of a tree gives the tree. -/
theorem buildAst_show {n : Option Tok} {c : Ast} {cs : List Ast} (h : AstOk (.node n (c :: cs))) :
    buildAst (tokenize (showAst (.node n (c :: cs)))) = .ok (some (.node n (c :: cs))) := by
  have h1 := tokenize_show_aux _ h [] (.inr (by simp))
  rw [List.append_nil] at h1
  rw [h1]
  obtain ⟨⟨t, rfl, ht, hop⟩, hall⟩ := by simpa only [AstOk] using h
  have hp := tokSafe_not_paren ht
  have htail : ∀ (as : List Ast), AstAllOk as → ∀ cs rest r,
      buildLoop ⟨(some t, cs) :: rest, r⟩ (toksTail as) = .ok ⟨(some t, cs ++ as) :: rest, r⟩ := by
    intro as
    induction as with
    | nil => intro _ cs rest r; simp [toksTail, buildLoop]
    | cons b bs ih =>
      intro hok cs rest r
      obtain ⟨h1, h2⟩ := by simpa only [AstAllOk] using hok
      rw [toksTail, buildLoop_append, build_child b h1]
      simp only [ih h2, List.append_assoc, List.singleton_append]
  have htok : tokenize [] = [] := rfl
  simp only [htok, List.append_nil, toksOf, Option.getD_some, List.cons_append, buildAst, buildLoop, buildStep, if_true,
    hp.1, hp.2, if_false, hop]
  rw [buildLoop_append, htail _ hall]
  simp [buildLoop, buildStep]

/-! ### Types -/

theorem allTy_iff (ty : Ty) (as : List Formula) : allTy ty as = true ↔ ∀ a ∈ as, tyOf a = some ty := by
  induction as with
  | nil => simp [allTy]
  | cons a as ih => simp [allTy, ih]

theorem wt_tyOf (f : Formula) : ∀ ty, wt ty f = true → tyOf f = some ty := by
  induction f using Formula.induct with
  | and as ih | or as ih =>
    intro ty h; cases ty <;> simp [wt, wtAll_iff] at h
    simp only [tyOf]; rw [if_pos ((allTy_iff _ _).mpr fun a ha => ih a ha _ (h.2 a ha))]
  | times as ih | plus as ih =>
    intro ty h; cases ty <;> simp [wt, wtAll_iff] at h
    simp only [tyOf]; rw [if_pos ((allTy_iff _ _).mpr fun a ha => ih a ha _ (h.2 a ha))]
  | implies l r ihl ihr | iff l r ihl ihr =>
    intro ty h; cases ty <;> simp [wt] at h
    simp [tyOf, ihl _ h.1, ihr _ h.2]
  | not a ih => intro ty h; cases ty <;> simp [wt] at h; simp [tyOf, ih _ h]
  | minus l r ihl ihr =>
    intro ty h; cases ty <;> simp [wt] at h
    simp [tyOf, ihl _ h.1, ihr _ h.2]
  | le l r ihl ihr | lt l r ihl ihr | equals l r ihl ihr =>
    intro ty h; cases ty <;> simp [wt] at h
    simp [tyOf, ihl _ h.1, ihr _ h.2]
  | ite c t e ihc iht ihe =>
    intro ty h
    have h' : wt .bool c = true ∧ wt ty t = true ∧ wt ty e = true := by
      cases ty <;> simpa [wt, and_assoc] using h
    simp [tyOf, ihc _ h'.1, iht _ h'.2.1, ihe _ h'.2.2]
  | pow b e ihb _ =>
    intro ty h
    cases ty with
    | bool => simp [wt] at h
    | real =>
      cases e with
      | realC q =>
        simp only [wt, Bool.and_eq_true] at h
        simp [tyOf, ihb _ h.1]
      | _ => simp [wt] at h
  | sym n t => intro ty h; cases ty <;> cases t <;> simp [wt] at h <;> rfl
  | boolC b => intro ty h; cases ty <;> simp [wt] at h; rfl
  | realC q => intro ty h; cases ty <;> simp [wt] at h; rfl

theorem checked_wt {ty : Ty} {f : Formula} (h : wt ty f = true) : checked f = .ok f := by
  simp [checked, wt_tyOf f ty h]

theorem nestedW_decr (showReal : ℚ → Tok) : (nestedW showReal).Decr := by
  refine Walker.decr_of ?_ ?_ ?_ ?_ ?_ ?_ ?_ ?_ ?_ ?_ ?_ ?_ ?_ ?_ ?_
  · exact fun as n h => callsBelow_callAll h fun _ => trivial
  · exact fun as n h => callsBelow_callAll h fun _ => trivial
  · exact fun as n h => callsBelow_callAll h fun _ => trivial
  · exact fun as n h => callsBelow_callAll h fun _ => trivial
  · exact fun a n h => ⟨h, fun _ => trivial⟩
  · exact fun l r => call2_below (by simp only [msize]; omega) (by simp only [msize]; omega) _
  · exact fun c t e n hc ht he => ⟨hc, fun _ => ⟨ht, fun _ => ⟨he, fun _ => trivial⟩⟩⟩
  · intro l r n hl hr
    simp only [nestedW]
    split
    · exact ⟨hl, fun _ => trivial⟩
    · exact call2_below hl hr _
  · exact fun l r n hl hr => call2_below hl hr _
  · exact fun l r n hl hr => call2_below hl hr _
  · exact fun l r n hl hr => call2_below hl hr _
  · exact fun m t n => trivial
  · exact fun b n => trivial
  · exact fun q n => trivial
  · exact fun l r => Walker.implies_default_below l r

theorem joinSp_show (c : Ast) (cs : List Ast) : ' ' :: joinSp ((c :: cs).map showAst) = showTail (c :: cs) := by
  induction cs generalizing c with
  | nil => simp [joinSp, showTail]
  | cons d ds ih =>
    have := ih d
    simp only [List.map_cons, joinSp] at this ⊢
    rw [this, showTail, showTail]
    simp [showTail]

theorem printOp_show (op : Tok) (c : Ast) (cs : List Ast) :
    printOp op ((c :: cs).map showAst) = showAst (.node (some op) (c :: cs)) := by
  unfold printOp
  rw [showAst, ← joinSp_show]
  simp

end Pywmi
