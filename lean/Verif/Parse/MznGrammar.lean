import Verif.Parse.Minizinc

set_option linter.unusedSectionVars false

/-!
# The precedence of the operators of MiniZinc expressions

The left-recursive rule `expr` of /repo/pywmi/parser/minizinc/minizinc.g4:122-130.  ANTLR turns such a rule into a loop: an operator
of the n-th alternative from the end has precedence n, its right operand is read with precedence n + 1.  Operands (the rule
`expr_atom`: literals, names, brackets, conditions, each with its signs) are given.
-/

namespace Pywmi

/-- The precedence of the alternatives of the rule `expr` (minizinc.g4:126-130): earlier alternatives bind tighter.  The operators
that the visitor rejects anyway are left out (`other`). -/
def ZOp.level : ZOp → ℕ
  | .div => 17
  | .mult => 16
  | .minus => 15
  | .plus => 14
  | .nq => 13
  | .eq => 12
  | .eqeq => 11
  | .ge => 10
  | .le => 9
  | .gt => 8
  | .lt => 7
  | .and => 6
  | .xor => 5
  | .or => 4
  | .rimpl => 3
  | .impl => 2
  | .equiv => 1
  | .other => 18

/-- A tree of the rule `expr`. -/
inductive GTree (α : Type)
  | leaf (a : α)
  | node (op : ZOp) (l r : GTree α)

/-- The loop that ANTLR generates for the rule `expr` (minizinc.g4:122-130): the tree read so far is the left operand of the next
operator, if its precedence is high enough.  `fuel` counts the calls. -/
def climb {α : Type} : ℕ → ℕ → GTree α → List (ZOp × α) → GTree α × List (ZOp × α)
  | 0, _, left, rest => (left, rest)
  | _ + 1, _, left, [] => (left, [])
  | fuel + 1, p, left, (op, a) :: rest =>
    if p ≤ op.level then
      let (right, rest') := climb fuel (op.level + 1) (.leaf a) rest
      climb fuel p (.node op left right) rest'
    else (left, (op, a) :: rest)

/-- The tree of an expression: an operand, then operators with operands. -/
def groupExpr {α : Type} (a : α) (ts : List (ZOp × α)) : GTree α := (climb (ts.length + 1) 0 (.leaf a) ts).1

/-- The tree as the visitor gets it. -/
def GTree.toExpr : GTree MExpr → MExpr
  | .leaf a => a
  | .node op l r => .bin op l.toExpr r.toExpr

end Pywmi
