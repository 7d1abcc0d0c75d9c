import Verif.Xadd.Walk

set_option linter.unusedSectionVars false

/-!
# Operators of diagrams

Model of the operators of `Diagram` (/repo/pywmi/engines/pyxadd/core.py:415-450, 471-488, 539-605).  Several pools may exist; a
diagram is the number of its pool and the id of its root.
-/

namespace Pywmi

/-- `Diagram` (/repo/pywmi/engines/pyxadd/core.py:415-429). -/
structure Diagram where
  pool : ℕ
  root : ℕ
deriving DecidableEq, Repr

/-- The pools of a program. -/
def Heap (E : Type) := ℕ → Pool E
/-- The heap after a change of pool `i`. -/
def Heap.setPool {E : Type} (h : Heap E) (i : ℕ) (q : Pool E) : Heap E := fun j => if j = i then q else h j

section
variable {E : Type} [DecidableEq E]

/-- `Diagram(pool, id)` for the id that a method of the pool returns (/repo/pywmi/engines/pyxadd/core.py:418-428). -/
def onPool (i : ℕ) (m : XM E ℕ) (h : Heap E) : Except PyErr Diagram × Heap E :=
  match m (h i) with
  | (.error e, q) => (.error e, h.setPool i q)
  | (.ok r, q) =>
    match getNode r q with
    | (.error e, q) => (.error e, h.setPool i q)
    | (.ok _, q) => (.ok ⟨i, r⟩, h.setPool i q)

/-- `__add__`, `__mul__`, `__or__` and `__and__` (/repo/pywmi/engines/pyxadd/core.py:542-550, 563-605).  `none` stands for an operand
that is no diagram.  A RuntimeError of `|` is raised again after both diagrams were shown, `shown` is what showing them does:
nothing, or an exception of graphviz. -/
def diagramOp (X : ℕ → XCtx E) (shown : Option PyErr) (op : XOp) (a : Diagram) (b : Option Diagram) (h : Heap E) : Except PyErr Diagram × Heap E :=
  match b with
  | none => (.error .typeError, h)
  | some b =>
    if a.pool ≠ b.pool then (.error .runtimeError, h)
    else
      match onPool a.pool (apply (X a.pool) op a.root b.root) h with
      | (.error .runtimeError, h') => (.error (if op = .or then shown.getD .runtimeError else .runtimeError), h')
      | r => r

/-- `__sub__` (/repo/pywmi/engines/pyxadd/core.py:552-561): `pool.terminal` gets a pysmt constant. -/
def diagramSub (X : ℕ → XCtx E) (shown : Option PyErr) (a : Diagram) (b : Option Diagram) (h : Heap E) : Except PyErr Diagram × Heap E :=
  match b with
  | none => (.error .typeError, h)
  | some b =>
    if a.pool ≠ b.pool then (.error .runtimeError, h)
    else
      match (terminalFNode : XM E ℕ) (h a.pool) with
      | (.error e, q) => (.error e, h.setPool a.pool q)
      | (.ok m, q) =>
        match onPool a.pool (apply (X a.pool) .mul m b.root) (h.setPool a.pool q) with
        | (.error e, h') => (.error e, h')
        | (.ok d, h') => diagramOp X shown .add a (some d) h'

/-- `__invert__` (/repo/pywmi/engines/pyxadd/core.py:539-540). -/
def diagramInvert (X : ℕ → XCtx E) (a : Diagram) (h : Heap E) : Except PyErr Diagram × Heap E := onPool a.pool (invert (X a.pool) a.root) h

/-- Expressions with diagrams: what a user writes with operators.  `other` is an operand that is no diagram, it can only stand
on the right: on the left its own operator is called. -/
inductive DExpr where
  | diagram (d : Diagram)
  | op (o : XOp) (a b : DExpr)
  | opOther (o : XOp) (a : DExpr)
  | sub (a b : DExpr)
  | inv (a : DExpr)

/-- Python's evaluation of an expression, operands from left to right. -/
def DExpr.run (X : ℕ → XCtx E) (shown : Option PyErr) : DExpr → Heap E → Except PyErr Diagram × Heap E
  | .diagram d, h => (.ok d, h)
  | .op o a b, h =>
    match a.run X shown h with
    | (.error e, h) => (.error e, h)
    | (.ok x, h) =>
      match b.run X shown h with
      | (.error e, h) => (.error e, h)
      | (.ok y, h) => diagramOp X shown o x (some y) h
  | .opOther o a, h =>
    match a.run X shown h with
    | (.error e, h) => (.error e, h)
    | (.ok x, h) => diagramOp X shown o x none h
  | .sub a b, h =>
    match a.run X shown h with
    | (.error e, h) => (.error e, h)
    | (.ok x, h) =>
      match b.run X shown h with
      | (.error e, h) => (.error e, h)
      | (.ok y, h) => diagramSub X shown x (some y) h
  | .inv a, h =>
    match a.run X shown h with
    | (.error e, h) => (.error e, h)
    | (.ok x, h) => diagramInvert X x h

/-- `Diagram.evaluate` (/repo/pywmi/engines/pyxadd/core.py:471-488): the methods `evaluate` of decisions and of terminal nodes
raise a NotImplementedError (/repo/pywmi/engines/pyxadd/decision.py:97-98, core.py:59-69). -/
def diagramEvaluate (n : ℕ) : XM E ℚ := do
  let x ← getNode n
  match x with
  | .inner _ _ _ => XM.fail .notImplemented
  | .leaf _ => XM.fail .notImplemented

end
end Pywmi
