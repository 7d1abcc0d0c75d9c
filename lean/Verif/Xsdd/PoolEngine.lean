import Verif.Xadd.Algebra
import Verif.Xsdd.Engine

/-!
# The XSDD engine with the algebra of diagrams

Model of `XsddEngine` without a convex back-end (/repo/pywmi/engines/xsdd/engine.py:80-127, 195-234, 322-352) for
`algebra=PyXaddAlgebra(...)`, the default without PSI (lines 295-297).  The methods of the algebra change the pool, so that the
traversal of the diagram and the loop over the pieces are computations on the pool.
-/

namespace Pywmi
open Formula

section
variable {E R : Type}

/-- A walker over SDDs whose methods use the pool (`SddWalker`, /repo/pywmi/engines/xsdd/semiring.py:11-25). -/
structure PoolWalker (E R : Type) where
  onTrue : XM E R
  onFalse : XM E R
  onAnd : R → R → XM E R
  onOr : List R → XM E R
  onLit : ℤ → XM E R

/-- A loop that collects results. -/
def XM.mapM {α β : Type} (f : α → XM E β) : List α → XM E (List β)
  | [] => pure []
  | a :: as => do
    let b ← f a
    let bs ← XM.mapM f as
    pure (b :: bs)

namespace PoolWalker

/-- The results of the elements (/repo/pywmi/engines/xsdd/semiring.py:124-140). -/
def combine (w : PoolWalker E R) (rs : List (R × R)) : XM E R := do
  let xs ← XM.mapM (fun p => w.onAnd p.1 p.2) rs
  w.onOr xs

/-- A node without children (/repo/pywmi/engines/xsdd/sdd_iterator.py:117-126, 156-160). -/
def leaf (s : Sdd) (m : XM E R) (memo : List (Sdd × R)) : XM E (R × List (Sdd × R)) :=
  match memo.lookup s with
  | some r => pure (r, memo)
  | none => do
    let r ← m
    pure (r, (s, r) :: memo)

mutual
/-- `depth_first_rec` (/repo/pywmi/engines/xsdd/sdd_iterator.py:115-161). -/
def visit (w : PoolWalker E R) : Sdd → List (Sdd × R) → XM E (R × List (Sdd × R))
  | .tt, memo => leaf .tt w.onTrue memo
  | .ff, memo => leaf .ff w.onFalse memo
  | .lit l, memo => leaf (.lit l) (w.onLit l) memo
  | .dec es, memo =>
    match memo.lookup (.dec es) with
    | some r => pure (r, memo)
    | none => do
      let x ← visitPairs w es memo
      let r ← w.combine x.1
      pure (r, (.dec es, r) :: x.2)
/-- The loop over the elements (/repo/pywmi/engines/xsdd/sdd_iterator.py:140-155). -/
def visitPairs (w : PoolWalker E R) : List (Sdd × Sdd) → List (Sdd × R) → XM E (List (R × R) × List (Sdd × R))
  | [], memo => pure ([], memo)
  | (p, s) :: es, memo => do
    let a ← visit w p memo
    let b ← visit w s a.2
    let x ← visitPairs w es b.2
    pure ((a.1, b.1) :: x.1, x.2)
end

/-- `walk` (/repo/pywmi/engines/xsdd/semiring.py:143-147). -/
def walk (w : PoolWalker E R) (s : Sdd) : XM E R := do
  let x ← w.visit s []
  pure x.1

end PoolWalker

end

section
variable {E : Type} [DecidableEq E]

/-- `NonConvexWMISemiring.times_neutral` (/repo/pywmi/engines/xsdd/engine.py:85-86). -/
def PxCtx.semiOne (P : PxCtx E) : XM E (ℕ × Finset String) := do
  let n ← P.one
  pure (n, ∅)

/-- `NonConvexWMISemiring.plus_neutral` (/repo/pywmi/engines/xsdd/engine.py:88-89). -/
def PxCtx.semiZero (P : PxCtx E) : XM E (ℕ × Finset String) := do
  let n ← P.zero
  pure (n, ∅)

/-- `NonConvexWMISemiring.times` (/repo/pywmi/engines/xsdd/engine.py:91-92). -/
def PxCtx.semiTimes (P : PxCtx E) (a b : ℕ × Finset String) : XM E (ℕ × Finset String) := do
  let n ← P.times a.1 b.1
  pure (n, a.2 ∪ b.2)

/-- `power(real(2), n)` (/repo/pywmi/engines/xsdd/engine.py:102-103, 346-348). -/
def PxCtx.boolWorlds (P : PxCtx E) (q : ℚ) : XM E ℕ := do
  let two ← P.real 2
  P.power two q

/-- `NonConvexWMISemiring.plus` (/repo/pywmi/engines/xsdd/engine.py:94-108). -/
def PxCtx.semiPlus (P : PxCtx E) (a b : ℕ × Finset String) : XM E (ℕ × Finset String) :=
  if a.2.card = b.2.card then do
    let n ← P.plus a.1 b.1
    pure (n, a.2 ∪ b.2)
  else do
    let wa ← P.boolWorlds (b.2 \ a.2).card
    let wb ← P.boolWorlds (a.2 \ b.2).card
    let x ← P.times a.1 wa
    let y ← P.times b.1 wb
    let n ← P.plus x y
    pure (n, a.2 ∪ b.2)

/-- `NonConvexWMISemiring.weight` (/repo/pywmi/engines/xsdd/engine.py:113-124). -/
def PxCtx.semiWeight (P : PxCtx E) (L : LiteralInfo) (a : ℤ) : XM E (ℕ × Finset String) := do
  let v ← XM.lift (litValue L a.natAbs)
  match v with
  | .bool name => do
    let n ← P.one
    pure (n, {name})
  | .atom f => do
    let d ← XM.lift (linFromSmt (if a < 0 then mkNot f else f))
    let n ← P.linExpr d
    pure (n, ∅)

/-- `SemiringWalker(NonConvexWMISemiring(algebra, literals))` (/repo/pywmi/engines/xsdd/semiring.py:54-79). -/
def PxCtx.walker (P : PxCtx E) (L : LiteralInfo) : PoolWalker E (ℕ × Finset String) where
  onTrue := P.semiOne
  onFalse := P.semiZero
  onAnd := P.semiTimes
  onOr
    | [] => P.semiZero
    | [r] => pure r
    | r :: rs => XM.foldM P.semiPlus r rs
  onLit := P.semiWeight L

/-- An `XsddEngine` whose algebra is a `PyXaddAlgebra`.  `o` has the other external parts and options; its algebra (`alg`, `realF`,
`toFloat`, `integrate`) is not used. -/
structure PoolOpts (E : Type) where
  P : PxCtx E
  o : XsddOpts E

namespace PoolOpts
variable (q : PoolOpts E)

/-- One piece (/repo/pywmi/engines/xsdd/engine.py:327-352). -/
def piece (D : Domain) (base : Formula) (vol : ℕ) (p : PExpr × Formula) : XM E ℕ := do
  let x ← XM.lift (extractLiterals (mkAnd [p.2, base]))
  let s ← XM.lift (compileToSdd q.o.mgr x.1 x.2 (q.o.vtree x.2))
  let r ← (q.P.walker x.2).walk s
  match p.1 with
  | .int _ => XM.fail .attributeError
  | .poly d => do
    let w ← q.P.polyExpr d
    let n ← q.P.times r.1 w
    let rs ← XM.lift D.realVars
    let v ← q.P.integrate D n rs
    let bs ← XM.lift D.boolVars
    let b ← q.P.boolWorlds ((bs.length : ℚ) - r.2.card)
    let v ← q.P.times v b
    q.P.plus vol v

/-- `compute_volume_from_pieces` (/repo/pywmi/engines/xsdd/engine.py:322-352). -/
def fromPieces (D : Domain) (base : Formula) (ps : Pieces) : XM E ℕ := do
  let z ← q.P.zero
  XM.foldM (q.piece D base) z ps

/-- One literal of the base support (/repo/pywmi/engines/xsdd/engine.py:225-228). -/
def registerLiteral (L : LiteralInfo) (_u : Unit) (lit : String) : XM E Unit := do
  let v ← XM.lift (L.getItem lit)
  match v with
  | .bool _ => pure ()
  | .atom f => do
    let _ ← boolTest q.P.C.X ⟨f, none, false⟩
    pure ()

/-- The literals of the base support are made tests, in the order of the vtree (/repo/pywmi/engines/xsdd/engine.py:220-228). -/
def registerLiterals (base : Formula) : XM E Unit := do
  let x ← XM.lift (extractLiterals base)
  let t ← XM.lift (q.o.vtree x.2)
  XM.foldM (q.registerLiteral x.2) () t.leaves

/-- `compute_volume(add_bounds=False)` (/repo/pywmi/engines/xsdd/engine.py:203-234). -/
def volumeCore (e : EngineObj) : XM E ℚ :=
  match e.weight with
  | none => XM.fail .attributeError
  | some w => do
    let base ← XM.lift (q.o.baseSupport e.support w)
    let ps ← XM.lift (splitUp q.o.simp w)
    q.registerLiterals base
    let v ← q.fromPieces e.domain base ps
    q.P.toFloat v

/-- `compute_volume` (/repo/pywmi/engines/xsdd/engine.py:195-234). -/
def computeVolume (e : EngineObj) (addBounds : Bool) : XM E ℚ :=
  if addBounds = true then do
    let b ← XM.lift e.domain.getBounds
    q.volumeCore (e.withConstraint b)
  else q.volumeCore e

end PoolOpts
end
end Pywmi
