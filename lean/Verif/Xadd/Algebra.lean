import Verif.Xadd.Engine

/-!
# The algebra of diagrams

Model of `PyXaddAlgebra` (/repo/pywmi/engines/pyxadd/algebra.py:14-80), including the methods it inherits from `AlgebraBackend`
(/repo/pywmi/engines/algebraic_backend.py:18-91).  Its values are ids of nodes, so every method is a computation on the pool.
-/

namespace Pywmi
open Formula

/-- A `PyXaddAlgebra` (/repo/pywmi/engines/pyxadd/algebra.py:21-27): `walk` is `reduce_strategy[0]`; the integrator that
`integrate` makes has the second part of the strategy. -/
structure PxCtx (E : Type) where
  C : RCtx E
  walk : Bool

/-- `try: m except NotImplementedError: h`. -/
def XM.orElse {E α : Type} (m h : XM E α) : XM E α := fun p =>
  match m p with
  | (.error .notImplemented, q) => h q
  | r => r

/-- A loop `for a in as: b = f(b, a)`. -/
def XM.foldM {E α β : Type} (f : β → α → XM E β) : β → List α → XM E β
  | b, [] => pure b
  | b, a :: as => do
    let b ← f b a
    XM.foldM f b as

namespace PxCtx
variable {E : Type} [DecidableEq E] (P : PxCtx E)

/-- `symbol` (/repo/pywmi/engines/pyxadd/algebra.py:29-30). -/
def symbol (x : String) : XM E ℕ := terminal (P.C.X.back.alg.symbol x)

/-- `real` (/repo/pywmi/engines/pyxadd/algebra.py:32-33). -/
def real (q : ℚ) : XM E ℕ := terminal (P.C.X.back.alg.real q)

/-- `to_float` (/repo/pywmi/engines/pyxadd/algebra.py:35-38). -/
def toFloat (n : ℕ) : XM E ℚ := terminalValue P.C.X n

/-- `zero` (/repo/pywmi/engines/pyxadd/algebra.py:49-50). -/
def zero (_P : PxCtx E) : XM E ℕ := do
  let p ← XM.get
  pure p.zeroId

/-- `one` (/repo/pywmi/engines/pyxadd/algebra.py:52-53). -/
def one (_P : PxCtx E) : XM E ℕ := do
  let p ← XM.get
  pure p.oneId

/-- The second part of `times` and `plus` (/repo/pywmi/engines/pyxadd/algebra.py:57-59, 63-65). -/
def reduced (n : ℕ) : XM E ℕ := if P.walk = true then reduceBy P.C.X .fastSmt n else pure n

/-- `times` (/repo/pywmi/engines/pyxadd/algebra.py:55-59). -/
def times (a b : ℕ) : XM E ℕ := do
  let n ← apply P.C.X .mul a b
  P.reduced n

/-- `plus` (/repo/pywmi/engines/pyxadd/algebra.py:61-65). -/
def plus (a b : ℕ) : XM E ℕ := do
  let n ← apply P.C.X .add a b
  P.reduced n

/-- `negate` (/repo/pywmi/engines/algebraic_backend.py:58-59). -/
def negate (a : ℕ) : XM E ℕ := do
  let m ← P.real (-1)
  P.times a m

/-- The loop of `power` (/repo/pywmi/engines/algebraic_backend.py:66-69). -/
def powLoop (a : ℕ) : ℕ → ℕ → XM E ℕ
  | 0, r => pure r
  | k + 1, r => do
    let r ← P.times r a
    powLoop a k r

/-- `power` (/repo/pywmi/engines/algebraic_backend.py:61-69). -/
def power (a : ℕ) (q : ℚ) : XM E ℕ :=
  if q.den ≠ 1 then XM.fail .valueError
  else if q < 0 then XM.fail .valueError
  else do
    let r ← P.one
    P.powLoop a q.num.toNat r

/-- `less_than`, `less_than_equal`, `greater_than` and `greater_than_equal` (/repo/pywmi/engines/pyxadd/algebra.py:67-77). -/
def compare (_P : PxCtx E) (_a _b : ℕ) : XM E ℕ := XM.fail .notImplemented

/-- `parse_condition` (/repo/pywmi/engines/pyxadd/algebra.py:79-80). -/
def parseCondition (g : Formula) : XM E ℕ := boolTest P.C.X ⟨g, none, false⟩

/-- The loop of `integrate` (/repo/pywmi/engines/pyxadd/algebra.py:45-46). -/
def integrateLoop (D : Domain) : List String → ℕ → XM E ℕ
  | [], n => pure n
  | v :: vs, n => do
    let ty ← XM.lift (dictGet D.varTypes v)
    let n ← Pywmi.integrate P.C n v ty
    integrateLoop D vs n

/-- `integrate` (/repo/pywmi/engines/pyxadd/algebra.py:40-47); an empty list of variables counts as no list.  Simplification: the
caches of the integrator live in the pool. -/
def integrate (D : Domain) (n : ℕ) (vs : List String) : XM E ℕ := P.integrateLoop D (if vs = [] then D.vars else vs) n

/-! ### Polynomials and inequalities -/

/-- The loop over the variables of a term (/repo/pywmi/smt_math.py:45-48, 186-188). -/
def monomial (k : Mono) : XM E ℕ := do
  let t ← P.one
  XM.foldM (fun t x => do
    let s ← P.symbol x
    P.times t s) t k

/-- The loop over the terms (/repo/pywmi/smt_math.py:43-50, 183-191). -/
def sumTerms (d : Dict) : XM E ℕ := do
  let z ← P.zero
  XM.foldM (fun acc q => do
    let t ← P.monomial q.1
    let r ← P.real q.2
    let m ← P.times t r
    P.plus acc m) z d

/-- `Polynomial.to_expression` (/repo/pywmi/smt_math.py:42-50). -/
def polyExpr (d : Dict) : XM E ℕ := P.sumTerms d

/-- The body of the `try` block of `LinearInequality.to_expression` (/repo/pywmi/smt_math.py:182-192). -/
def tryLin (d : Dict) : XM E ℕ := do
  let s ← P.sumTerms (d.filter fun q => q.1 ≠ [])
  let b ← P.real (linB d)
  P.compare s b

/-- The handler (/repo/pywmi/smt_math.py:193-194). -/
def parseLin (d : Dict) : XM E ℕ := do
  let g ← XM.lift (linToSmt d)
  P.parseCondition g

/-- `LinearInequality.to_expression` (/repo/pywmi/smt_math.py:181-194). -/
def linExpr (d : Dict) : XM E ℕ := (P.tryLin d).orElse (P.parseLin d)

end PxCtx
end Pywmi
