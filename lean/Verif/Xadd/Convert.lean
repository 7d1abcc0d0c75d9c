import Verif.Xadd.Walk
import Verif.Xadd.Resolve

set_option linter.unusedSectionVars false
set_option linter.unusedSimpArgs false

/-!
# From formulas to diagrams

Model of `ToXaddWalker` (/repo/pywmi/engines/pyxadd/engine.py:17-123).  The walker's dictionary is the field `walk` of the pool.
Its attribute `bool_mode` is an argument of the walk: it changes only around the condition of an if-then-else (lines 70-72).
-/

namespace Pywmi
open Formula

mutual
/-- A measure under which all calls of the walker decrease. -/
def csize : Formula → ℕ
  | .and as => 1 + csizeList as
  | .or as => 1 + csizeList as
  | .implies l r => csize l + csize r + 5
  | .not a => csize a + 1
  | .times as => 1 + csizeList as
  | .plus as => 1 + csizeList as
  | .minus l r => csize l + csize r + 9
  | .ite c t e => 2 * csize c + csize t + csize e + 15
  | .pow b _ => csize b + 1
  | .le l r => csize l + csize r + 1
  | .lt l r => csize l + csize r + 2
  | .equals l r => csize l + csize r + 1
  | .iff l r => csize l + csize r + 6
  | .sym _ _ => 1
  | .boolC _ => 1
  | .realC _ => 1
/-- The measure of a list. -/
def csizeList : List Formula → ℕ
  | [] => 0
  | a :: as => csize a + 1 + csizeList as
end

section
variable {E : Type} [DecidableEq E]

/-- A result that is used as a node id.  `get_node` of a pysmt term raises RuntimeError
(/repo/pywmi/engines/pyxadd/core.py:217-227). -/
def XRes.node : XRes → XM E ℕ
  | .id n => pure n
  | .term _ => XM.fail .runtimeError

/-- `walk_smt_multiple` (/repo/pywmi/smt_walk.py:50-51). -/
def walkAll (rec : Formula → XM E XRes) : List Formula → XM E (List XRes)
  | [] => pure []
  | a :: as => do
    let r ← rec a
    let rs ← walkAll rec as
    pure (r :: rs)

/-- The loops of `walk_and`, `walk_or`, `walk_plus` and `walk_times` (/repo/pywmi/engines/pyxadd/engine.py:26-60). -/
def foldApply (X : XCtx E) (op : XOp) : ℕ → List XRes → XM E ℕ
  | acc, [] => pure acc
  | acc, r :: rs => do
    let n ← r.node
    let acc ← apply X op acc n
    foldApply X op acc rs

/-- The loop of `walk_pow` (/repo/pywmi/engines/pyxadd/engine.py:89-91). -/
def powApply (X : XCtx E) (b : ℕ) : ℕ → ℕ → XM E ℕ
  | 0, acc => pure acc
  | k + 1, acc => do
    let acc ← apply X .mul acc b
    powApply X b k acc

/-- `left <= right` (/repo/pywmi/engines/pyxadd/engine.py:96): an id is read as a number, two ids give a Python bool, of which
`Decision` cannot ask `is_symbol`. -/
def cmpRes (a b : XRes) : Except PyErr Formula :=
  match a, b with
  | .term l, .term r => .ok (.le l r)
  | .id n, .term r => .ok (.le (.realC n) r)
  | .term l, .id n => .ok (.le l (.realC n))
  | .id _, .id _ => .error .attributeError

/-- `walk_and` (/repo/pywmi/engines/pyxadd/engine.py:26-31). -/
def convAnd (X : XCtx E) (rec : Bool → Formula → XM E XRes) (m : Bool) (as : List Formula) : XM E XRes :=
  if m = true then do
    let p ← XM.get
    let rs ← walkAll (rec m) as
    let n ← foldApply X .and p.oneId rs
    pure (.id n)
  else XM.fail .assertionError

/-- `walk_or` (/repo/pywmi/engines/pyxadd/engine.py:33-38). -/
def convOr (X : XCtx E) (rec : Bool → Formula → XM E XRes) (m : Bool) (as : List Formula) : XM E XRes :=
  if m = true then do
    let p ← XM.get
    let rs ← walkAll (rec m) as
    let n ← foldApply X .or p.zeroId rs
    pure (.id n)
  else XM.fail .assertionError

/-- `walk_plus` and `walk_times` (/repo/pywmi/engines/pyxadd/engine.py:40-47, 52-60); sums and products without arguments do not
exist in pysmt. -/
def convArith (X : XCtx E) (rec : Bool → Formula → XM E XRes) (m : Bool) (op : XOp) (as : List Formula) : XM E XRes :=
  if m = true then
    XM.lift (match (if op = .add then mkPlus as else mkTimes as) with
      | .ok f => .ok (.term f)
      | .error e => .error e)
  else do
    let p ← XM.get
    let rs ← walkAll (rec m) as
    let n ← foldApply X op (if op = .add then p.zeroId else p.oneId) rs
    pure (.id n)

/-- `walk_not` (/repo/pywmi/engines/pyxadd/engine.py:62-64). -/
def convNot (X : XCtx E) (rec : Bool → Formula → XM E XRes) (m : Bool) (a : Formula) : XM E XRes :=
  if m = true then do
    let r ← rec m a
    let n ← r.node
    let n ← invert X n
    pure (.id n)
  else XM.fail .assertionError

/-- `walk_ite` (/repo/pywmi/engines/pyxadd/engine.py:66-78); pysmt's conjunction checks the types. -/
def convIte (X : XCtx E) (rec : Bool → Formula → XM E XRes) (m : Bool) (c t e : Formula) : XM E XRes :=
  if m = true then
    if wt .bool t = true ∧ wt .bool e = true then rec m (.or [.and [c, t], .and [mkNot c, e]]) else XM.fail .typeError
  else do
    let rc ← rec true c
    let rt ← rec false t
    let re ← rec false e
    let n ← rc.node
    let nt ← rt.node
    let a ← apply X .mul n nt
    let i ← invert X n
    let ne ← re.node
    let b ← apply X .mul i ne
    let r ← apply X .add a b
    pure (.id r)

/-- `walk_pow` (/repo/pywmi/engines/pyxadd/engine.py:80-91); pysmt builds powers with constant exponents only. -/
def convPow (X : XCtx E) (rec : Bool → Formula → XM E XRes) (m : Bool) (b e : Formula) : XM E XRes := do
  let r ← rec m b
  match e with
  | .realC q =>
    if q.den ≠ 1 then XM.fail .assertionError
    else if q.num = 0 then do
      let p ← XM.get
      pure (.id p.oneId)
    else if q.num - 1 ≤ 0 then pure r
    else do
      let n ← r.node
      let n ← powApply X n (q.num - 1).toNat n
      pure (.id n)
  | _ => XM.fail .assertionError

/-- `walk_lte` (/repo/pywmi/engines/pyxadd/engine.py:93-96). -/
def convLe (X : XCtx E) (rec : Bool → Formula → XM E XRes) (m : Bool) (l r : Formula) : XM E XRes :=
  if m = true then do
    let a ← rec m l
    let b ← rec m r
    let g ← XM.lift (cmpRes a b)
    let n ← boolTest X ⟨g, none, false⟩
    pure (.id n)
  else XM.fail .assertionError

/-- `walk_symbol` (/repo/pywmi/engines/pyxadd/engine.py:105-112). -/
def convSym (X : XCtx E) (m : Bool) (n : String) (t : Ty) : XM E XRes :=
  if m = true then
    if t = .bool then do
      let n ← boolTest X ⟨.sym n .bool, none, false⟩
      pure (.id n)
    else pure (.term (.sym n t))
  else do
    let n ← terminal (X.back.alg.symbol n)
    pure (.id n)

/-- The methods of `ToXaddWalker` behind the dispatch of `walk_smt` (/repo/pywmi/smt_walk.py:53-95,
/repo/pywmi/engines/pyxadd/engine.py:26-123). -/
def convBody (X : XCtx E) (rec : Bool → Formula → XM E XRes) (m : Bool) : Formula → XM E XRes
  | .and as => convAnd X rec m as
  | .or as => convOr X rec m as
  | .implies l r => rec m (mkOr [mkNot l, r])
  | .not a => convNot X rec m a
  | .times as => convArith X rec m .mul as
  | .plus as => convArith X rec m .add as
  | .minus l r => rec m (.plus [l, .times [r, .realC (-1)]])
  | .ite c t e => convIte X rec m c t e
  | .pow b e => convPow X rec m b e
  | .le l r => convLe X rec m l r
  | .lt l r => rec m (.le l r)
  | .equals _ _ => XM.fail .notImplemented
  | .iff l r => convAnd X rec m [.implies l r, .implies r l]
  | .sym n t => convSym X m n t
  | .boolC b =>
    if m = true then do
      let n ← boolTest X ⟨.boolC b, none, false⟩
      pure (.id n)
    else XM.fail .assertionError
  | .realC q =>
    if m = true then pure (.term (.realC q))
    else do
      let n ← terminal (X.back.alg.real q)
      pure (.id n)

/-- `CachedSmtWalker.walk_smt` (/repo/pywmi/smt_walk.py:103-110) with the key of `ToXaddWalker`
(/repo/pywmi/engines/pyxadd/engine.py:23-24) and a bound on the recursion depth. -/
def convF (X : XCtx E) : ℕ → Bool → Formula → XM E XRes
  | 0, _, _ => XM.fail .fuel
  | k + 1, m, f => do
    let p ← XM.get
    match p.walk.lookup (f, m) with
    | some r => pure r
    | none =>
      let r ← convBody X (convF X k) m f
      XM.modify fun p => { p with walk := ((f, m), r) :: p.walk }
      pure r

/-- `ToXaddWalker(mode, pool).walk_smt(f)` with a new walker (/repo/pywmi/engines/pyxadd/engine.py:18-21). -/
def convert (X : XCtx E) (m : Bool) (f : Formula) : XM E XRes := do
  XM.modify fun p => { p with walk := [] }
  convF X (csize f + 1) m f

end
end Pywmi
