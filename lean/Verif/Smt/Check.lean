import Verif.Smt.Walk

/-!
# The three evaluators of /repo/pywmi/smt_check.py

`SmtChecker` (on a mapping), `SmtSingleChecker` (on one row), `SmtBatchChecker` (on a table).
Numbers are elements of an ordered field (floats are idealised).  Python's `**` on numbers is a
parameter `pypow`.

Simplification: Python lets booleans act as numbers and conversely; the model raises a type error
instead.  Well-typed formulas never mix them.
-/

namespace Pywmi

/-- A Python value produced by an evaluator: a `bool` or a number. -/
inductive Val (K : Type) where
  | b (v : Bool)
  | r (v : K)
deriving DecidableEq, Repr

/-- Values stored in an assignment mapping: a Python bool, a number, or a pysmt constant node
(/repo/pywmi/smt_check.py:29-39). -/
inductive AVal (K : Type) where
  | pyBool (v : Bool)
  | num (v : K)
  | fBool (v : Bool)
  | fReal (v : ℚ)

section
variable {K : Type} [Field K] [LinearOrder K]

/-- A Python value used as a condition. -/
def asB : Val K → Except PyErr Bool
  | .b v => .ok v
  | .r _ => .error .typeError
/-- A Python value used as a number. -/
def asR : Val K → Except PyErr K
  | .r v => .ok v
  | .b _ => .error .typeError

/-- Python `all(list)`. -/
def pyAll (vs : List (Val K)) : Except PyErr (Val K) :=
  match Prog.mapE asB vs with
  | .ok bs => .ok (.b (bs.all id))
  | .error e => .error e
/-- Python `any(list)`. -/
def pyAny (vs : List (Val K)) : Except PyErr (Val K) :=
  match Prog.mapE asB vs with
  | .ok bs => .ok (.b (bs.any id))
  | .error e => .error e
/-- Python `sum(list)`: starts at 0 and adds from the left. -/
def pySum (vs : List (Val K)) : Except PyErr (Val K) :=
  match Prog.mapE asR vs with
  | .ok rs => .ok (.r (rs.foldl (· + ·) 0))
  | .error e => .error e
/-- `walk_times` (/repo/pywmi/smt_check.py:53-59, 172-178). -/
def pyProd (vs : List (Val K)) : Except PyErr (Val K) :=
  if vs.isEmpty then .error .runtimeError
  else match Prog.mapE asR vs with
  | .ok rs => .ok (.r (rs.foldl (· * ·) 1))
  | .error e => .error e
/-- Python `not v`. -/
def pyNot (v : Val K) : Except PyErr (Val K) :=
  match asB v with
  | .ok b => .ok (.b (!b))
  | .error e => .error e
/-- A binary operation on numbers giving a number. -/
def pyArith (op : K → K → Except PyErr K) (v w : Val K) : Except PyErr (Val K) :=
  match asR v with
  | .error e => .error e
  | .ok x => match asR w with
    | .error e => .error e
    | .ok y => match op x y with
      | .ok z => .ok (.r z)
      | .error e => .error e
/-- A comparison of numbers. -/
def pyCmp (op : K → K → Bool) (v w : Val K) : Except PyErr (Val K) :=
  match asR v with
  | .error e => .error e
  | .ok x => match asR w with
    | .error e => .error e
    | .ok y => .ok (.b (op x y))

/-- Call the walker on two formulas, then combine. -/
def call2 {R : Type} (l r : Formula) (k : R → R → Except PyErr R) : Prog Formula R :=
  .call l fun a => .call r fun b => .ofExcept (k a b)

/-- `SmtChecker.walk_constant` applied to an assignment value (/repo/pywmi/smt_check.py:29-39). -/
def assignmentConstant (v : AVal K) (ty : Ty) : Except PyErr (Val K) :=
  match ty, v with
  | .bool, .pyBool b => .ok (.b b)
  | .bool, .fBool b => .ok (.b b)
  | .bool, .fReal q => .ok (.b (decide (q ≠ 0)))
  | .bool, .num _ => .error .attributeError
  | .real, .num x => .ok (.r x)
  | .real, .fReal q => .ok (.r (q : K))
  | .real, .pyBool b => .ok (.r (if b then 1 else 0))
  | .real, .fBool b => .ok (.r (if b then 1 else 0))

/-- `SmtChecker` (/repo/pywmi/smt_check.py:7-65).  Only the taken branch of an ite is evaluated. -/
def checkerW (pypow : K → K → Except PyErr K) (asg : String → Option (AVal K)) :
    Walker (Val K) where
  onAnd as := .callAll as fun vs => .ofExcept (pyAll vs)
  onOr as := .callAll as fun vs => .ofExcept (pyAny vs)
  onNot a := .call a fun v => .ofExcept (pyNot v)
  onTimes as :=
    if as.isEmpty then .fail .runtimeError else .callAll as fun vs => .ofExcept (pyProd vs)
  onPlus as := .callAll as fun vs => .ofExcept (pySum vs)
  onMinus l r := call2 l r (pyArith fun x y => .ok (x - y))
  onIte c t e := .call c fun v =>
    match asB v with
    | .ok true => .call t .done
    | .ok false => .call e .done
    | .error x => .fail x
  onPow b e := call2 b e (pyArith pypow)
  onLte l r := call2 l r (pyCmp fun x y => decide (x ≤ y))
  onLt l r := call2 l r (pyCmp fun x y => decide (x < y))
  onEquals l r := call2 l r (pyCmp fun x y => decide (x = y))
  onSymbol n t :=
    match asg n with
    | some v => .ofExcept (assignmentConstant v t)
    | none => .fail .keyError
  onBool b := .done (.b b)
  onReal q := .done (.r (q : K))

/-- `evaluate_assignment` (/repo/pywmi/smt_check.py:200-201). -/
def evaluateAssignment (pypow : K → K → Except PyErr K) (asg : String → Option (AVal K))
    (f : Formula) : Except PyErr (Val K) := (checkerW pypow asg).walk f

/-- `{v: i for i, v in enumerate(domain.variables)}` (/repo/pywmi/smt_check.py:73, 142): a later
duplicate overrides an earlier one. -/
def indices (vars : List String) : List (String × ℕ) := vars.zipIdx.reverse

/-- `SmtSingleChecker` (/repo/pywmi/smt_check.py:139-197).  Both branches of an ite are evaluated. -/
def singleW (pypow : K → K → Except PyErr K) (vars : List String) (row : List K) :
    Walker (Val K) where
  onAnd as := .callAll as fun vs => .ofExcept (pyAll vs)
  onOr as := .callAll as fun vs => .ofExcept (pyAny vs)
  onNot a := .call a fun v => .ofExcept (pyNot v)
  onTimes as :=
    if as.isEmpty then .fail .runtimeError else .callAll as fun vs => .ofExcept (pyProd vs)
  onPlus as := .callAll as fun vs => .ofExcept (pySum vs)
  onMinus l r := call2 l r (pyArith fun x y => .ok (x - y))
  onIte c t e := .call c fun vc => .call t fun vt => .call e fun ve =>
    match asB vc with
    | .ok true => .done vt
    | .ok false => .done ve
    | .error x => .fail x
  onPow b e := call2 b e (pyArith pypow)
  onLte l r := call2 l r (pyCmp fun x y => decide (x ≤ y))
  onLt l r := call2 l r (pyCmp fun x y => decide (x < y))
  onEquals l r := call2 l r (pyCmp fun x y => decide (x = y))
  onSymbol n t :=
    match (indices vars).lookup n with
    | none => .fail .keyError
    | some i => match row[i]? with
      | none => .fail .indexError
      | some v => .done (match t with | .bool => .b (decide (v ≠ 0)) | .real => .r v)
  onBool b := .done (.b b)
  onReal q := .done (.r (q : K))

/-- A numpy column: booleans or numbers. -/
inductive Arr (K : Type) where
  | b (v : List Bool)
  | r (v : List K)
deriving DecidableEq, Repr

/-- Array used as a boolean array. -/
def arrB : Arr K → Except PyErr (List Bool)
  | .b v => .ok v
  | .r _ => .error .typeError
/-- Array used as a number array. -/
def arrR : Arr K → Except PyErr (List K)
  | .r v => .ok v
  | .b _ => .error .typeError

/-- numpy element-wise operation: arrays of different length do not broadcast. -/
def elementwise {α β γ : Type} (f : α → β → γ) (x : List α) (y : List β) : Except PyErr (List γ) :=
  if x.length = y.length then .ok (x.zipWith f y) else .error .valueError

/-- numpy element-wise power. -/
def powAll (pypow : K → K → Except PyErr K) : List K → List K → Except PyErr (List K)
  | [], [] => .ok []
  | x :: xs, y :: ys =>
    match pypow x y with
    | .ok z => match powAll pypow xs ys with
      | .ok zs => .ok (z :: zs)
      | .error e => .error e
    | .error e => .error e
  | _, _ => .error .valueError

/-- Copy the first array and accumulate the others in place (`|=`, `&=`;
/repo/pywmi/smt_check.py:82-94). -/
def accumulateB (op : Bool → Bool → Bool) : List (Arr K) → Except PyErr (Arr K)
  | [] => .error .indexError
  | a :: as => do
    let first ← arrB a
    let out ← as.foldlM (fun acc x => do elementwise op acc (← arrB x)) first
    .ok (.b out)

/-- `sum(list of arrays)` (/repo/pywmi/smt_check.py:105-106): `0 + a1 + a2 ...`; `sum([])` would be the
integer 0 (not an array) and does not occur for pysmt terms. -/
def sumArr (len : ℕ) : List (Arr K) → Except PyErr (Arr K)
  | [] => .error .other
  | as => do
    let out ← as.foldlM (fun acc x => do elementwise (· + ·) acc (← arrR x)) (List.replicate len (0 : K))
    .ok (.r out)

/-- `walk_times` on arrays (/repo/pywmi/smt_check.py:111-117): `1.0 * a1 * a2 ...`. -/
def prodArr (len : ℕ) : List (Arr K) → Except PyErr (Arr K)
  | [] => .error .runtimeError
  | as => do
    let out ← as.foldlM (fun acc x => do elementwise (· * ·) acc (← arrR x)) (List.replicate len (1 : K))
    .ok (.r out)

/-- `np.where(c, t, e)` (/repo/pywmi/smt_check.py:75-77). -/
def whereArr (c t e : Arr K) : Except PyErr (Arr K) := do
  let c ← arrB c
  match t, e with
  | .b t, .b e => do
    let te ← elementwise Prod.mk t e
    let out ← elementwise (fun (x : Bool) (p : Bool × Bool) => if x then p.1 else p.2) c te
    .ok (.b out)
  | .r t, .r e => do
    let te ← elementwise Prod.mk t e
    let out ← elementwise (fun (x : Bool) (p : K × K) => if x then p.1 else p.2) c te
    .ok (.r out)
  | _, _ => .error .typeError

/-- Element-wise comparison of arrays. -/
def cmpArr (op : K → K → Bool) (a b : Arr K) : Except PyErr (Arr K) := do
  .ok (.b (← elementwise op (← arrR a) (← arrR b)))

/-- Element-wise difference of arrays. -/
def subArr (a b : Arr K) : Except PyErr (Arr K) := do
  .ok (.r (← elementwise (· - ·) (← arrR a) (← arrR b)))

/-- Element-wise power of arrays. -/
def powArr (pypow : K → K → Except PyErr K) (a b : Arr K) : Except PyErr (Arr K) := do
  .ok (.r (← powAll pypow (← arrR a) (← arrR b)))

/-- `np.logical_not`. -/
def notArr (a : Arr K) : Except PyErr (Arr K) := do
  .ok (.b ((← arrB a).map (!·)))

/-- `SmtBatchChecker` (/repo/pywmi/smt_check.py:68-136), method bodies.  `column i` is
`self.values[:, i]`, `len` is `self.values.shape[0]`. -/
def batchW (pypow : K → K → Except PyErr K) (vars : List String) (len : ℕ)
    (column : ℕ → Except PyErr (List K)) : Walker (Arr K) where
  onAnd as := .callAll as fun vs => .ofExcept (accumulateB (· && ·) vs)
  onOr as := .callAll as fun vs => .ofExcept (accumulateB (· || ·) vs)
  onNot a := .call a fun v => .ofExcept (notArr v)
  onTimes as :=
    if as.isEmpty then .fail .runtimeError else .callAll as fun vs => .ofExcept (prodArr len vs)
  onPlus as := .callAll as fun vs => .ofExcept (sumArr len vs)
  onMinus l r := call2 l r subArr
  onIte c t e := .call c fun vc => .call t fun vt => .call e fun ve => .ofExcept (whereArr vc vt ve)
  onPow b e := call2 b e (powArr pypow)
  onLte l r := call2 l r (cmpArr fun x y => decide (x ≤ y))
  onLt l r := call2 l r (cmpArr fun x y => decide (x < y))
  onEquals l r := call2 l r (cmpArr fun x y => decide (x = y))
  onSymbol n t :=
    match (indices vars).lookup n with
    | none => .fail .keyError
    | some i => match column i with
      | .error e => .fail e
      | .ok col => .done (match t with
        | .bool => .b (col.map fun v => decide (v ≠ 0))
        | .real => .r col)
  onBool b := .done (.b (List.replicate len b))
  onReal q := .done (.r (List.replicate len (q : K)))

/-- numpy values passed to `evaluate`: a vector (ndim 1) or a table (ndim 2) of a given width. -/
inductive Values (K : Type) where
  | vec (row : List K)
  | table (rows : List (List K)) (width : ℕ)

/-- `self.values[:, i]`: IndexError when out of range or when the array has one dimension. -/
def Values.column : Values K → ℕ → Except PyErr (List K)
  | .vec _, _ => .error .indexError
  | .table rows w, i => if i < w then .ok (rows.map fun r => r.getD i 0) else .error .indexError

/-- `self.values.shape[0]`. -/
def Values.len : Values K → ℕ
  | .vec row => row.length
  | .table rows _ => rows.length

/-- Result of `evaluate`: one value or an array. -/
inductive EvalResult (K : Type) where
  | single (v : Val K)
  | batch (a : Arr K)
deriving DecidableEq, Repr

/-- `evaluate` (/repo/pywmi/smt_check.py:204-207).  The batch checker is a cached walker; here a fresh
object (empty cache) is used per call as in the code. -/
def evaluate (pypow : K → K → Except PyErr K) (vars : List String) (f : Formula) (values : Values K) :
    Except PyErr (EvalResult K) :=
  let batch :=
    match (cwalk (batchW pypow vars values.len values.column).dispatch Formula.msize id f []).1 with
    | .ok a => .ok (.batch a)
    | .error e => .error e
  match values with
  | .vec row =>
    if vars.length > 1 then
      match (singleW pypow vars row).walk f with
      | .ok v => .ok (.single v)
      | .error e => .error e
    else batch
  | .table _ _ => batch

/-! ### The walkers only recurse into smaller formulas -/

open Formula Prog

theorem call2_below {R : Type} {l r : Formula} {n : ℕ} (hl : msize l < n) (hr : msize r < n)
    (k : R → R → Except PyErr R) : (call2 l r k).CallsBelow msize n :=
  ⟨hl, fun _ => ⟨hr, fun _ => callsBelow_ofExcept _ _ _⟩⟩

theorem checkerW_decr (pypow : K → K → Except PyErr K) (asg : String → Option (AVal K)) :
    (checkerW pypow asg).Decr := by
  refine Walker.decr_of ?_ ?_ ?_ ?_ ?_ ?_ ?_ ?_ ?_ ?_ ?_ ?_ ?_ ?_ ?_
  · exact fun as n h => callsBelow_callAll h fun _ => callsBelow_ofExcept _ _ _
  · exact fun as n h => callsBelow_callAll h fun _ => callsBelow_ofExcept _ _ _
  · intro as n h
    simp only [checkerW]
    split
    · trivial
    · exact callsBelow_callAll h fun _ => callsBelow_ofExcept _ _ _
  · exact fun as n h => callsBelow_callAll h fun _ => callsBelow_ofExcept _ _ _
  · exact fun a n h => ⟨h, fun _ => callsBelow_ofExcept _ _ _⟩
  · exact fun l r => call2_below (by simp only [msize]; omega) (by simp only [msize]; omega) _
  · intro c t e n hc ht he
    refine ⟨hc, fun v => ?_⟩
    simp only []
    split
    · exact ⟨ht, fun _ => trivial⟩
    · exact ⟨he, fun _ => trivial⟩
    · trivial
  · exact fun l r n hl hr => call2_below hl hr _
  · exact fun l r n hl hr => call2_below hl hr _
  · exact fun l r n hl hr => call2_below hl hr _
  · exact fun l r n hl hr => call2_below hl hr _
  · intro m t n
    simp only [checkerW]
    split
    · exact callsBelow_ofExcept _ _ _
    · trivial
  · exact fun _ _ => trivial
  · exact fun _ _ => trivial
  · exact fun l r => Walker.implies_default_below l r

theorem singleW_decr (pypow : K → K → Except PyErr K) (vars : List String) (row : List K) :
    (singleW pypow vars row).Decr := by
  refine Walker.decr_of ?_ ?_ ?_ ?_ ?_ ?_ ?_ ?_ ?_ ?_ ?_ ?_ ?_ ?_ ?_
  · exact fun as n h => callsBelow_callAll h fun _ => callsBelow_ofExcept _ _ _
  · exact fun as n h => callsBelow_callAll h fun _ => callsBelow_ofExcept _ _ _
  · intro as n h
    simp only [singleW]
    split
    · trivial
    · exact callsBelow_callAll h fun _ => callsBelow_ofExcept _ _ _
  · exact fun as n h => callsBelow_callAll h fun _ => callsBelow_ofExcept _ _ _
  · exact fun a n h => ⟨h, fun _ => callsBelow_ofExcept _ _ _⟩
  · exact fun l r => call2_below (by simp only [msize]; omega) (by simp only [msize]; omega) _
  · intro c t e n hc ht he
    refine ⟨hc, fun v => ⟨ht, fun v' => ⟨he, fun v'' => ?_⟩⟩⟩
    simp only []
    split <;> trivial
  · exact fun l r n hl hr => call2_below hl hr _
  · exact fun l r n hl hr => call2_below hl hr _
  · exact fun l r n hl hr => call2_below hl hr _
  · exact fun l r n hl hr => call2_below hl hr _
  · intro m t n
    simp only [singleW]
    split
    · trivial
    · split <;> trivial
  · exact fun _ _ => trivial
  · exact fun _ _ => trivial
  · exact fun l r => Walker.implies_default_below l r

theorem batchW_decr (pypow : K → K → Except PyErr K) (vars : List String) (len : ℕ)
    (column : ℕ → Except PyErr (List K)) : (batchW pypow vars len column).Decr := by
  refine Walker.decr_of ?_ ?_ ?_ ?_ ?_ ?_ ?_ ?_ ?_ ?_ ?_ ?_ ?_ ?_ ?_
  · exact fun as n h => callsBelow_callAll h fun _ => callsBelow_ofExcept _ _ _
  · exact fun as n h => callsBelow_callAll h fun _ => callsBelow_ofExcept _ _ _
  · intro as n h
    simp only [batchW]
    split
    · trivial
    · exact callsBelow_callAll h fun _ => callsBelow_ofExcept _ _ _
  · exact fun as n h => callsBelow_callAll h fun _ => callsBelow_ofExcept _ _ _
  · exact fun a n h => ⟨h, fun _ => callsBelow_ofExcept _ _ _⟩
  · exact fun l r => call2_below (by simp only [msize]; omega) (by simp only [msize]; omega) _
  · exact fun c t e n hc ht he =>
      ⟨hc, fun v => ⟨ht, fun v' => ⟨he, fun v'' => callsBelow_ofExcept _ _ _⟩⟩⟩
  · exact fun l r n hl hr => call2_below hl hr _
  · exact fun l r n hl hr => call2_below hl hr _
  · exact fun l r n hl hr => call2_below hl hr _
  · exact fun l r n hl hr => call2_below hl hr _
  · intro m t n
    simp only [batchW]
    split
    · trivial
    · split <;> trivial
  · exact fun _ _ => trivial
  · exact fun _ _ => trivial
  · exact fun l r => Walker.implies_default_below l r

end
end Pywmi
