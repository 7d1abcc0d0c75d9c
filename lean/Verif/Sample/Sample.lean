import Verif.Domain.Domain
import Verif.Smt.Check
import Mathlib.Algebra.Order.Floor.Ring
import Mathlib.Data.Rat.Floor

/-!
# Sampling and the rejection engine

Model of /repo/pywmi/sample.py and /repo/pywmi/engines/rejection.py.  Numbers are elements of an ordered field.  The
random generator is a parameter: a state with two operations.
-/

namespace Pywmi

/-- `numpy.random.RandomState`: a number of `[0, 1)`, and a position of a list of a given length. -/
structure Rng (K : Type) where
  State : Type
  next : State → K × State
  choose : State → ℕ → ℕ × State

section
variable {K : Type} [Field K] [LinearOrder K]

/-- Draw the numbers of a row. -/
def drawRow (R : Rng K) : ℕ → R.State → List K × R.State
  | 0, s => ([], s)
  | m + 1, s =>
    let a := R.next s
    let b := drawRow R m a.2
    (a.1 :: b.1, b.2)
/-- `rand_gen.random((n, m))` (/repo/pywmi/sample.py:15). -/
def drawRows (R : Rng K) (m : ℕ) : ℕ → R.State → List (List K) × R.State
  | 0, s => ([], s)
  | n + 1, s =>
    let a := drawRow R m s
    let b := drawRows R m n a.2
    (a.1 :: b.1, b.2)

/-- What happens to the column of a variable (/repo/pywmi/sample.py:17-21).  Arithmetic with `None` is a TypeError. -/
def columnMap (D : Domain) (v : String) : Except PyErr (K → K) :=
  match dictGet D.varTypes v with
  | .error e => .error e
  | .ok .bool => .ok fun r => if r < 1 / 2 then 1 else 0
  | .ok .real =>
    match dictGet D.varDomains v with
    | .error e => .error e
    | .ok (some l, some u) => .ok fun r => (l : K) + r * ((u : K) - (l : K))
    | .ok _ => .error .typeError

/-- The indices of a one-hot group, `domain.variables.index` (/repo/pywmi/sample.py:24-26). -/
def oheIndex (D : Domain) (g : List String) : Except PyErr (List ℕ) :=
  Prog.mapE (fun v => if v ∈ D.vars then .ok (D.vars.idxOf v) else .error .valueError) g

/-- One group of one row (/repo/pywmi/sample.py:30-32). -/
def oheGroup (R : Rng K) (row : List K) (g : List ℕ) (s : R.State) : Except PyErr (List K × R.State) :=
  let row := g.foldl (fun r x => r.set x 0) row
  if g = [] then .error .valueError
  else
    let c := R.choose s g.length
    .ok (row.set (g.getD c.1 0) 1, c.2)
/-- The groups of one row (/repo/pywmi/sample.py:29-32). -/
def oheRow (R : Rng K) : List (List ℕ) → List K → R.State → Except PyErr (List K × R.State)
  | [], row, s => .ok (row, s)
  | g :: gs, row, s =>
    match oheGroup R row g s with
    | .error e => .error e
    | .ok (row, s) => oheRow R gs row s
/-- All rows (/repo/pywmi/sample.py:28-32). -/
def oheRows (R : Rng K) (gs : List (List ℕ)) : List (List K) → R.State → Except PyErr (List (List K) × R.State)
  | [], s => .ok ([], s)
  | row :: rows, s =>
    match oheRow R gs row s with
    | .error e => .error e
    | .ok (row, s) =>
      match oheRows R gs rows s with
      | .error e => .error e
      | .ok (rows, s) => .ok (row :: rows, s)

/-- `uniform` (/repo/pywmi/sample.py:13-34). -/
def uniform (R : Rng K) (D : Domain) (n : ℕ) (ohe : Option (List (List String))) (s : R.State) :
    Except PyErr (List (List K) × R.State) :=
  let d := drawRows R D.vars.length n s
  match Prog.mapE (columnMap D) D.vars with
  | .error e => .error e
  | .ok fs =>
    let rows := d.1.map fun row => List.zipWith (fun f x => f x) fs row
    match ohe with
    | none => .ok (rows, d.2)
    | some groups =>
      match Prog.mapE (oheIndex D) groups with
      | .error e => .error e
      | .ok gs => oheRows R gs rows d.2

/-! ### weighted_sample -/

/-- The inner loop (/repo/pywmi/sample.py:45-48): move to the entry that contains `x`. -/
def wsAdvance {V : Type} (x w : K) (v : V) : List (K × V) → Except PyErr (K × K × V × List (K × V))
  | [] => if x > w then .error .indexError else .ok (x, w, v, [])
  | (w', v') :: rest => if x > w then wsAdvance (x - w) w' v' rest else .ok (x, w, v, (w', v') :: rest)

/-- The outer loop (/repo/pywmi/sample.py:42-51); `root n u` is `u ** (1.0 / n)`. -/
def wsLoop {V : Type} (R : Rng K) (root : ℕ → K → K) : ℕ → K → K → V → List (K × V) → R.State →
    Except PyErr (List V × R.State)
  | 0, _, _, _, _, s => .ok ([], s)
  | n + 1, total, w, v, rest, s =>
    let u := R.next s
    let x := total * (1 - root (n + 1) u.1)
    match wsAdvance x w v rest with
    | .error e => .error e
    | .ok (x', w, v, rest) =>
      match wsLoop R root n (total - x) (w - x') v rest u.2 with
      | .error e => .error e
      | .ok (vs, s) => .ok (v :: vs, s)

/-- `weighted_sample` (/repo/pywmi/sample.py:37-51). -/
def weightedSample {V : Type} (R : Rng K) (root : ℕ → K → K) (weights : List K) (values : List V) (n : ℕ) (s : R.State) :
    Except PyErr (List V × R.State) :=
  match weights.zip values with
  | [] => .error .indexError
  | (w, v) :: rest => wsLoop R root n (weights.foldl (· + ·) 0) w v rest s

/-! ### positive -/

/-- `evaluate(domain, formula, samples)` used as a mask. -/
def evalMask (pypow : K → K → Except PyErr K) (D : Domain) (f : Formula) (rows : List (List K)) : Except PyErr (List Bool) :=
  match evaluate pypow D.vars f (.table rows D.vars.length) with
  | .error e => .error e
  | .ok (.batch (.b m)) => .ok m
  | .ok _ => .error .indexError
/-- `evaluate(domain, formula, samples)` used as numbers. -/
def evalNums (pypow : K → K → Except PyErr K) (D : Domain) (f : Formula) (rows : List (List K)) : Except PyErr (List K) :=
  match evaluate pypow D.vars f (.table rows D.vars.length) with
  | .error e => .error e
  | .ok (.batch (.r m)) => .ok m
  | .ok _ => .error .typeError

/-- `samples[labels]`. -/
def maskRows {α : Type} : List α → List Bool → List α
  | a :: as, b :: bs => if b then a :: maskRows as bs else maskRows as bs
  | _, _ => []

/-- Samples that satisfy the support. -/
def drawPositive (R : Rng K) (pypow : K → K → Except PyErr K) (D : Domain) (support : Formula) (n : ℕ) (s : R.State) :
    Except PyErr (List (List K) × R.State) :=
  match uniform R D n none s with
  | .error e => .error e
  | .ok (rows, s) =>
    match evalMask pypow D support rows with
    | .error e => .error e
    | .ok m => .ok (maskRows rows m, s)

/-- The size of the next batch (/repo/pywmi/sample.py:68-70), computed exactly. -/
def nextCount (pool pos count maxS : ℕ) : ℕ :=
  let ratio : ℚ := pos / count
  min ⌊(((pool - pos : ℕ) : ℚ) / max ratio (1 / 1000)) * (11 / 10)⌋₊ (maxS - count)

/-- The loop of `positive` (/repo/pywmi/sample.py:63-78).  Later batches are drawn from the default generator, whose
state is `sd`. -/
def positiveLoop (R : Rng K) (pypow : K → K → Except PyErr K) (D : Domain) (support : Formula) (pool maxS : ℕ) :
    ℕ → List (List K) → ℕ → R.State → Except PyErr (List (List K) × ℕ × R.State)
  | 0, _, _, _ => .error .fuel
  | fuel + 1, pos, count, sd =>
    if pos.length < pool then
      if count ≥ maxS then .error .samplingError
      else
        let n := nextCount pool pos.length count maxS
        match drawPositive R pypow D support n sd with
        | .error e => .error e
        | .ok (new, sd) => positiveLoop R pypow D support pool maxS fuel (pos ++ new) (count + n) sd
    else .ok (pos, count, sd)

/-- Python `x or default` for an optional number, where 0 also stands for `None`. -/
def orDefault (x d : ℕ) : ℕ := if x = 0 then d else x

/-- `positive` (/repo/pywmi/sample.py:54-89): the samples, the ratio, the number of samples drawn, and the two
generators afterwards.  Optional counts are 0 when `None`. -/
def positive (R : Rng K) (root : ℕ → K → K) (pypow : K → K → Except PyErr K) (required : ℕ) (D : Domain) (support : Formula)
    (weight : Option Formula) (pool0 count0 max0 : ℕ) (s sd : R.State) :
    Except PyErr (List (List K) × ℚ × ℕ × R.State × R.State) :=
  let pool := orDefault pool0 (if weight.isNone then required else required * 10)
  let count := orDefault count0 (pool * 2)
  let maxS := orDefault max0 (count * 10)
  match drawPositive R pypow D support count s with
  | .error e => .error e
  | .ok (pos, s) =>
    match positiveLoop R pypow D support pool maxS (maxS - count + 1) pos count sd with
    | .error e => .error e
    | .ok (pos, count, sd) =>
      if count = 0 then .error .zeroDivision
      else
        let ratio : ℚ := pos.length / count
        let pos := if pos.length > pool then pos.take pool else pos
        match weight with
        | none => .ok (pos, ratio, count, s, sd)
        | some w =>
          match evalNums pypow D w pos with
          | .error e => .error e
          | .ok ws =>
            match weightedSample R root ws pos required s with
            | .error e => .error e
            | .ok (out, s) => .ok (out, ratio, count, s, sd)

/-! ### The rejection engine -/

/-- The volume of the sampled set (/repo/pywmi/engines/rejection.py:45-61). -/
def boundVolume (D : Domain) (ohe : Option (List (List String))) : Except PyErr (Option ℚ) :=
  match ohe with
  | none =>
    match D.realVars with
    | .error e => .error e
    | .ok rs =>
      if rs.length > 0 then D.getVolume
      else
        match D.boolVars with
        | .error e => .error e
        | .ok bs => .ok (some (2 ^ bs.length))
  | some groups =>
    match D.boolVars with
    | .error e => .error e
    | .ok bs =>
      let n : ℚ := 2 ^ (bs.filter fun v => v ∉ groups.flatten).length
      let n := groups.foldl (fun n g => n * (g.length : ℚ)) n
      match D.boundingBoxVolume with
      | .error e => .error e
      | .ok none => .ok none
      | .ok (some r) => .ok (some (if r ≠ 0 then n * r else n))

/-- `sum(labels)`. -/
def countTrue (m : List Bool) : ℕ := (m.filter id).length

/-- `compute_volume` on given samples (/repo/pywmi/engines/rejection.py:43-73). -/
def volumeOf (pypow : K → K → Except PyErr K) (D : Domain) (support : Formula) (weight : Option Formula)
    (ohe : Option (List (List String))) (rows : List (List K)) : Except PyErr K :=
  match evalMask pypow D support rows with
  | .error e => .error e
  | .ok m =>
    match boundVolume D ohe with
    | .error e => .error e
    | .ok none => .error .other
    | .ok (some bv) =>
      if m.length = 0 then .error .zeroDivision
      else
        let approx : K := (bv : K) * (countTrue m : K) / (m.length : K)
        match weight with
        | none => .ok approx
        | some w =>
          let pos := maskRows rows m
          match evalNums pypow D w pos with
          | .error e => .error e
          | .ok ws => if pos.length = 0 then .ok 0 else .ok (ws.foldl (· + ·) 0 / (pos.length : K) * approx)

/-- `RejectionEngine.compute_volume` (/repo/pywmi/engines/rejection.py:35-73). -/
def rejectionVolume (R : Rng K) (pypow : K → K → Except PyErr K) (D : Domain) (support : Formula) (weight : Option Formula)
    (n : ℕ) (ohe : Option (List (List String))) (s : R.State) : Except PyErr (K × R.State) :=
  match uniform R D n ohe s with
  | .error e => .error e
  | .ok (rows, s) =>
    match volumeOf pypow D support weight ohe rows with
    | .error e => .error e
    | .ok v => .ok (v, s)

/-- The weight of the rows that satisfy a query; without weight every row counts 1. -/
def queryTotal (ws : Option (List K)) (m : List Bool) : K :=
  match ws with
  | some ws => (maskRows ws m).foldl (· + ·) 0
  | none => (countTrue m : K)

/-- The loop over queries (/repo/pywmi/engines/rejection.py:93-100, 103-110). -/
def queryLoop (pypow : K → K → Except PyErr K) (D : Domain) (pos : List (List K)) (ws : Option (List K)) (total : K) :
    List Formula → Except PyErr (List (Option K))
  | [] => .ok []
  | q :: qs =>
    let r : Except PyErr (Option K) :=
      if total > 0 then
        match evalMask pypow D q pos with
        | .error e => .error e
        | .ok m => .ok (some (queryTotal ws (m.zipWith (· && ·) (pos.map fun _ => true)) / total))
      else .ok none
    match r with
    | .error e => .error e
    | .ok r =>
      match queryLoop pypow D pos ws total qs with
      | .error e => .error e
      | .ok rs => .ok (r :: rs)

/-- `compute_probabilities` on given samples (/repo/pywmi/engines/rejection.py:86-112). -/
def probabilitiesOf (pypow : K → K → Except PyErr K) (D : Domain) (support : Formula) (weight : Option Formula)
    (queries : List Formula) (rows : List (List K)) : Except PyErr (List (Option K)) :=
  match evalMask pypow D support rows with
  | .error e => .error e
  | .ok m =>
    let pos := maskRows rows m
    match weight with
    | some w =>
      match evalNums pypow D w pos with
      | .error e => .error e
      | .ok ws => queryLoop pypow D pos (some ws) (ws.foldl (· + ·) 0) queries
    | none => queryLoop pypow D pos none (pos.length : K) queries

/-- `RejectionEngine.compute_probabilities` (/repo/pywmi/engines/rejection.py:83-112). -/
def rejectionProbabilities (R : Rng K) (pypow : K → K → Except PyErr K) (D : Domain) (support : Formula)
    (weight : Option Formula) (queries : List Formula) (n : ℕ) (s : R.State) : Except PyErr (List (Option K) × R.State) :=
  match uniform R D n none s with
  | .error e => .error e
  | .ok (rows, s) =>
    match probabilitiesOf pypow D support weight queries rows with
    | .error e => .error e
    | .ok v => .ok (v, s)

end
end Pywmi
