import Verif.Engine.Engine

set_option linter.unusedSectionVars false

/-!
# Plots of formulas and data

Model of /repo/pywmi/plot.py:23-231.  What is drawn: for each assignment of the Boolean variables one panel with a region and
marks.  Figures, sizes and files are left out.
-/

namespace Pywmi
open Formula Prog

/-- The library `polytope`: a region from rows `c · x ≤ b`, and the operations on regions.  Exceptions of these operations are
not modelled, apart from `dim`. -/
structure Polytopes (R : Type) where
  make : List (List ℚ × ℚ) → R
  inter : R → R → R
  union : R → R → R
  diff : R → R → R
  dim : R → Except PyErr ℕ

/-- What `RegionBuilder` returns: a region, for terms a name, a number or a dictionary (whose entries are left out, since no
region depends on them). -/
inductive PlotVal (R : Type) where
  | region (r : R)
  | name (n : String)
  | num (q : ℚ)
  | terms

section
variable {R : Type}

/-- A row of zeros with one entry (/repo/pywmi/plot.py:28-32). -/
def unitRow (n i : ℕ) (c : ℚ) : List ℚ := (List.range n).map fun j => if j = i then c else 0

/-- The rows of the box (/repo/pywmi/plot.py:30-36).  A missing lower bound is a TypeError; a missing upper bound would put a NaN
into the array, which is not modelled (TypeError as well). -/
def boxRows (D : Domain) (n : ℕ) : ℕ → List String → Except PyErr (List (List ℚ × ℚ))
  | _, [] => .ok []
  | i, v :: vs =>
    match dictGet D.varDomains v with
    | .error e => .error e
    | .ok (some l, some u) =>
      match boxRows D n (i + 1) vs with
      | .error e => .error e
      | .ok rest => .ok ((unitRow n i (-1), -l) :: (unitRow n i 1, u) :: rest)
    | .ok _ => .error .typeError

/-- `get_bounded_region` (/repo/pywmi/plot.py:27-41). -/
def boundedRegion (P : Polytopes R) (D : Domain) (c : List ℚ) (b : ℚ) : Except PyErr R :=
  match D.realVars with
  | .error e => .error e
  | .ok rs =>
    match boxRows D rs.length 0 rs with
    | .error e => .error e
    | .ok rows => .ok (P.make (rows ++ [(c, b)]))

/-- The box itself: a last row of zeros (/repo/pywmi/plot.py:78, 107). -/
def wholeRegion (P : Polytopes R) (D : Domain) : Except PyErr R :=
  match D.realVars with
  | .error e => .error e
  | .ok rs => boundedRegion P D (rs.map fun _ => 0) 0

/-- The loops of `walk_and` and `walk_or` (/repo/pywmi/plot.py:46-48, 53-55).  Operands that are no regions are an AttributeError. -/
def combineRegions (op : R → R → R) : PlotVal R → List (PlotVal R) → Except PyErr (PlotVal R)
  | v, [] => .ok v
  | .region r, .region s :: vs => combineRegions op (.region (op r s)) vs
  | _, _ :: _ => .error .attributeError

/-- `walk_and` and `walk_or` after the arguments were walked (/repo/pywmi/plot.py:43-55). -/
def foldRegions (op : R → R → R) : List (PlotVal R) → Except PyErr (PlotVal R)
  | [] => .error .indexError
  | v :: vs => combineRegions op v vs

/-- `walk_lte` (/repo/pywmi/plot.py:86-92). -/
def compareRegion (P : Polytopes R) (D : Domain) (l r : Formula) : Except PyErr (PlotVal R) :=
  match linFromSmt (.le l r) with
  | .error e => .error e
  | .ok q =>
    match D.realVars with
    | .error e => .error e
    | .ok rs =>
      match boundedRegion P D (rs.map fun v => linCoef q [v]) (linB q) with
      | .error e => .error e
      | .ok x => .ok (.region x)

/-- `walk_not` once the argument was walked (/repo/pywmi/plot.py:77-78). -/
def notRegion (P : Polytopes R) (D : Domain) (v : PlotVal R) : Except PyErr (PlotVal R) :=
  match wholeRegion P D with
  | .error e => .error e
  | .ok w =>
    match v with
    | .region r => .ok (.region (P.diff w r))
    | _ => .error .attributeError

/-- `walk_constant` for Booleans (/repo/pywmi/plot.py:107-111). -/
def constRegion (P : Polytopes R) (D : Domain) (b : Bool) : Except PyErr (PlotVal R) :=
  match wholeRegion P D with
  | .error e => .error e
  | .ok w => .ok (.region (if b then w else P.diff w w))

/-- `walk_plus` once the arguments were walked (/repo/pywmi/plot.py:57-63). -/
def plusTerms : List (PlotVal R) → Except PyErr (PlotVal R)
  | [] => .ok .terms
  | .name _ :: vs => plusTerms vs
  | .terms :: vs => plusTerms vs
  | _ :: _ => .error .typeError

/-- `walk_times` once the arguments were walked (/repo/pywmi/plot.py:68-75). -/
def timesTerms : List (PlotVal R) → Except PyErr (PlotVal R)
  | [.name _, _] => .ok .terms
  | [_, .name _] => .ok .terms
  | [_, .num _] => .ok .terms
  | [_, _] => .error .typeError
  | _ => .error .runtimeError

/-- `RegionBuilder` (/repo/pywmi/plot.py:23-111). -/
def regionW (P : Polytopes R) (D : Domain) : Walker (PlotVal R) where
  onAnd as := callAll as fun vs => ofExcept (foldRegions P.inter vs)
  onOr as := callAll as fun vs => ofExcept (foldRegions P.union vs)
  onNot a := .call a fun v => ofExcept (notRegion P D v)
  onTimes as := callAll as fun vs => ofExcept (timesTerms vs)
  onPlus as := callAll as fun vs => ofExcept (plusTerms vs)
  onMinus _ _ := .fail .runtimeError
  onIte _ _ _ := .fail .runtimeError
  onPow _ _ := .fail .runtimeError
  onLte l r := ofExcept (compareRegion P D l r)
  onLt l r := ofExcept (compareRegion P D l r)
  onEquals _ _ := .fail .runtimeError
  onSymbol n _ := .done (.name n)
  onBool b := ofExcept (constRegion P D b)
  onReal q := .done (.num q)

/-- `RegionBuilder(domain).walk_smt(formula)`. -/
def regionOf (P : Polytopes R) (D : Domain) (f : Formula) : Except PyErr (PlotVal R) := (regionW P D).walk f

/-! ### Panels -/

/-- `itertools.product([True, False], repeat=n)` (/repo/pywmi/plot.py:145). -/
def plotAssignments : ℕ → List (List Bool)
  | 0 => [[]]
  | n + 1 => [true, false].flatMap fun b => (plotAssignments n).map (b :: ·)

/-- The loops that compute `row` and `col` (/repo/pywmi/plot.py:146-152). -/
def panelNumber (bs : List Bool) : ℕ := bs.foldl (fun n b => n * 2 + if b then 1 else 0) 0

/-- `index` (/repo/pywmi/plot.py:139-140, 146-154): the first half of the variables is the row. -/
def panelIndex (n : ℕ) (a : List Bool) : ℕ := panelNumber (a.take (n / 2)) * 2 ^ (n - n / 2) + panelNumber (a.drop (n / 2))

/-- The region drawn in a panel (/repo/pywmi/plot.py:157-168); `simp` is pysmt's `simplify`. -/
def panelRegion (P : Polytopes R) (simp : Formula → Formula) (D : Domain) (bools : List String) (formula : Option Formula) (a : List Bool) : Except PyErr (Option R) :=
  match formula with
  | none => .ok none
  | some f =>
    match regionOf P D (simp (f.substB fun n => (bools.zip a).lookup n)) with
    | .error .valueError => .ok none
    | .error e => .error e
    | .ok (.region r) =>
      match P.dim r with
      | .error .indexError => .ok none
      | .error .valueError => .ok none
      | .error e => .error e
      | .ok d => .ok (if d = 2 then some r else none)
    | .ok _ => .error .attributeError

/-- The argument `data`: an array with labels, or pairs of a dictionary and a label (/repo/pywmi/plot.py:132).  True is 1. -/
inductive PlotData where
  | table (rows : List (List ℚ)) (labels : List ℚ)
  | dicts (rows : List (List (String × ℚ) × Bool))

/-- A row of the data, as the argument `condition` gets it. -/
inductive PlotRow where
  | arr (row : List ℚ)
  | inst (row : List (String × ℚ))

/-- An argument `feat_x` or `feat_y`: a name, an index (not negative) or `None`. -/
inductive Feat where
  | name (n : String)
  | index (i : ℕ)
  | missing

/-- `status` (/repo/pywmi/plot.py:172-173). -/
inductive PlotStatus where
  | active | newActive | excluded
deriving DecidableEq, Repr

/-- An entry of `points` (/repo/pywmi/plot.py:188, 196). -/
structure PlotPoint where
  label : Bool
  correct : Bool
  status : PlotStatus
  point : ℚ × ℚ
deriving DecidableEq, Repr

/-- Marker, colour and opacity (/repo/pywmi/plot.py:198-214). -/
structure PlotStyle where
  marker : String
  color : String
  alpha : ℚ
deriving DecidableEq, Repr

/-- The remaining arguments of `plot_combined` (/repo/pywmi/plot.py:128-137). -/
structure PlotArgs where
  x : Feat
  y : Feat
  learned : Option (List Bool)
  active : List ℕ
  newActive : List ℕ
  condition : Option (PlotRow → Bool → Bool)

/-- `row[i]`. -/
def entryAt (row : List ℚ) (i : ℕ) : Except PyErr ℚ :=
  match row[i]? with
  | some x => .ok x
  | none => .error .indexError

/-- `var_index_map` (/repo/pywmi/domain.py:75-76). -/
def varIndexMap (D : Domain) : List (String × ℕ) := dictOf D.vars.zipIdx

/-- `all(row[v] == a …)` (/repo/pywmi/plot.py:187, 194): stops at the first difference. -/
def matchAll (get : String → Except PyErr ℚ) : List (String × Bool) → Except PyErr Bool
  | [] => .ok true
  | (v, a) :: rest =>
    match get v with
    | .error e => .error e
    | .ok x => if x = (if a then 1 else 0) then matchAll get rest else .ok false

/-- `status` (/repo/pywmi/plot.py:172-173). -/
def plotStatus (A : PlotArgs) (i : ℕ) : PlotStatus :=
  if i ∈ A.active then .active else if i ∈ A.newActive then .newActive else .excluded

/-- `correct` (/repo/pywmi/plot.py:186, 193). -/
def plotCorrect (A : PlotArgs) (i : ℕ) (label : Bool) : Except PyErr Bool :=
  match A.learned with
  | none => .ok true
  | some ls =>
    match ls[i]? with
    | some l => .ok (decide (l = label))
    | none => .error .indexError

/-- One row of the data (/repo/pywmi/plot.py:182-188, 190-196): read the point and the label, then compare the Boolean values. -/
def plotRow (A : PlotArgs) (panel : List (String × Bool)) (i : ℕ) (row : PlotRow) (x y : Except PyErr ℚ) (label : Except PyErr Bool)
    (get : String → Except PyErr ℚ) : Except PyErr (List PlotPoint) := do
  let px ← x
  let py ← y
  let l ← label
  let c ← plotCorrect A i l
  let m ← matchAll get panel
  .ok (if m && (match A.condition with | none => true | some p => p row l) then [⟨l, c, plotStatus A i, (px, py)⟩] else [])

/-- The column of a feature in an array (/repo/pywmi/plot.py:178-179). -/
def featColumn (D : Domain) : Feat → Except PyErr ℕ
  | .index i => .ok i
  | .name n => dictGet (varIndexMap D) n
  | .missing => .error .keyError

/-- `float(instance[feat])` (/repo/pywmi/plot.py:192). -/
def featEntry (row : List (String × ℚ)) : Feat → Except PyErr ℚ
  | .name n => dictGet row n
  | _ => .error .keyError

/-- The loop over the rows of an array (/repo/pywmi/plot.py:181-188). -/
def tablePoints (D : Domain) (A : PlotArgs) (panel : List (String × Bool)) (fx fy : ℕ) (labels : List ℚ) : ℕ → List (List ℚ) → Except PyErr (List PlotPoint)
  | _, [] => .ok []
  | i, row :: rows => do
    let here ← plotRow A panel i (.arr row) (entryAt row fx) (entryAt row fy)
      (match entryAt labels i with | .ok l => .ok (decide (l = 1)) | .error e => .error e)
      (fun v => match dictGet (varIndexMap D) v with | .ok k => entryAt row k | .error e => .error e)
    let rest ← tablePoints D A panel fx fy labels (i + 1) rows
    .ok (here ++ rest)

/-- The loop over pairs of a dictionary and a label (/repo/pywmi/plot.py:190-196). -/
def dictPoints (A : PlotArgs) (panel : List (String × Bool)) : ℕ → List (List (String × ℚ) × Bool) → Except PyErr (List PlotPoint)
  | _, [] => .ok []
  | i, (row, l) :: rows => do
    let here ← plotRow A panel i (.inst row) (featEntry row A.x) (featEntry row A.y) (.ok l) (dictGet row)
    let rest ← dictPoints A panel (i + 1) rows
    .ok (here ++ rest)

/-- The list `points` of a panel (/repo/pywmi/plot.py:170-196). -/
def panelPoints (D : Domain) (A : PlotArgs) (panel : List (String × Bool)) : PlotData → Except PyErr (List PlotPoint)
  | .table rows labels => do
    let fx ← featColumn D A.x
    let fy ← featColumn D A.y
    tablePoints D A panel fx fy labels 0 rows
  | .dicts rows => dictPoints A panel 0 rows

/-- `get_marker`, `get_color` and `get_alpha` (/repo/pywmi/plot.py:198-214). -/
def plotStyle (label : Bool) (s : PlotStatus) : PlotStyle :=
  ⟨if label then "+" else ".", if s = .active then "black" else if label then "green" else "red",
    match s with | .active => 1 / 2 | .newActive => 1 | .excluded => 1 / 5⟩

/-- The groups of points that are drawn together (/repo/pywmi/plot.py:216-222). -/
def plotGroups : List (Bool × Bool × PlotStatus) :=
  [true, false].flatMap fun l => [true, false].flatMap fun c => [PlotStatus.active, .newActive, .excluded].map fun s => (l, c, s)

/-- The calls of `scatter` (/repo/pywmi/plot.py:216-222). -/
def scatters (points : List PlotPoint) : List (PlotStyle × List (ℚ × ℚ)) :=
  plotGroups.flatMap fun g =>
    let sel := (points.filter fun p => decide (p.label = g.1 ∧ p.correct = g.2.1 ∧ p.status = g.2.2)).map (·.point)
    if sel.length > 0 then [(plotStyle g.1 g.2.2, sel)] else []

/-- `domain.var_domains[feat]` (/repo/pywmi/plot.py:224-225). -/
def featLimits (D : Domain) : Feat → Except PyErr Bounds
  | .name n => dictGet D.varDomains n
  | _ => .error .keyError

/-- A panel: its index, the region, the marks and the limits of the axes. -/
structure PlotPanel (R : Type) where
  index : ℕ
  region : Option R
  marks : List (PlotStyle × List (ℚ × ℚ))
  xlim : Bounds
  ylim : Bounds

/-- The body of the loop over the assignments (/repo/pywmi/plot.py:145-225). -/
def plotPanel (P : Polytopes R) (simp : Formula → Formula) (D : Domain) (bools : List String) (formula : Option Formula) (data : PlotData) (A : PlotArgs)
    (a : List Bool) : Except PyErr (PlotPanel R) := do
  let r ← panelRegion P simp D bools formula a
  let ps ← panelPoints D A (bools.zip a) data
  let lx ← featLimits D A.x
  let ly ← featLimits D A.y
  .ok ⟨panelIndex bools.length a, r, scatters ps, lx, ly⟩

/-- `plot_combined` (/repo/pywmi/plot.py:128-231): the panels of the figure. -/
def plotCombined (P : Polytopes R) (simp : Formula → Formula) (D : Domain) (formula : Option Formula) (data : PlotData) (A : PlotArgs) :
    Except PyErr (List (PlotPanel R)) :=
  match D.boolVars with
  | .error e => .error e
  | .ok bools => mapE (plotPanel P simp D bools formula data A) (plotAssignments bools.length)

/-- The choice of features in `plot_formula` (/repo/pywmi/plot.py:115-118). -/
def formulaFeatures (D : Domain) : Option (Feat × Feat) → Except PyErr (Feat × Feat)
  | none | some (.missing, .missing) =>
    match D.realVars with
    | .error e => .error e
    | .ok (x :: y :: _) => .ok (.name x, .name y)
    | .ok _ => .error .indexError
  | some (x, .missing) => .ok (x, x)
  | some p => .ok p

/-- `plot_formula` (/repo/pywmi/plot.py:114-119). -/
def plotFormula (P : Polytopes R) (simp : Formula → Formula) (D : Domain) (f : Formula) (features : Option (Feat × Feat)) : Except PyErr (List (PlotPanel R)) :=
  match formulaFeatures D features with
  | .error e => .error e
  | .ok (x, y) => plotCombined P simp D (some f) (.dicts []) ⟨x, y, none, [], [], none⟩

end
end Pywmi
