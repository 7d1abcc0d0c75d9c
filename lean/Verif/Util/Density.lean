import Verif.Smt.Check
import Verif.Domain.Domain

set_option linter.unusedSectionVars false

/-!
# Plots of densities

Model of `plot_density` (/repo/pywmi/plot.py:234-287): the points that are drawn and their heights or colours. Figures, colour maps, limits
of the axes and files are left out. Numbers are elements of an ordered field.
-/

namespace Pywmi
open Prog

section
variable {K : Type} [Field K] [LinearOrder K] [IsStrictOrderedRing K]

/-- `np.linspace(lo, hi, n)` for `n > 1` (/repo/pywmi/plot.py:265-266). -/
def linspace (lo hi : K) (n : ℕ) : List K := (List.range n).map fun (k : ℕ) => lo + k * ((hi - lo) / ((n - 1 : ℕ) : K))

/-- The axis of a feature: a missing bound makes `linspace` raise a TypeError (/repo/pywmi/plot.py:265-266). -/
def axis (K : Type) [Field K] [LinearOrder K] [IsStrictOrderedRing K] (D : Domain) (v : String) (n : ℕ) : Except PyErr (List K) :=
  match dictGet D.varDomains v with
  | .error e => .error e
  | .ok (some l, some u) => .ok (linspace (l : K) (u : K) n)
  | .ok _ => .error .typeError

/-- A feature or, if none is given, a real variable of the domain (/repo/pywmi/plot.py:246-247); the empty name counts as none. -/
def chooseFeat (rs : List String) (i : ℕ) : Option String → Except PyErr String
  | some v =>
    if v = "" then (match rs[i]? with | some r => .ok r | none => .error .indexError)
    else .ok v
  | none => match rs[i]? with | some r => .ok r | none => .error .indexError

/-- `evaluate(domain, weight, data) * labels` (/repo/pywmi/plot.py:272-273). -/
def weigh (w l : EvalResult K) : Except PyErr (List K) :=
  match w, l with
  | .batch (.r ws), .batch (.b ls) => elementwise (fun x (b : Bool) => x * if b then 1 else 0) ws ls
  | _, _ => .error .typeError

/-- One column of the grid (/repo/pywmi/plot.py:270-273): the points with first coordinate `x`, and their values. -/
def gridColumn (pypow : K → K → Except PyErr K) (vars : List String) (support weight : Formula) (ys : List K) (x : K) :
    Except PyErr (List (K × K × K)) :=
  let data : Values K := .table (ys.map fun y => [x, y]) 2
  match evaluate pypow vars support data with
  | .error e => .error e
  | .ok l =>
    match evaluate pypow vars weight data with
    | .error e => .error e
    | .ok w =>
      match weigh w l with
      | .error e => .error e
      | .ok zs => .ok (List.zipWith (fun y z => (x, y, z)) ys zs)

/-- `plot_density` (/repo/pywmi/plot.py:234-287): the points and their values; `simp` is `simplify` of pysmt. -/
def densityPoints (pypow : K → K → Except PyErr K) (simp : Formula → Formula) (D : Domain) (support weight : Formula)
    (featX featY : Option String) (d3 : Bool) : Except PyErr (List (K × K × K)) :=
  match D.boolVars, D.realVars with
  | .error e, _ => .error e
  | _, .error e => .error e
  | .ok bs, .ok rs =>
    match chooseFeat rs 0 featX with
    | .error e => .error e
    | .ok fx =>
      match chooseFeat rs 1 featY with
      | .error e => .error e
      | .ok fy =>
        if bs.length ≠ 0 then .error .assertionError
        else
          let n := if d3 then 1000 else 100
          match axis K D fx n, axis K D fy n with
          | .error e, _ => .error e
          | _, .error e => .error e
          | .ok xs, .ok ys =>
            match mapE (gridColumn pypow D.vars (simp support) (simp weight) ys) xs with
            | .error e => .error e
            | .ok cs => .ok cs.flatten

end

end Pywmi
