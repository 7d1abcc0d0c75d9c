import Verif.Sample.Adaptive

/-!
# Samples of a box (/repo/pywmi/engines/rejection.py:15-25)
-/

namespace Pywmi
variable {K : Type} [Field K] [LinearOrder K]

/-- `samples[:, 0:n_boolean_vars] = samples[:, 0:n_boolean_vars] < 0.5` for one row (/repo/pywmi/engines/rejection.py:17). -/
def boxBools (nb : ℕ) (row : List K) : List K := (row.take nb).map (fun r => if r < 1 / 2 then 1 else 0) ++ row.drop nb

/-- The loop over the bounds for one row, from position `j` (/repo/pywmi/engines/rejection.py:19-23). -/
def boxReals : ℕ → ABounds → List K → List K
  | _, [], row => row
  | j, (a, b) :: bs, row => boxReals (j + 1) bs (row.modify j fun r => (a.1 : K) + r * ((b.1 : K) - (a.1 : K)))

/-- `sample` (/repo/pywmi/engines/rejection.py:15-25).  The generator, which is the global one of numpy, is a parameter.  Simplification: the
loops go over the rows instead of the columns. -/
def boxSample (R : Rng K) (nb : ℕ) (bounds : ABounds) (n : ℕ) (s : R.State) : List (List K) × R.State :=
  let d := drawRows R (nb + bounds.length) n s
  (d.1.map fun row => boxReals nb bounds (boxBools nb row), d.2)

end Pywmi
