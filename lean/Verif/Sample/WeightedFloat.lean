import Verif.Sample.Sample

/-!
# `weighted_sample` with floats (/repo/pywmi/sample.py:37-51)

As `weightedSample` (Sample/Sample.lean), with every result of `+`, `-` and `*` rounded by `rd`.
-/

namespace Pywmi

/-- The inner loop (/repo/pywmi/sample.py:45-48). -/
def wsAdvanceFloat {V : Type} (rd : ℚ → ℚ) (x w : ℚ) (v : V) : List (ℚ × V) → Except PyErr (ℚ × ℚ × V × List (ℚ × V))
  | [] => if x > w then .error .indexError else .ok (x, w, v, [])
  | (w', v') :: rest => if x > w then wsAdvanceFloat rd (rd (x - w)) w' v' rest else .ok (x, w, v, (w', v') :: rest)

/-- The outer loop (/repo/pywmi/sample.py:42-51); `root n u` is the float `u ** (1.0 / n)`. -/
def wsLoopFloat {V : Type} (rd : ℚ → ℚ) (R : Rng ℚ) (root : ℕ → ℚ → ℚ) : ℕ → ℚ → ℚ → V → List (ℚ × V) → R.State →
    Except PyErr (List V × R.State)
  | 0, _, _, _, _, s => .ok ([], s)
  | n + 1, total, w, v, rest, s =>
    let u := R.next s
    let x := rd (total * rd (1 - root (n + 1) u.1))
    match wsAdvanceFloat rd x w v rest with
    | .error e => .error e
    | .ok (x', w, v, rest) =>
      match wsLoopFloat rd R root n (rd (total - x)) (rd (w - x')) v rest u.2 with
      | .error e => .error e
      | .ok (vs, s) => .ok (v :: vs, s)

/-- `weighted_sample` (/repo/pywmi/sample.py:37-51); `sum` adds from the left. -/
def weightedSampleFloat {V : Type} (rd : ℚ → ℚ) (R : Rng ℚ) (root : ℕ → ℚ → ℚ) (weights : List ℚ) (values : List V) (n : ℕ) (s : R.State) :
    Except PyErr (List V × R.State) :=
  match weights.zip values with
  | [] => .error .indexError
  | (w, v) :: rest => wsLoopFloat rd R root n (weights.foldl (fun a b => rd (a + b)) 0) w v rest s

end Pywmi
