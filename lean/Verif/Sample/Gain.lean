import Mathlib.Analysis.SpecialFunctions.Log.Base
import Verif.Sample.Adaptive

/-!
# The split criterion of adaptive rejection

Model of `entropy` in /repo/pywmi/engines/adaptive_rejection.py on real numbers.  `information_gain` is `infoGain`.
-/

namespace Pywmi

/-- `entropy` (/repo/pywmi/engines/adaptive_rejection.py:246-251). -/
noncomputable def sideEntropy (pos neg : ℕ) : ℝ :=
  if pos + neg = 0 then 1
  else
    let p1 : ℝ := (pos : ℝ) / ((pos + neg : ℕ) : ℝ)
    let p2 : ℝ := (neg : ℝ) / ((pos + neg : ℕ) : ℝ)
    (-p1) * (if p1 ≠ 0 then Real.logb 2 p1 else 0) - p2 * (if p2 ≠ 0 then Real.logb 2 p2 else 0)

end Pywmi
