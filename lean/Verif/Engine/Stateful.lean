import Mathlib.Data.Real.Basic
import Verif.Engine.Engine

/-!
# Engines with a state that copies share

The pools of pyxadd are handed from an engine to its copies (/repo/pywmi/engines/pyxadd/engine.py:160-167), so queries change the pool that
later queries find.  Engines without such a state are the case of one state.
-/

namespace Pywmi

/-- An engine class with its options: `compute_volume` of an object, in a state. -/
structure StatefulEngine where
  S : Type
  vol : EngineObj → Bool → S → Except PyErr ℝ × S
  start : S

namespace StatefulEngine
variable (g : StatefulEngine)

/-- The answers to queries, one after the other (the list comprehension in /repo/pywmi/engine.py:32-33); `v` is the volume. -/
noncomputable def answers (e : EngineObj) (ab : Bool) (v : ℝ) : List Formula → g.S → Except PyErr (List (Option ℝ)) × g.S
  | [], s => (.ok [], s)
  | q :: qs, s =>
    if v > 0 then
      match g.vol (e.withConstraint q) ab s with
      | (.error err, s) => (.error err, s)
      | (.ok vq, s) =>
        match answers e ab v qs s with
        | (.error err, s) => (.error err, s)
        | (.ok r, s) => (.ok (some (vq / v) :: r), s)
    else
      match answers e ab v qs s with
      | (.error err, s) => (.error err, s)
      | (.ok r, s) => (.ok (none :: r), s)

/-- `compute_probabilities` (/repo/pywmi/engine.py:29-33) in a state. -/
noncomputable def probabilitiesIn (e : EngineObj) (queries : List Formula) (ab : Bool) (s : g.S) : Except PyErr (List (Option ℝ)) × g.S :=
  match g.vol e ab s with
  | (.error err, s) => (.error err, s)
  | (.ok v, s) => g.answers e ab v queries s

/-- `compute_volume` of a new engine. -/
def volume (e : EngineObj) (ab : Bool) : Except PyErr ℝ := (g.vol e ab g.start).1

/-- `compute_probabilities` of a new engine. -/
noncomputable def probabilities (e : EngineObj) (queries : List Formula) (ab : Bool) : Except PyErr (List (Option ℝ)) :=
  (g.probabilitiesIn e queries ab g.start).1

/-- An engine without a state. -/
def pure (vol : EngineObj → Bool → Except PyErr ℝ) : StatefulEngine := ⟨Unit, fun e ab s => (vol e ab, s), ()⟩

end StatefulEngine
end Pywmi
