import Verif.Engine.Engine

set_option linter.unusedSectionVars false

/-!
# Constructors and copies of engines

Model of the constructors and of `copy` of all engine classes, with their settings. Objects that are only handed on (pools, algebras,
back-ends, criteria, strategies) are numbers; all of them are truthy. The oracles and trees of adaptive rejection are modelled elsewhere.
-/

namespace Pywmi

/-- The settings that an engine object stores (/repo/pywmi/engines/pa.py:31-32, mpwmi.py:41, rejection.py:31-32, adaptive_rejection.py:276-282,
xadd.py:33-34, pyxadd/engine.py:142-143, xsdd/engine.py:155-163, 307). -/
inductive Settings where
  | pa (directory : Option String) (timeout : Option ℤ)
  | mpwmi (cache : Bool)
  | rej (count : ℤ) (seed : Option ℤ)
  | adapt (count build : ℤ) (stop split : ℕ) (seed : Option ℤ)
  | xadd (mode : Option String) (timeout : Option ℤ)
  | praise
  | pyxadd (pool : ℕ) (reduce : Option String)
  | xsdd (algebra : ℕ) (backend : Option ℕ) (conflicts ordered : Bool) (vtree : Option ℕ) (minimize : Bool)
  | fxsdd (algebra : ℕ) (conflicts ordered : Bool) (vtree : Option ℕ) (minimize : Bool)
deriving DecidableEq

/-- The arguments of a constructor besides domain, support and weight; `none` is Python's `None`. -/
inductive EngineArgs where
  | pa (directory : Option String) (timeout : Option ℤ)
  | mpwmi (cache : Bool)
  | rej (count : ℤ) (seed : Option ℤ)
  | adapt (count : ℤ) (build : Option ℚ) (stop split : Option ℕ) (seed : Option ℤ)
  | xadd (mode : Option String) (timeout : Option ℤ)
  | praise
  | pyxadd (pool : Option ℕ) (reduce : Option String) (algebra : Option ℕ)
  | xsdd (algebra backend : Option ℕ) (conflicts ordered : Bool) (vtree : Option ℕ) (minimize : Bool)
  | fxsdd (algebra : Option ℕ) (conflicts ordered : Bool) (vtree : Option ℕ) (minimize : Bool)
deriving DecidableEq

/-- What the constructors find around them: which packages are installed, the default objects, and what objects say about themselves. -/
structure Around where
  /-- The error of the installation check of a class (/repo/pywmi/engines/pa.py:27-28, mpwmi.py:36-39, xadd.py:25-32, praise.py:41-44,
  xsdd/engine.py:146-153). -/
  missing : EngineArgs → Option PyErr
  /-- `make_stop_criterion(max_ratio=0.5, max_depth=6)` and `information_gain` (/repo/pywmi/engines/adaptive_rejection.py:278-279). -/
  stop : ℕ
  split : ℕ
  /-- A new pool with this algebra, or with the default one (/repo/pywmi/engines/pyxadd/engine.py:137-142). -/
  pool : Option ℕ → ℕ
  /-- The default algebras (/repo/pywmi/engines/xsdd/engine.py:293-297, engine_factorized.py:212-216). -/
  algebra : ℕ
  falgebra : ℕ
  /-- `algebra.exact` and `convex_backend.exact`. -/
  algExact : ℕ → Bool
  backExact : ℕ → Bool

/-- `int(q)` of a number (/repo/pywmi/engines/adaptive_rejection.py:277): rounding towards zero. -/
def truncInt (q : ℚ) : ℤ := q.num.tdiv q.den

/-- `int(sample_count_build or sample_count / 10)` (/repo/pywmi/engines/adaptive_rejection.py:277). -/
def buildCount (count : ℤ) : Option ℚ → ℤ
  | some b => if b = 0 then truncInt (count / 10) else truncInt b
  | none => truncInt (count / 10)

/-- The settings that the constructors store (/repo/pywmi/engines/pa.py:26-32, mpwmi.py:34-41, rejection.py:29-33, adaptive_rejection.py:271-285,
xadd.py:23-34, praise.py:39-44, pyxadd/engine.py:127-143, xsdd/engine.py:131-163, 282-307, engine_factorized.py:203-219). -/
def settingsOf (A : Around) : EngineArgs → Settings
  | .pa d t => .pa d t
  | .mpwmi c => .mpwmi c
  | .rej n s => .rej n s
  | .adapt n b st sp s => .adapt n (buildCount n b) (st.getD A.stop) (sp.getD A.split) s
  | .xadd m t => .xadd m t
  | .praise => .praise
  | .pyxadd p r a => .pyxadd (p.getD (A.pool a)) r
  | .xsdd a b c o v m => .xsdd (a.getD A.algebra) b c o v m
  | .fxsdd a c o v m => .fxsdd (a.getD A.falgebra) c o v m

/-- The field `exact` (/repo/pywmi/engine.py:18-20; rejection.py:30, adaptive_rejection.py:273, pyxadd/engine.py:136, xsdd/engine.py:303,
engine_factorized.py:217-219; the default otherwise). -/
def exactOf (A : Around) : Settings → Bool
  | .rej _ _ => false
  | .adapt _ _ _ _ _ => false
  | .xsdd a b _ _ _ _ => match b with | some b => A.backExact b | none => A.algExact a
  | .fxsdd a _ _ _ _ => A.algExact a
  | _ => true

/-- The arguments that `copy` hands to the constructor (/repo/pywmi/engines/pa.py:46-49, mpwmi.py:59-60, rejection.py:75-78,
adaptive_rejection.py:319-321, xadd.py:98-99, praise.py:55-56, pyxadd/engine.py:160-167, xsdd/engine.py:250-261, 309-317,
engine_factorized.py:221-222). -/
def copyArgs : Settings → EngineArgs
  | .pa d t => .pa d t
  | .mpwmi c => .mpwmi c
  | .rej n s => .rej n s
  | .adapt n b st sp s => .adapt n (some b) (some st) (some sp) s
  | .xadd m t => .xadd m t
  | .praise => .praise
  | .pyxadd p r => .pyxadd (some p) r none
  | .xsdd a b c o v m => .xsdd (some a) b c o v m
  | .fxsdd a c o v m => .fxsdd (some a) c o v m

/-- The argument `seed` of an engine that draws samples. -/
def Settings.seed : Settings → Option ℤ
  | .rej _ s => s
  | .adapt _ _ _ _ s => s
  | _ => none

/-- An engine object: its settings, `exact`, domain, support and weight, and the state of its generator (of type `S`, unused by the classes
without a generator). -/
structure EngineInst (S : Type) where
  settings : Settings
  exact : Bool
  obj : EngineObj
  rng : S

section
variable {S : Type}

/-- A constructor call. `start` is `RandomState(seed)` (/repo/pywmi/engines/rejection.py:33, adaptive_rejection.py:282). -/
def newEngine (A : Around) (start : Option ℤ → S) (a : EngineArgs) (o : EngineObj) : Except PyErr (EngineInst S) :=
  match A.missing a with
  | some e => .error e
  | none => .ok ⟨settingsOf A a, exactOf A (settingsOf A a), o, start (settingsOf A a).seed⟩

/-- `copy(domain, support, weight)` of all classes. -/
def EngineInst.copy (A : Around) (start : Option ℤ → S) (e : EngineInst S) (o : EngineObj) : Except PyErr (EngineInst S) :=
  newEngine A start (copyArgs e.settings) o

/-- Calls that make engines from engines, and the drawing of samples in between. -/
inductive EngineOp (S : Type) where
  | constraint (c : Formula)
  | evidence (subs : List (Formula × Formula))
  | copyWith (domain : Option Domain) (support weight : Option Formula)
  | draw (f : S → S)

/-- `with_evidence`, `with_constraint`, `copy_with` (/repo/pywmi/engine.py:39-62) on an object; `draw` moves the generator of the object. -/
def EngineInst.step (A : Around) (start : Option ℤ → S) (simp : Formula → Formula) (e : EngineInst S) : EngineOp S → Except PyErr (EngineInst S)
  | .constraint c => e.copy A start (e.obj.withConstraint c)
  | .evidence subs =>
    match e.obj.withEvidence simp subs with
    | .error err => .error err
    | .ok o => e.copy A start o
  | .copyWith d s w => e.copy A start (e.obj.copyWith d s w)
  | .draw f => .ok { e with rng := f e.rng }

/-- A history of calls. -/
def EngineInst.run (A : Around) (start : Option ℤ → S) (simp : Formula → Formula) : EngineInst S → List (EngineOp S) → Except PyErr (EngineInst S)
  | e, [] => .ok e
  | e, op :: ops =>
    match e.step A start simp op with
    | .error err => .error err
    | .ok e' => e'.run A start simp ops

variable {K : Type} [Field K] [LinearOrder K]

/-- A call `self.compute_volume(add_bounds=add_bounds)`: the method of adaptive rejection has no such parameter
(/repo/pywmi/engines/adaptive_rejection.py:300). -/
def EngineInst.volumeCall (vol : Settings → EngineObj → Bool → Except PyErr K) (e : EngineInst S) (ab : Bool) : Except PyErr K :=
  match e.settings with
  | .adapt _ _ _ _ _ => .error .typeError
  | s => vol s e.obj ab

/-- `Engine.compute_probabilities` (/repo/pywmi/engine.py:29-33) on an object, with `with_constraint` as it is. Classes that override it
(/repo/pywmi/engines/mpwmi.py:43, rejection.py:83, praise.py:49) are modelled elsewhere. -/
def EngineInst.probabilities (A : Around) (start : Option ℤ → S) (simp : Formula → Formula) (vol : Settings → EngineObj → Bool → Except PyErr K)
    (e : EngineInst S) (queries : List Formula) (ab : Bool) : Except PyErr (List (Option K)) :=
  match e.volumeCall vol ab with
  | .error err => .error err
  | .ok v =>
    Prog.mapE (fun q =>
      if v > 0 then
        match e.step A start simp (.constraint q) with
        | .error err => .error err
        | .ok e' =>
          match e'.volumeCall vol ab with
          | .error err => .error err
          | .ok vq => .ok (some (vq / v))
      else .ok none) queries

end
end Pywmi
