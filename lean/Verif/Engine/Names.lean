import Verif.Engine.Copies
import Verif.Engine.Convex
import Verif.Cli.Options

/-!
# The names that engines print, and the engines that descriptions construct
-/

namespace Pywmi
open Latte

/-- The texts of objects: `str` of a back-end, `__name__` of a strategy for vtrees, and the address of an object. -/
structure ObjTexts where
  backend : ℕ → List Char
  strategy : ℕ → List Char
  address : List Char

/-- `BaseXsddEngine.__str__` (/repo/pywmi/engines/xsdd/engine.py:263-273). -/
def xsddFlags (T : ObjTexts) (conflicts ordered : Bool) (vtree : Option ℕ) (minimize : Bool) : List Char :=
  (if conflicts then ":prune".toList else []) ++ (if ordered then ":order".toList else []) ++
    (match vtree with | some v => ":VS=".toList ++ T.strategy v | none => []) ++ (if minimize then ":minimize".toList else [])

/-- `str(engine)` (/repo/pywmi/engines/pa.py:51-52, mpwmi.py:62-63, rejection.py:80-81, adaptive_rejection.py:323-324, xadd.py:155-159,
praise.py:58-59, xsdd/engine.py:385-386, engine_factorized.py:390-391). The class in pyxadd/engine.py has no `__str__` and prints as Python's
objects do. -/
def engineName (T : ObjTexts) : Settings → List Char
  | .pa _ t => "pa".toList ++ match t with | none => [] | some t => ":t".toList ++ intText t
  | .mpwmi c => "mpwmi".toList ++ if c then " w/cache".toList else []
  | .rej n _ => "rej".toList ++ (":n".toList ++ intText n)
  | .adapt n b _ _ _ => "adapt:n".toList ++ intText n ++ ":b".toList ++ intText b
  | .xadd m t => "xadd:m".toList ++ (match m with | some m => m.toList | none => "None".toList) ++
      match t with | none => [] | some t => ":t".toList ++ intText t
  | .praise => "praise".toList
  | .pyxadd _ _ => "<pywmi.engines.pyxadd.engine.PyXaddEngine object at ".toList ++ T.address ++ ">".toList
  | .xsdd _ b c o v m => "XSDD:BE=".toList ++ (match b with | some b => T.backend b | none => "None".toList) ++ xsddFlags T c o v m
  | .fxsdd _ c o v m => "FXSDD".toList ++ xsddFlags T c o v m

/-- A value that is an integer. -/
def OptVal.int? : OptVal → Option ℤ
  | .int i => some i
  | _ => none

/-- A value that is a text. -/
def OptVal.str? : OptVal → Option String
  | .str s => some (String.ofList s)
  | _ => none

/-- The constructor call with keyword arguments as options (/repo/pywmi/__main__.py:107-128; defaults: /repo/pywmi/engines/pa.py:26, mpwmi.py:34,
rejection.py:29, adaptive_rejection.py:271-272, xadd.py:23). The engines pyxadd and xsdd are left out. -/
def EngineSpec.args (e : EngineSpec) : Option EngineArgs :=
  match e.kind with
  | .pa => some (.pa none ((e.opts.lookup "timeout").bind OptVal.int?))
  | .mpwmi => some (.mpwmi ((e.opts.lookup "cache").isSome))
  | .rej => ((e.opts.lookup "sample_count").bind OptVal.int?).map fun n => .rej n ((e.opts.lookup "seed").bind OptVal.int?)
  | .adapt => ((e.opts.lookup "sample_count").bind OptVal.int?).map fun n => .adapt n none none none ((e.opts.lookup "seed").bind OptVal.int?)
  | .xadd => some (.xadd ((e.opts.lookup "mode").bind OptVal.str?) ((e.opts.lookup "timeout").bind OptVal.int?))
  | .praise => some .praise
  | _ => none

end Pywmi
