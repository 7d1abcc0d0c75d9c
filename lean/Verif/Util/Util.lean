import Verif.Smt.Formula
import Mathlib.Data.List.Dedup

/-!
# Multimaps and temporary files (/repo/pywmi/multimap.py, /repo/pywmi/temp.py)
-/

namespace Pywmi

section
variable {κ ν : Type} [DecidableEq κ] [DecidableEq ν]

/-- `multimap` (/repo/pywmi/multimap.py:9-11): a `defaultdict(set)`.  A set is a list without repetition; Python's order
of a set is arbitrary, here it is the order of insertion. -/
abbrev MMap (κ ν : Type) := List (κ × List ν)

/-- `m[k]`, which inserts an empty set for a missing key (`defaultdict.__missing__`). -/
def MMap.touch : MMap κ ν → κ → MMap κ ν
  | [], k => [(k, [])]
  | (k', vs) :: m, k => if k' = k then (k', vs) :: m else (k', vs) :: MMap.touch m k

/-- `m[k].add(v)`. -/
def MMap.add : MMap κ ν → κ → ν → MMap κ ν
  | [], k, v => [(k, [v])]
  | (k', vs) :: m, k, v =>
    if k' = k then (k', if v ∈ vs then vs else vs ++ [v]) :: m else (k', vs) :: MMap.add m k v

/-- `m[k].discard(v)`. -/
def MMap.discard : MMap κ ν → κ → ν → MMap κ ν
  | [], k, _ => [(k, [])]
  | (k', vs) :: m, k, v => if k' = k then (k', vs.filter (· ≠ v)) :: m else (k', vs) :: MMap.discard m k v

/-- `flat_items` (/repo/pywmi/multimap.py:13-16). -/
def MMap.flatItems : MMap κ ν → List (κ × ν)
  | [] => []
  | (k, vs) :: m => (vs.map fun v => (k, v)) ++ MMap.flatItems m
/-- `flat_values` (/repo/pywmi/multimap.py:18-21). -/
def MMap.flatValues : MMap κ ν → List ν
  | [] => []
  | (_, vs) :: m => vs ++ MMap.flatValues m
/-- The loop of `flat_len` (/repo/pywmi/multimap.py:23-27). -/
def MMap.lenLoop : ℕ → MMap κ ν → ℕ
  | s, [] => s
  | s, (_, vs) :: m => MMap.lenLoop (s + vs.length) m
/-- `flat_len` (/repo/pywmi/multimap.py:23-27). -/
def MMap.flatLen (m : MMap κ ν) : ℕ := MMap.lenLoop 0 m

/-- `flatten` (/repo/pywmi/multimap.py:29-35): the result, and the multimap afterwards (`pop` removes the values). -/
def MMap.flatten : MMap κ ν → Except PyErr (List (κ × ν)) × MMap κ ν
  | [] => (.ok [], [])
  | (k, vs) :: m =>
    match vs with
    | [v] =>
      match MMap.flatten m with
      | (.ok d, m') => (.ok ((k, v) :: d), (k, []) :: m')
      | (.error e, m') => (.error e, (k, []) :: m')
    | _ => (.error .notFlat, (k, vs) :: m)

/-- Changes of a multimap. -/
inductive MOp (κ ν : Type) where
  | add (k : κ) (v : ν) | touch (k : κ) | discard (k : κ) (v : ν)
/-- Apply a change. -/
def MOp.run (m : MMap κ ν) : MOp κ ν → MMap κ ν
  | .add k v => m.add k v | .touch k => m.touch k | .discard k v => m.discard k v
end

/-! ### Temporary files -/

/-- The part of the operating system seen by the helper: existing files and open descriptors. -/
structure Os where
  files : List String
  fds : ℕ
deriving DecidableEq, Repr

/-- Something the program runs: it may change the system, and finishes or raises. -/
abbrev Action (α : Type) := Os → Except PyErr α × Os

/-- `TemporaryFile.__enter__` (/repo/pywmi/temp.py:13-18): `tempfile.mkstemp` creates the file and opens it; `fresh` is
the name it chooses. -/
def tempEnter (fresh : Os → String) (callback : Option (String → Action Unit)) : Action String := fun s =>
  let name := fresh s
  let s1 : Os := ⟨name :: s.files, s.fds + 1⟩
  match callback with
  | none => (.ok name, s1)
  | some cb =>
    match cb name s1 with
    | (.error e, s2) => (.error e, s2)
    | (.ok (), s2) => (.ok name, s2)

/-- `TemporaryFile.__exit__` (/repo/pywmi/temp.py:20-22). -/
def tempExit (name : String) (s : Os) : Os := if name ∈ s.files then ⟨s.files.filter (· ≠ name), s.fds⟩ else s

/-- `with TemporaryFile(callback=cb) as f: body`: `__exit__` runs when `__enter__` has returned. -/
def withTemp {α : Type} (fresh : Os → String) (cb : Option (String → Action Unit)) (body : String → Action α) : Action α :=
  fun s =>
    match tempEnter fresh cb s with
    | (.error e, s1) => (.error e, s1)
    | (.ok name, s1) => let r := body name s1; (r.1, tempExit name r.2)

end Pywmi
