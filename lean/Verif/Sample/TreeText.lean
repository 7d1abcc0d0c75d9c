import Verif.Sample.Adaptive

/-!
# The text of a tree of adaptive rejection (/repo/pywmi/engines/adaptive_rejection.py:132-149)
-/

namespace Pywmi
variable {K : Type}

/-- `"  " * depth` (/repo/pywmi/engines/adaptive_rejection.py:136). -/
def treeIndent : ℕ → List Char
  | 0 => []
  | d + 1 => ' ' :: ' ' :: treeIndent d

/-- `Node.pretty_print` (/repo/pywmi/engines/adaptive_rejection.py:135-149).  `vars` is `builder.domain.variables`, `V` is
`builder.volume`; `text` is `str` of a number. -/
def prettyTree (text : ℚ → List Char) (vars : List String) (V : ℚ) : ℕ → ATree K → Except PyErr (List Char)
  | d, .leaf c =>
    if c.empty then .ok (treeIndent d ++ "[E]\n".toList)
    else if c.labels.length = 0 ∨ V = 0 then .error .zeroDivision
    else .ok (treeIndent d ++ ('[' :: text ((countTrue c.labels : ℚ) / (c.labels.length : ℚ)) ++ " * ".toList ++ text (c.volume / V) ++ "]\n".toList))
  | d, .node _ sp l r =>
    match vars[sp.1]? with
    | none => .error .indexError
    | some v =>
      match prettyTree text vars V (d + 1) l with
      | .error e => .error e
      | .ok a =>
        match prettyTree text vars V (d + 1) r with
        | .error e => .error e
        | .ok b => .ok (treeIndent d ++ ('[' :: v.toList ++ " <= ".toList ++ text sp.2 ++ "]\n".toList) ++ a ++ b)

end Pywmi
