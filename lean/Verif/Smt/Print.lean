import Verif.Smt.Transform

/-!
# The pretty printer

Model of /repo/pywmi/smt_print.py (`PrintWalker`, `pretty_print` without rounding).

A text is a list of lexemes: brackets, operators, key words, names and non-negative numbers; spaces are left out.  The tests of the
code on strings (`arg == "0"`, `arg.startswith("-")`, first character a digit) are tests on the first lexemes.  This assumes that
names of variables do not look like numbers and do not start with `-`.
-/

namespace Pywmi
open Formula Prog

/-- Lexemes of printed formulas. -/
inductive PTok where
  | lp | rp | amp | bar | tilde | plus | minus | star | hat | le | lt | eq | kIf | kThen | kElse
  | name (s : String)
  | num (q : ℚ)
  | tru | fls
deriving DecidableEq, Repr

/-- A printed text. -/
abbrev PText := List PTok

/-- `arg.startswith("-")`, `arg[0] == "-"` (/repo/pywmi/smt_print.py:26, 42-43). -/
def startsMinus : PText → Bool
  | .minus :: _ => true
  | _ => false

/-- `any(x.startswith(d) for d in "0123456789")` (/repo/pywmi/smt_print.py:44). -/
def startsDigit : PText → Bool
  | .num _ :: _ => true
  | _ => false

/-- `sep.join(args)` (/repo/pywmi/smt_print.py:11, 14, 45). -/
def joinText (sep : PTok) : List PText → PText
  | [] => []
  | [t] => t
  | t :: ts => t ++ sep :: joinText sep ts

/-- `walk_plus` on the printed arguments (/repo/pywmi/smt_print.py:18-29).  The list is not empty after the filter. -/
def showPlus (ts : List PText) : PText :=
  if ts.all (· = [.num 0]) then [.num 0]
  else
    match ts.filter (· ≠ [.num 0]) with
    | [] => []
    | a :: as => as.foldl (fun r t => if startsMinus t then r ++ .minus :: t.tail else r ++ .plus :: t) a

/-- `walk_times` on the printed arguments (/repo/pywmi/smt_print.py:35-45).  `sorted` is stable: numbers come first.  Arguments are
never empty, so that `arg[0]` exists. -/
def showTimes (ts : List PText) : PText :=
  if ts.any (· = [.num 0]) then [.num 0]
  else if ts.all (· = [.num 1]) then [.num 1]
  else
    let as := ts.filter (· ≠ [.num 1])
    let sign := (as.filter startsMinus).length % 2
    let bs := as.map fun a => if startsMinus a then a.tail else a
    let cs := bs.filter startsDigit ++ bs.filter (fun b => !startsDigit b)
    (if sign = 1 then [.minus] else []) ++ joinText .star cs

/-- `walk_constant` on a real constant, `rounding=None` (/repo/pywmi/smt_print.py:74-81).  The float that is printed is idealised as the
number. -/
def showConst (q : ℚ) : PText := if q < 0 then [.minus, .num (-q)] else [.num q]

mutual
/-- The walk over the sides of a normalised inequality (/repo/pywmi/smt_print.py:58, 63).  These terms are built by
`LinearInequality.to_smt`; other nodes than the ones listed do not occur. -/
def termText : Formula → Except PyErr PText
  | .plus as => match termTexts as with
    | .ok ts => .ok (showPlus ts)
    | .error e => .error e
  | .times as => match termTexts as with
    | .ok ts => .ok (showTimes ts)
    | .error e => .error e
  | .sym n _ => .ok [.name n]
  | .realC q => .ok (showConst q)
  | _ => .error .other
/-- The walk over the arguments. -/
def termTexts : List Formula → Except PyErr (List PText)
  | [] => .ok []
  | a :: as => match termText a with
    | .error e => .error e
    | .ok t => match termTexts as with
      | .error e => .error e
      | .ok ts => .ok (t :: ts)
end

/-- `walk_lte` and `walk_lt` (/repo/pywmi/smt_print.py:56-64): both normalise `left <= right`, and print their own sign. -/
def showCmp (sign : PTok) (l r : Formula) : Except PyErr PText :=
  match normalizeAtom (.le l r) with
  | .error e => .error e
  | .ok (.le a b) | .ok (.lt a b) => match termText a with
    | .error e => .error e
    | .ok ta => match termText b with
      | .error e => .error e
      | .ok tb => .ok (.lp :: ta ++ sign :: tb ++ [.rp])
  | .ok _ => .error .valueError

/-- `PrintWalker` (/repo/pywmi/smt_print.py:6-81). -/
def printW : Walker PText where
  onAnd as := .callAll as fun ts => .done (.lp :: joinText .amp ts ++ [.rp])
  onOr as := .callAll as fun ts => .done (.lp :: joinText .bar ts ++ [.rp])
  onNot a := .call a fun t => .done (.tilde :: t)
  onTimes as := .callAll as fun ts => .done (showTimes ts)
  onPlus as := .callAll as fun ts => .done (showPlus ts)
  onMinus l r := call2 l r fun a b => .ok (a ++ .minus :: b)
  onIte i t e := .call i fun a => .call t fun b => .call e fun c => .done (.lp :: .kIf :: a ++ .kThen :: b ++ .kElse :: c ++ [.rp])
  onPow b e := call2 b e fun x y => .ok (x ++ .hat :: y)
  onLte l r := .ofExcept (showCmp .le l r)
  onLt l r := .ofExcept (showCmp .lt l r)
  onEquals l r := call2 l r fun a b => .ok (.lp :: a ++ .eq :: b ++ [.rp])
  onSymbol n _ := .done [.name n]
  onBool b := .done [if b then .tru else .fls]
  onReal q := .done (showConst q)

/-- `pretty_print(formula)` (/repo/pywmi/smt_print.py:84-85). -/
def prettyPrint (f : Formula) : Except PyErr PText := printW.walk f

theorem printW_decr : printW.Decr := by
  refine Walker.decr_of ?_ ?_ ?_ ?_ ?_ ?_ ?_ ?_ ?_ ?_ ?_ ?_ ?_ ?_ ?_
  · exact fun as n h => callsBelow_callAll h fun rs => trivial
  · exact fun as n h => callsBelow_callAll h fun rs => trivial
  · exact fun as n h => callsBelow_callAll h fun rs => trivial
  · exact fun as n h => callsBelow_callAll h fun rs => trivial
  · exact fun a n h => ⟨h, fun _ => trivial⟩
  · exact fun l r => call2_below (by simp only [msize]; omega) (by simp only [msize]; omega) _
  · exact fun i t e n h1 h2 h3 => ⟨h1, fun _ => ⟨h2, fun _ => ⟨h3, fun _ => trivial⟩⟩⟩
  · exact fun l r n hl hr => call2_below hl hr _
  · exact fun l r n hl hr => callsBelow_ofExcept _ _ _
  · exact fun l r n hl hr => callsBelow_ofExcept _ _ _
  · exact fun l r n hl hr => call2_below hl hr _
  · exact fun _ _ _ => trivial
  · exact fun _ _ => trivial
  · exact fun _ _ => trivial
  · exact Walker.implies_default_below

end Pywmi
