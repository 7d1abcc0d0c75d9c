import Verif.Algebra.Backend

/-!
# Back-ends whose values are texts

Model of `StringAlgebra` and `XaddAlgebra` (/repo/pywmi/engines/algebraic_backend.py:316-407).  A text is the list of its tokens; the names of
variables and the texts of non-negative numbers (also of fractions) are single tokens, so that equality of texts is equality of token lists.
`StringAlgebra.power` hands the text to PSI and is not modelled.
-/

namespace Pywmi

/-- The tokens of the texts. -/
inductive TTok where
  | lp | rp | lb | rb | star | plus | minus | lt | le
  | openI
  | openD
  | closeI
  | word (w : String)
  | name (x : String)
  | num (q : ℚ)
deriving DecidableEq, Repr

/-- A text. -/
abbrev TText := List TTok

/-- `str` of a number: a sign and the text of a non-negative number (/repo/pywmi/engines/algebraic_backend.py:342-343). -/
def numText (q : ℚ) : TText := if q < 0 then [.minus, .num (-q)] else [.num q]

/-- `StringAlgebra` (/repo/pywmi/engines/algebraic_backend.py:316-349). -/
def stringAlgebra : Algebra TText where
  real q := numText q
  symbol x := [.name x]
  times a b :=
    if a = numText 1 then b
    else if b = numText 1 then a
    else if a = numText 0 ∨ b = numText 0 then numText 0
    else a ++ .star :: b
  plus a b :=
    if a = numText 0 then b
    else if b = numText 0 then a
    else .lp :: a ++ .plus :: b ++ [.rp]
  negate a := .minus :: a
  lessThan a b := .lb :: a ++ .lt :: b ++ [.rb]
  lessThanEqual a b := .lb :: a ++ .le :: b ++ [.rb]

/-- `StringAlgebra.integrate` (/repo/pywmi/engines/algebraic_backend.py:351-353); an empty list of variables stands for all of them.  The tokens are
`I[`, `, d(` and `)]`. -/
def stringIntegrate (reals : List String) (e : TText) (vs : List String) : TText :=
  .openI :: e ++ .openD :: (if vs = [] then reals else vs).map .name ++ [.closeI]

/-- `str` of a number after `(const real ` (/repo/pywmi/engines/algebraic_backend.py:392-393). -/
def constText (q : ℚ) : TText := [.lp, .word "const", .word "real"] ++ numText q ++ [.rp]

/-- `XaddAlgebra` (/repo/pywmi/engines/algebraic_backend.py:367-399). -/
def xaddText : Algebra TText where
  real q := constText q
  symbol x := [.lp, .word "var", .word "real", .name x, .rp]
  times a b :=
    if a = constText 1 then b
    else if b = constText 1 then a
    else if a = constText 0 ∨ b = constText 0 then constText 0
    else .lp :: .star :: a ++ b ++ [.rp]
  plus a b :=
    if a = constText 0 then b
    else if b = constText 0 then a
    else .lp :: .plus :: a ++ b ++ [.rp]
  negate a := .lp :: .minus :: constText 0 ++ a ++ [.rp]
  lessThan a b := .lp :: .word "ite" :: .lp :: .lt :: a ++ b ++ .rp :: constText 1 ++ constText 0 ++ [.rp]
  lessThanEqual a b := .lp :: .word "ite" :: .lp :: .le :: a ++ b ++ .rp :: constText 1 ++ constText 0 ++ [.rp]

/-- `XaddAlgebra.integrate` (/repo/pywmi/engines/algebraic_backend.py:401-403). -/
def xaddIntegrate (reals : List String) (e : TText) (vs : List String) : TText :=
  .lp :: .word "int" :: e ++ .lp :: .word "list" :: (if vs = [] then reals else vs).map .name ++ [.rp, .rp]

end Pywmi
