import Verif.Math.Poly

/-!
# Scaling to integers with Python's numbers (/repo/pywmi/smt_math.py:196-214)

`linScaleToInteger` (Math/Poly.lean) computes exactly and leaves coefficients as they are.  Here `lcm` divides with `/`, so that the result is a
float, and coefficients go through `limit_denominator`.
-/

namespace Pywmi

/-- `int(float)` of the float closest to `n`, ties to the even one: 53 binary digits are kept, numbers below 2^53 are floats (IEEE 754, used by `/` in
/repo/pywmi/smt_math.py:198). -/
def floatNat (n : ℕ) : ℕ :=
  if n < 9007199254740992 then n
  else
    let k := Nat.log2 n - 52
    let m := n / 2 ^ k
    let r := n % 2 ^ k
    if 2 * r < 2 ^ k ∨ (2 * r = 2 ^ k ∧ m % 2 = 0) then m * 2 ^ k else (m + 1) * 2 ^ k

/-- `LinearInequality.lcm` (/repo/pywmi/smt_math.py:196-198).  `/` raises OverflowError if the quotient is no float. -/
def floatLcm (a b : ℕ) : Except PyErr ℕ :=
  let q := floatNat (a * b / Nat.gcd a b)
  if Nat.log2 q < 1024 then .ok q else .error .other

/-- `reduce(LinearInequality.lcm, denominators)` (/repo/pywmi/smt_math.py:205), from the second element. -/
def floatLcmLoop : List ℕ → ℕ → Except PyErr ℕ
  | [], a => .ok a
  | b :: bs, a =>
    match floatLcm a b with
    | .ok c => floatLcmLoop bs c
    | .error e => .error e

/-- `LinearInequality.scale_to_integer` (/repo/pywmi/smt_math.py:200-214); `lim` is `Fraction(v).limit_denominator()`. -/
def scaleFloat (lim : ℚ → ℚ) (d : Dict) : Except PyErr Dict :=
  match d.map fun q => (q.1, lim q.2) with
  | [] => .error .typeError
  | p :: ps =>
    match floatLcmLoop (ps.map fun q => q.2.den) p.2.den with
    | .error e => .error e
    | .ok lcm =>
      let scaled := (p :: ps).map fun q => (q.1, q.2 * (lcm : ℚ))
      match scaled.map fun q => q.2.num.natAbs with
      | [] => .error .typeError
      | n :: ns =>
        let gcd := ns.foldl Nat.gcd n
        if gcd = 0 then .error .zeroDivision
        else .ok (linMk (scaled.map fun q => (q.1, (((q.2 / (gcd : ℚ)).num.tdiv (q.2 / (gcd : ℚ)).den : ℤ) : ℚ))))

end Pywmi
