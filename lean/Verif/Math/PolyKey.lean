import Verif.Math.Poly

/-!
# Polynomials as keys

Model of the operators of `Polynomial` with operands of any type, of equality and of the stored hash
(/repo/pywmi/smt_math.py:55-85, 118-124).
-/

namespace Pywmi

/-- What can stand on the other side of an operator: a polynomial, an `int` or `float`, or any other object. -/
inductive PolyOperand where
  | poly (p : Dict)
  | num (c : ℚ)
  | other

/-- `Polynomial.__add__` (/repo/pywmi/smt_math.py:55-64). -/
def polyPlus (p : Dict) : PolyOperand → Except PyErr Dict
  | .poly q => .ok (polyAdd p q)
  | .num c => .ok (polyAdd p (polyConst c))
  | .other => .error .notImplemented

/-- `Polynomial.__radd__` (/repo/pywmi/smt_math.py:66-69). Python only calls it with a left operand that is no polynomial. -/
def polyRPlus (p : Dict) : PolyOperand → Except PyErr Dict
  | .num c => polyPlus p (.num c)
  | _ => .error .notImplemented

/-- `Polynomial.__mul__` (/repo/pywmi/smt_math.py:71-80). -/
def polyTimes (p : Dict) : PolyOperand → Except PyErr Dict
  | .poly q => polyMul p q
  | .num c => polyMul p (polyConst c)
  | .other => .error .notImplemented

/-- `Polynomial.__rmul__` (/repo/pywmi/smt_math.py:82-85). -/
def polyRTimes (p : Dict) : PolyOperand → Except PyErr Dict
  | .num c => polyTimes p (.num c)
  | _ => .error .notImplemented

/-- `sum(polynomials)` of Python: `0 + p1 + p2 + …`; the first addition is `p1.__radd__(0)` (/repo/pywmi/smt_math.py:66-69), the sum of no
polynomials is the number 0 (`none`). -/
def polySum : List Dict → Option (Except PyErr Dict)
  | [] => none
  | p :: ps => some (match polyRPlus p (.num 0) with
    | .ok s => .ok (ps.foldl polyAdd s)
    | .error e => .error e)

/-- A polynomial object: its dictionary and the stored hash (/repo/pywmi/smt_math.py:17-21). -/
structure PolyObj where
  dict : Dict
  stored : Option ℤ

/-- `Polynomial(poly_dict)` (/repo/pywmi/smt_math.py:17-21). -/
def PolyObj.new (d : Dict) : PolyObj := ⟨d, none⟩

/-- `Polynomial.__hash__` (/repo/pywmi/smt_math.py:118-121); `h` is Python's hash of the frozen set of the entries. A stored hash of 0 is
computed again. -/
def PolyObj.hash (h : Dict → ℤ) (p : PolyObj) : ℤ × PolyObj :=
  match p.stored with
  | some v => if v = 0 then (h p.dict, ⟨p.dict, some (h p.dict)⟩) else (v, p)
  | none => (h p.dict, ⟨p.dict, some (h p.dict)⟩)

/-- `hash(p)` called a number of times: the answers and the object afterwards. -/
def PolyObj.hashes (h : Dict → ℤ) : ℕ → PolyObj → List ℤ × PolyObj
  | 0, p => ([], p)
  | n + 1, p =>
    let r := p.hash h
    let s := PolyObj.hashes h n r.2
    (r.1 :: s.1, s.2)

/-- A dictionary with polynomials as keys, as Python keeps it: the hash of a key is compared before `==` is asked. -/
def polyGet {V : Type} (h : Dict → ℤ) : List (PolyObj × V) → PolyObj → Option V
  | [], _ => none
  | (q, v) :: t, p => if (q.hash h).1 = (p.hash h).1 ∧ polyEq q.dict p.dict = true then some v else polyGet h t p

end Pywmi
