import Verif.Parse.Minizinc
import Verif.Props.Smtlib

set_option linter.unusedSectionVars false
set_option linter.unusedSimpArgs false

/-!
# C71: reading MiniZinc files
-/

namespace Pywmi

/-! ### Specification: the meaning of expressions and items -/

section
variable {K : Type} [Field K] [LinearOrder K] [IsStrictOrderedRing K]

/-- SPEC: the meaning of the binary operators of MiniZinc on Booleans and numbers. -/
def mznOp : ZOp → PVal K → PVal K → Option (PVal K)
  | .div, .n a, .n b => some (.n (a / b))
  | .mult, .n a, .n b => some (.n (a * b))
  | .minus, .n a, .n b => some (.n (a - b))
  | .plus, .n a, .n b => some (.n (a + b))
  | .eq, .n a, .n b => some (.b (decide (a = b)))
  | .eq, .b a, .b b => some (.b (a == b))
  | .eqeq, .n a, .n b => some (.b (decide (a = b)))
  | .eqeq, .b a, .b b => some (.b (a == b))
  | .nq, .n a, .n b => some (.b (decide (a ≠ b)))
  | .nq, .b a, .b b => some (.b (a != b))
  | .ge, .n a, .n b => some (.b (decide (a ≥ b)))
  | .le, .n a, .n b => some (.b (decide (a ≤ b)))
  | .gt, .n a, .n b => some (.b (decide (a > b)))
  | .lt, .n a, .n b => some (.b (decide (a < b)))
  | .and, .b a, .b b => some (.b (a && b))
  | .xor, .b a, .b b => some (.b (a != b))
  | .or, .b a, .b b => some (.b (a || b))
  | .rimpl, .b a, .b b => some (.b (a || !b))
  | .impl, .b a, .b b => some (.b (!a || b))
  | .equiv, .b a, .b b => some (.b (a == b))
  | _, _, _ => none

/-- SPEC: the choice between two values of the same kind. -/
def choose : PVal K → PVal K → PVal K → Option (PVal K)
  | .b c, x, y => if x.isB = y.isB then some (if c then x else y) else none
  | _, _, _ => none

variable (K) in
/-- SPEC: what names stand for. -/
abbrev Names := String → Env K → Option (PVal K)

mutual
/-- SPEC: the value of an expression. -/
def mVal (ρ : Names K) (σ : Env K) : MExpr → Option (PVal K)
  | .bin op l r => (mVal ρ σ l).bind fun a => (mVal ρ σ r).bind fun b => mznOp op a b
  | .not e => (mVal ρ σ e).bind fun v => match v with
    | .b a => some (.b !a)
    | .n _ => none
  | .neg e => (mVal ρ σ e).bind fun v => match v with
    | .n a => some (.n (-a))
    | .b _ => none
  | .pos e => mVal ρ σ e
  | .ident x => ρ x σ
  | .boolL b => some (.b b)
  | .intL n => some (.n (n : K))
  | .floatL q => some (.n (q : K))
  | .ite b => mBranchVal ρ σ b
  | .bad => none
/-- SPEC: the value of a chain of conditions. -/
def mBranchVal (ρ : Names K) (σ : Env K) : MBranch → Option (PVal K)
  | .last c t e => (mVal ρ σ c).bind fun vc => (mVal ρ σ t).bind fun x => (mVal ρ σ e).bind fun y => choose vc x y
  | .more c t rest => (mVal ρ σ c).bind fun vc => (mVal ρ σ t).bind fun x => (mBranchVal ρ σ rest).bind fun y => choose vc x y
end

variable (K) in
/-- SPEC: the meaning of a model: what its names stand for, its constraints, weights and queries, its Booleans, and its numbers with
their type, if it is stated, and the endpoints of their ranges. -/
structure Meaning where
  names : Names K
  cons : List (Env K → Option (PVal K))
  weights : List (Env K → Option (PVal K))
  queries : List (Env K → Option (PVal K))
  bools : List String
  nums : List (String × Option PTy × Option ((Env K → Option (PVal K)) × (Env K → Option (PVal K))))

/-- SPEC: a name gets a new meaning. -/
def Names.bind (ρ : Names K) (x : String) (f : Env K → Option (PVal K)) : Names K := fun y => if y = x then f else ρ y

/-- SPEC: the endpoints of a type. -/
def endpoints (ρ : Names K) : MType → Option ((Env K → Option (PVal K)) × (Env K → Option (PVal K)))
  | .range lo hi => some (fun σ => mVal ρ σ lo, fun σ => mVal ρ σ hi)
  | _ => none

/-- SPEC: the type that is stated. -/
def MType.stated : MType → Option PTy
  | .int => some .int
  | .float => some .real
  | _ => none

/-- SPEC: a type is that of Booleans. -/
def MType.isBool : MType → Bool
  | .bool => true
  | _ => false

/-- SPEC: a declaration.  A decision variable that is given a value must be equal to it; a parameter is its value. -/
def declMeaning (M : Meaning K) (var : Bool) (t : MType) (x : String) (e : Option MExpr) : Meaning K :=
  if var then
    { M with
      names := M.names.bind x fun σ => some (varVal t.isBool x σ)
      cons := M.cons ++ match e with
        | none => []
        | some e => [fun σ => (mVal M.names σ e).bind fun v => mznOp .eq (varVal t.isBool x σ) v]
      bools := if t.isBool then M.bools ++ [x] else M.bools
      nums := if t.isBool then M.nums else M.nums ++ [(x, t.stated, endpoints M.names t)] }
  else { M with names := M.names.bind x fun σ => e.bind fun e => mVal M.names σ e }

mutual
/-- SPEC: the meaning of an item after others.  An included file is read as if its text stood there. -/
def itemMeaning (M : Meaning K) : MItem → Meaning K
  | .incl is => itemsMeaning M is
  | .decl var t x _ e => declMeaning M var t x e
  | .assign x e => { M with names := M.names.bind x fun σ => mVal M.names σ e }
  | .constr e => { M with cons := M.cons ++ [fun σ => mVal M.names σ e] }
  | .weight e => { M with weights := M.weights ++ [fun σ => mVal M.names σ e] }
  | .query e => { M with queries := M.queries ++ [fun σ => mVal M.names σ e] }
  | .annotated i => itemMeaning M i
  | .other => M
/-- SPEC: the meaning of a list of items. -/
def itemsMeaning (M : Meaning K) : List MItem → Meaning K
  | [] => M
  | i :: is => itemsMeaning (itemMeaning M i) is
end

/-- SPEC: the meaning of the variables and the weight that the caller gives. -/
def givenMeaning (A : List String) (X : List MReal) (w : Option Pt) : Meaning K where
  names := fun x σ => if x ∈ A then some (.b (σ.b x)) else if x ∈ X.map MReal.name then some (.n (σ.r x)) else none
  cons := []
  weights := match w with
    | none => []
    | some p => [fun σ => some (p.den σ)]
  queries := []
  bools := A
  nums := X.map fun r => (r.name, some r.ty, r.bounds.map fun b => (fun _ => some (.n (b.1 : K)), fun _ => some (.n (b.2 : K))))

/-! ### Expressions -/

/-- A value of the reader stands for a function.  A number of type float may be an integer term: after an include, integer variables
have the type float. -/
def MOk (p : Pt) (ty : PTy) (f : Env K → PVal K) : Prop := ∃ t, Stands p t f ∧ (t = ty ∨ (ty = .real ∧ t = .int))

theorem MOk.isBool {p : Pt} {f : Env K → PVal K} (h : MOk p .bool f) : Stands p .bool f := by
  obtain ⟨t, h1, rfl | ⟨h2, _⟩⟩ := h
  · exact h1
  · cases h2

theorem MOk.isNum {p : Pt} {ty : PTy} {f : Env K → PVal K} (h : MOk p ty f) (hty : ty ≠ .bool) : ∃ t, t ≠ .bool ∧ Stands p t f := by
  obtain ⟨t, h1, rfl | ⟨_, rfl⟩⟩ := h
  · exact ⟨_, hty, h1⟩
  · exact ⟨_, by simp, h1⟩

theorem castM_ok {a b a' b' : MVal} {u w : Env K → PVal K} (ha : MOk a.value a.ty u) (hb : MOk b.value b.ty w)
    (h : castM a b = .ok (some (a', b'))) : MOk a'.value a'.ty u ∧ MOk b'.value b'.ty w ∧ a'.ty = b'.ty := by
  unfold castM at h
  split at h
  · cases h; exact ⟨ha, hb, by assumption⟩
  · split at h
    · split at h
      · cases h
      · split at h
        · cases h
        · rename_i va hva _ vb hvb
          cases h
          obtain ⟨ta, sa, _⟩ := ha
          obtain ⟨tb, sb, _⟩ := hb
          exact ⟨⟨.real, (pToReal_stands sa hva).2, .inl rfl⟩, ⟨.real, (pToReal_stands sb hvb).2, .inl rfl⟩, rfl⟩
    · cases h

theorem map_ok {α β : Type} {x : Except PyErr α} {f : α → β} {y : β} (h : x.map f = .ok y) : ∃ a, x = .ok a ∧ f a = y := by
  cases x with
  | error e => cases h
  | ok a => cases h; exact ⟨a, rfl, rfl⟩

/-- `Div` of reals. -/
theorem pDiv_stands {l r p : Pt} {u w : Env K → PVal K} (hl : Stands l .real u) (hr : Stands r .real w) (h : pDiv l r = .ok p) :
    Stands p .real fun σ => .n ((u σ).toN / (w σ).toN) := by
  unfold pDiv at h
  split at h
  · rename_i q
    split at h
    · cases h
    · have hw : ∀ σ, w σ = .n (q : K) := fun σ => by rw [← hr.den σ]; simp [Pt.den]
      obtain ⟨rfl, _⟩ := pNode_ok (show pNode (.times [l, .realC q⁻¹]) = .ok p from h)
      refine ⟨by simp [Pt.ty, Pt.tyAll, hl.ty], fun σ => ?_, fun σ => by simp [PVal.isB]⟩
      simp [Pt.den, Pt.dens, hl.den, hw, PVal.toN, div_eq_mul_inv]
  · obtain ⟨rfl, _⟩ := pNode_ok h
    exact ⟨by simp [Pt.ty, hl.ty, hr.ty], fun σ => by simp [Pt.den, hl.den, hr.den], fun σ => by simp [PVal.isB]⟩

/-- The operands of an arithmetic node have the same numeric type. -/
theorem arith_ty {a b : PTy} {l r : Pt} {u w : Env K → PVal K} (hl : Stands l a u) (hr : Stands r b w) :
    ((∃ t, (if l.ty = some .int ∧ r.ty = some .int then some PTy.int
      else if l.ty = some .real ∧ r.ty = some .real then some .real else none) = some t) → a = b ∧ a ≠ .bool) := by
  rintro ⟨t, h⟩
  rw [hl.ty, hr.ty] at h
  clear hl hr
  cases a <;> cases b <;> simp at h ⊢

theorem stands_b {l : Pt} {u : Env K → PVal K} (hl : Stands l .bool u) (σ : Env K) : ∃ x, u σ = .b x := ⟨_, hl.toBool σ⟩
theorem stands_n {l : Pt} {t : PTy} (ht : t ≠ .bool) {u : Env K → PVal K} (hl : Stands l t u) (σ : Env K) : ∃ x, u σ = .n x :=
  ⟨_, hl.toNum ht σ⟩

/-- A relation between Booleans. -/
theorem conn_ok {l r n : Pt} {a b : PTy} {u w : Env K → PVal K} (hl : Stands l a u) (hr : Stands r b w) (g : Bool → Bool → Bool)
    (hn : n.ty = if l.ty = some .bool ∧ r.ty = some .bool then some .bool else none) (hs : n.ty.isSome)
    (hd : ∀ σ : Env K, Pt.den σ n = .b (g (Pt.den σ l).toB (Pt.den σ r).toB)) (op : ZOp)
    (hop : ∀ x y : Bool, mznOp op (.b x : PVal K) (.b y) = some (.b (g x y))) :
    ∃ f, MOk n .bool f ∧ ∀ σ : Env K, mznOp op (u σ) (w σ) = some (f σ) := by
  rw [hn] at hs
  have hc := isSome_ite hs
  obtain rfl := stands_ty hl hc.1
  obtain rfl := stands_ty hr hc.2
  refine ⟨fun σ => .b (g (u σ).toB (w σ).toB), ⟨.bool, ⟨by rw [hn, if_pos hc], fun σ => by rw [hd, hl.den, hr.den], fun σ => by simp [PVal.isB]⟩,
    .inl rfl⟩, fun σ => ?_⟩
  obtain ⟨x, hx⟩ := stands_b hl σ
  obtain ⟨y, hy⟩ := stands_b hr σ
  simp only [hx, hy, hop, PVal.toB]

/-- A relation between numbers. -/
theorem cmp_ok {l r n : Pt} {a b : PTy} {u w : Env K → PVal K} (hl : Stands l a u) (hr : Stands r b w) (g : K → K → Bool)
    (hn : n.ty = if (l.ty = some .int ∧ r.ty = some .int) ∨ (l.ty = some .real ∧ r.ty = some .real) then some .bool else none)
    (hs : n.ty.isSome) (hd : ∀ σ, Pt.den σ n = .b (g (Pt.den σ l).toN (Pt.den σ r).toN)) (op : ZOp)
    (hop : ∀ x y : K, mznOp op (.n x) (.n y) = some (.b (g x y))) :
    ∃ f, MOk n .bool f ∧ ∀ σ : Env K, mznOp op (u σ) (w σ) = some (f σ) := by
  rw [hn] at hs
  have hc := isSome_ite hs
  obtain ⟨rfl, hv⟩ := rel_nums hl hr hc
  refine ⟨fun σ => .b (g (u σ).toN (w σ).toN), ⟨.bool, ⟨by rw [hn, if_pos hc], fun σ => by rw [hd, hl.den, hr.den], fun σ => by simp [PVal.isB]⟩,
    .inl rfl⟩, fun σ => ?_⟩
  obtain ⟨h1, h2⟩ := hv σ
  simp only [h1, h2, hop, PVal.toN]

/-- An arithmetic operation. -/
theorem arith_ok {l r n : Pt} {a b ty : PTy} {u w : Env K → PVal K} (hl : Stands l a u) (hr : Stands r b w) (hty : a = ty ∨ (ty = .real ∧ a = .int))
    (g : K → K → K)
    (hn : n.ty = if l.ty = some .int ∧ r.ty = some .int then some PTy.int
      else if l.ty = some .real ∧ r.ty = some .real then some .real else none)
    (hs : n.ty.isSome) (hd : ∀ σ, Pt.den σ n = .n (g (Pt.den σ l).toN (Pt.den σ r).toN)) (op : ZOp)
    (hop : ∀ x y : K, mznOp op (.n x) (.n y) = some (.n (g x y))) :
    ∃ f, MOk n ty f ∧ ∀ σ : Env K, mznOp op (u σ) (w σ) = some (f σ) := by
  obtain ⟨t, ht⟩ := Option.isSome_iff_exists.mp hs
  obtain ⟨rfl, hne⟩ := arith_ty hl hr ⟨t, by rw [← hn]; exact ht⟩
  refine ⟨fun σ => .n (g (u σ).toN (w σ).toN), ⟨a, ⟨?_, fun σ => by rw [hd, hl.den, hr.den], fun σ => by simp [PVal.isB, hne]⟩, hty⟩, fun σ => ?_⟩
  · rw [hn, hl.ty, hr.ty]
    cases a <;> simp_all
  · obtain ⟨x, hx⟩ := stands_n hne hl σ
    obtain ⟨y, hy⟩ := stands_n hne hr σ
    simp only [hx, hy, hop, PVal.toN]

/-- The term of an operator stands for its result. -/
theorem mOpTerm_ok {op : ZOp} {l r p : Pt} {ty t : PTy} {u w : Env K → PVal K} (hl : MOk l ty u) (hr : MOk r ty w)
    (h : mOpTerm op ty l r = .ok (p, t)) : ∃ f, MOk p t f ∧ ∀ σ : Env K, mznOp op (u σ) (w σ) = some (f σ) := by
  obtain ⟨a, sl, cl⟩ := hl
  obtain ⟨b, sr, _⟩ := hr
  cases op with
  | other => cases h
  | div =>
    simp only [mOpTerm] at h
    split at h
    · cases h
    rename_i vl h1
    split at h
    · cases h
    rename_i vr h2
    obtain ⟨q, hq, hq'⟩ := map_ok h
    cases hq'
    obtain ⟨n1, s1⟩ := pToReal_stands sl h1
    obtain ⟨n2, s2⟩ := pToReal_stands sr h2
    refine ⟨_, ⟨.real, pDiv_stands s1 s2 hq, .inl rfl⟩, fun σ => ?_⟩
    obtain ⟨x, hx⟩ := stands_n n1 sl σ
    obtain ⟨y, hy⟩ := stands_n n2 sr σ
    rw [hx, hy]
    rfl
  | mult =>
    obtain ⟨q, hq, hq'⟩ := map_ok h
    cases hq'
    obtain ⟨rfl, hs⟩ := pNode_ok (show pNode (.times [l, r]) = .ok _ from hq)
    exact arith_ok sl sr cl (· * ·) (by simp [Pt.ty, Pt.tyAll]) hs (fun σ => by simp [Pt.den, Pt.dens]) .mult fun x y => rfl
  | minus =>
    obtain ⟨q, hq, hq'⟩ := map_ok h
    cases hq'
    obtain ⟨rfl, hs⟩ := pNode_ok hq
    exact arith_ok sl sr cl (· - ·) (by simp [Pt.ty]) hs (fun σ => by simp [Pt.den]) .minus fun x y => rfl
  | plus =>
    obtain ⟨q, hq, hq'⟩ := map_ok h
    cases hq'
    obtain ⟨rfl, hs⟩ := pNode_ok (show pNode (.plus [l, r]) = .ok _ from hq)
    exact arith_ok sl sr cl (· + ·) (by simp [Pt.ty, Pt.tyAll]) hs (fun σ => by simp [Pt.den, Pt.dens]) .plus fun x y => rfl
  | nq =>
    obtain ⟨q, hq, hq'⟩ := map_ok h
    cases hq'
    simp only [pNotEquals] at hq
    split at hq
    · rename_i e he
      obtain ⟨rfl, he'⟩ := pNode_ok he
      obtain ⟨rfl, hs⟩ := pNode_ok (show pNode (.not (.equals l r)) = .ok _ from hq)
      refine cmp_ok sl sr (fun x y => decide (x ≠ y)) ?_ hs (fun σ => by simp [Pt.den, PVal.toB]) .nq fun x y => rfl
      have c := isSome_ite (show (if _ then some PTy.bool else none).isSome = true by simpa only [Pt.ty] using he')
      have e : (Pt.equals l r).ty = some .bool := by simp only [Pt.ty]; exact if_pos c
      rw [if_pos c]
      simp only [Pt.ty]
      exact if_pos e
    · cases hq
  | eq =>
    obtain ⟨q, hq, hq'⟩ := map_ok h
    cases hq'
    obtain ⟨rfl, hs⟩ := pNode_ok hq
    exact conn_ok sl sr (· == ·) (by simp [Pt.ty]) hs (fun σ => by simp [Pt.den]) .eq fun x y => rfl
  | eqeq =>
    obtain ⟨q, hq, hq'⟩ := map_ok h
    cases hq'
    obtain ⟨rfl, hs⟩ := pNode_ok hq
    exact conn_ok sl sr (· == ·) (by simp [Pt.ty]) hs (fun σ => by simp [Pt.den]) .eqeq fun x y => rfl
  | equiv =>
    obtain ⟨q, hq, hq'⟩ := map_ok h
    cases hq'
    obtain ⟨rfl, hs⟩ := pNode_ok hq
    exact conn_ok sl sr (· == ·) (by simp [Pt.ty]) hs (fun σ => by simp [Pt.den]) .equiv fun x y => rfl
  | ge =>
    obtain ⟨q, hq, hq'⟩ := map_ok h
    cases hq'
    obtain ⟨rfl, hs⟩ := pNode_ok hq
    exact cmp_ok sl sr (fun x y => decide (x ≥ y)) (by simp only [Pt.ty, and_comm]) hs (fun σ => by simp [Pt.den]) .ge fun x y => rfl
  | le =>
    obtain ⟨q, hq, hq'⟩ := map_ok h
    cases hq'
    obtain ⟨rfl, hs⟩ := pNode_ok hq
    exact cmp_ok sl sr (fun x y => decide (x ≤ y)) (by simp only [Pt.ty]) hs (fun σ => by simp [Pt.den]) .le fun x y => rfl
  | gt =>
    obtain ⟨q, hq, hq'⟩ := map_ok h
    cases hq'
    obtain ⟨rfl, hs⟩ := pNode_ok hq
    exact cmp_ok sl sr (fun x y => decide (x > y)) (by simp only [Pt.ty, and_comm]) hs (fun σ => by simp [Pt.den]) .gt fun x y => rfl
  | lt =>
    obtain ⟨q, hq, hq'⟩ := map_ok h
    cases hq'
    obtain ⟨rfl, hs⟩ := pNode_ok hq
    exact cmp_ok sl sr (fun x y => decide (x < y)) (by simp only [Pt.ty]) hs (fun σ => by simp [Pt.den]) .lt fun x y => rfl
  | and =>
    obtain ⟨q, hq, hq'⟩ := map_ok h
    cases hq'
    obtain ⟨rfl, hs⟩ := pNode_ok (show pNode (.and [l, r]) = .ok _ from hq)
    exact conn_ok sl sr (· && ·) (by simp [Pt.ty, Pt.tyAll]) hs (fun σ => by simp [Pt.den, Pt.dens]) .and fun x y => rfl
  | or =>
    obtain ⟨q, hq, hq'⟩ := map_ok h
    cases hq'
    obtain ⟨rfl, hs⟩ := pNode_ok (show pNode (.or [l, r]) = .ok _ from hq)
    exact conn_ok sl sr (· || ·) (by simp [Pt.ty, Pt.tyAll]) hs (fun σ => by simp [Pt.den, Pt.dens]) .or fun x y => rfl
  | xor =>
    obtain ⟨q, hq, hq'⟩ := map_ok h
    cases hq'
    simp only [pXor] at hq
    split at hq
    · rename_i e he
      obtain ⟨rfl, he'⟩ := pNode_ok he
      obtain ⟨rfl, hs⟩ := pNode_ok (show pNode (.not (.iff l r)) = .ok _ from hq)
      refine conn_ok sl sr (fun x y => !(x == y)) ?_ hs (fun σ => by simp [Pt.den, PVal.toB]) .xor fun x y => rfl
      have c := isSome_ite (show (if _ then some PTy.bool else none).isSome = true by simpa only [Pt.ty] using he')
      have e : (Pt.iff l r).ty = some .bool := by simp only [Pt.ty]; exact if_pos c
      rw [if_pos c]
      simp only [Pt.ty]
      exact if_pos e
    · cases hq
  | rimpl =>
    obtain ⟨q, hq, hq'⟩ := map_ok h
    cases hq'
    obtain ⟨rfl, hs⟩ := pNode_ok hq
    exact conn_ok sl sr (fun x y => !y || x) (by simp only [Pt.ty, and_comm]) hs (fun σ => by simp [Pt.den]) .rimpl fun x y => by
      rw [Bool.or_comm]; rfl
  | impl =>
    obtain ⟨q, hq, hq'⟩ := map_ok h
    cases hq'
    obtain ⟨rfl, hs⟩ := pNode_ok hq
    exact conn_ok sl sr (fun x y => !x || y) (by simp only [Pt.ty]) hs (fun σ => by simp [Pt.den]) .impl fun x y => rfl

theorem mBin_ok {op : ZOp} {l r v : MVal} {u w : Env K → PVal K} (hl : MOk l.value l.ty u) (hr : MOk r.value r.ty w)
    (h : mBin op l r = .ok v) : ∃ f, MOk v.value v.ty f ∧ ∀ σ : Env K, mznOp op (u σ) (w σ) = some (f σ) := by
  unfold mBin at h
  split at h
  · cases h
  · cases h
  · rename_i l' r' hc
    obtain ⟨h1, h2, h3⟩ := castM_ok hl hr hc
    split at h
    · cases h
    · rename_i p t hp
      cases h
      exact mOpTerm_ok h1 (h3 ▸ h2) hp

theorem mIte_ok {c t e v : MVal} {f g k : Env K → PVal K} (hc : MOk c.value c.ty f) (ht : MOk t.value t.ty g) (he : MOk e.value e.ty k)
    (h : mIte c t e = .ok v) : ∃ m, MOk v.value v.ty m ∧ ∀ σ : Env K, choose (f σ) (g σ) (k σ) = some (m σ) := by
  unfold mIte at h
  split at h
  · cases h
  rename_i hb
  simp only [ne_eq, not_not] at hb
  rw [hb] at hc
  have hc := hc.isBool
  split at h
  · cases h
  · cases h
  · rename_i t' e' hcast
    obtain ⟨⟨a, sa, ca⟩, ⟨b, sb, _⟩, _⟩ := castM_ok ht he hcast
    split at h
    · cases h
    · rename_i p hp
      cases h
      obtain ⟨rfl, hs⟩ := pNode_ok hp
      have hcond : c.value.ty = some .bool ∧ t'.value.ty = e'.value.ty := by
        simp only [Pt.ty] at hs
        by_contra hn
        rw [if_neg hn] at hs
        cases hs
      have hab : a = b := stands_ty sa (hcond.2.trans sb.ty)
      subst hab
      refine ⟨fun σ => if (f σ).toB then g σ else k σ, ⟨a, ⟨by simp only [Pt.ty]; rw [if_pos hcond, sa.ty], fun σ => ?_, fun σ => ?_⟩, ca⟩, fun σ => ?_⟩
      · simp only [Pt.den, hc.den, sa.den, sb.den]
      · split
        · exact sa.kind σ
        · exact sb.kind σ
      · obtain ⟨x, hx⟩ := stands_b hc σ
        rw [hx]
        simp only [choose, PVal.toB, sa.kind σ, sb.kind σ, if_true, hx]

/-- The table stands for the names. -/
def MTableOk (ρ : Names K) (T : MTable) : Prop :=
  ∀ x e p, T.get x = some e → e.value = some p → ∃ f, MOk p e.ty f ∧ ∀ σ, ρ x σ = some (f σ)

mutual
/-- An expression that is read stands for its value. -/
theorem mExpr_ok {ρ : Names K} {T : MTable} (hT : MTableOk ρ T) : ∀ (e : MExpr) {v : MVal}, mExpr T e = .ok v →
    ∃ f, MOk v.value v.ty f ∧ ∀ σ : Env K, mVal ρ σ e = some (f σ)
  | .bin op l r, v, h => by
    simp only [mExpr] at h
    split at h
    · cases h
    rename_i vl h1
    split at h
    · cases h
    rename_i vr h2
    obtain ⟨u, ol, el⟩ := mExpr_ok hT l h1
    obtain ⟨w, or, er⟩ := mExpr_ok hT r h2
    obtain ⟨f, o, e⟩ := mBin_ok ol or h
    exact ⟨f, o, fun σ => by simp only [mVal, el, er, Option.bind_some]; exact e σ⟩
  | .not e, v, h => by
    simp only [mExpr] at h
    split at h
    · cases h
    rename_i w h1
    obtain ⟨f, o, ef⟩ := mExpr_ok hT e h1
    split at h
    · rename_i hb
      rw [hb] at o
      have o := o.isBool
      obtain ⟨p, hp, rfl⟩ := map_ok h
      refine ⟨fun σ => .b !(f σ).toB, ⟨.bool, ?_, .inl rfl⟩, fun σ => ?_⟩
      · dsimp only
        unfold pNot at hp
        split at hp
        · cases hp
          rename_i q hq
          have hty := o.ty
          rw [hq] at hty
          simp only [Pt.ty] at hty
          have hc := isSome_ite (by rw [hty]; rfl)
          refine ⟨hc, fun σ => ?_, fun σ => by simp [PVal.isB]⟩
          have := o.den σ
          rw [hq] at this
          simp only [Pt.den] at this
          rw [← this]
          have := PVal.eq_b (Pt.den_kind (K := K) p hc σ)
          rw [this]
          simp [PVal.toB]
        · obtain ⟨rfl, hs⟩ := pNode_ok hp
          exact ⟨by simp [Pt.ty, o.ty], fun σ => by simp [Pt.den, o.den], fun σ => by simp [PVal.isB]⟩
      · obtain ⟨x, hx⟩ := stands_b o σ
        simp only [mVal, ef, hx, Option.bind_some, PVal.toB]
    · cases h
  | .neg e, v, h => by
    simp only [mExpr] at h
    split at h
    · cases h
    rename_i w h1
    obtain ⟨f, ⟨t, o, c⟩, ef⟩ := mExpr_ok hT e h1
    split at h
    · rename_i hb
      obtain ⟨p, hp, rfl⟩ := map_ok h
      obtain ⟨rfl, hs⟩ := pNode_ok (show pNode (.times [w.value, .realC (-1)]) = .ok p from hp)
      obtain rfl : t = .real := by
        simp only [Pt.ty, Pt.tyAll, o.ty] at hs
        cases t <;> simp at hs ⊢
      refine ⟨fun σ => .n (-(f σ).toN), ⟨.real, ⟨by simp [Pt.ty, Pt.tyAll, o.ty], fun σ => by simp [Pt.den, Pt.dens, o.den, PVal.toN],
        fun σ => by simp [PVal.isB]⟩, .inl rfl⟩, fun σ => ?_⟩
      obtain ⟨x, hx⟩ := stands_n (by simp) o σ
      simp only [mVal, ef, hx, Option.bind_some, PVal.toN]
    · rename_i hb
      obtain ⟨p, hp, rfl⟩ := map_ok h
      obtain ⟨rfl, hs⟩ := pNode_ok (show pNode (.times [w.value, .intC (-1)]) = .ok p from hp)
      obtain rfl : t = .int := by
        simp only [Pt.ty, Pt.tyAll, o.ty] at hs
        cases t <;> simp at hs ⊢
      refine ⟨fun σ => .n (-(f σ).toN), ⟨.int, ⟨by simp [Pt.ty, Pt.tyAll, o.ty], fun σ => by simp [Pt.den, Pt.dens, o.den, PVal.toN],
        fun σ => by simp [PVal.isB]⟩, .inl rfl⟩, fun σ => ?_⟩
      obtain ⟨x, hx⟩ := stands_n (by simp) o σ
      simp only [mVal, ef, hx, Option.bind_some, PVal.toN]
    · cases h
  | .pos e, v, h => by
    simp only [mExpr] at h
    simp only [mVal]
    exact mExpr_ok hT e h
  | .ident x, v, h => by
    simp only [mExpr] at h
    split at h
    · cases h
    rename_i e he
    split at h
    · cases h
    rename_i p hp
    cases h
    obtain ⟨f, o, ef⟩ := hT x e p he hp
    exact ⟨f, o, fun σ => by simp only [mVal]; exact ef σ⟩
  | .boolL b, v, h => by
    simp only [mExpr] at h; cases h
    exact ⟨_, ⟨.bool, stands_bool b, .inl rfl⟩, fun σ => by simp only [mVal]⟩
  | .intL n, v, h => by
    simp only [mExpr] at h; cases h
    exact ⟨_, ⟨.int, stands_int n, .inl rfl⟩, fun σ => by simp [mVal]⟩
  | .floatL q, v, h => by
    simp only [mExpr] at h; cases h
    exact ⟨_, ⟨.real, stands_real q, .inl rfl⟩, fun σ => by simp only [mVal]⟩
  | .ite b, v, h => by
    simp only [mExpr] at h
    simp only [mVal]
    exact mBranch_ok hT b h
  | .bad, v, h => by simp only [mExpr] at h; cases h
/-- Chains of conditions. -/
theorem mBranch_ok {ρ : Names K} {T : MTable} (hT : MTableOk ρ T) : ∀ (b : MBranch) {v : MVal}, mBranch T b = .ok v →
    ∃ f, MOk v.value v.ty f ∧ ∀ σ : Env K, mBranchVal ρ σ b = some (f σ)
  | .last c t e, v, h => by
    simp only [mBranch] at h
    split at h
    · cases h
    rename_i vc h1
    split at h
    · cases h
    rename_i vt h2
    split at h
    · cases h
    rename_i ve h3
    obtain ⟨f, of, ef⟩ := mExpr_ok hT c h1
    obtain ⟨g, og, eg⟩ := mExpr_ok hT t h2
    obtain ⟨k, ok, ek⟩ := mExpr_ok hT e h3
    obtain ⟨m, om, em⟩ := mIte_ok of og ok h
    exact ⟨m, om, fun σ => by simp only [mBranchVal, ef, eg, ek, Option.bind_some]; exact em σ⟩
  | .more c t rest, v, h => by
    simp only [mBranch] at h
    split at h
    · cases h
    rename_i ve h3
    split at h
    · cases h
    rename_i vt h2
    split at h
    · cases h
    rename_i vc h1
    obtain ⟨f, of, ef⟩ := mExpr_ok hT c h1
    obtain ⟨g, og, eg⟩ := mExpr_ok hT t h2
    obtain ⟨k, ok, ek⟩ := mBranch_ok hT rest h3
    obtain ⟨m, om, em⟩ := mIte_ok of og ok h
    exact ⟨m, om, fun σ => by simp only [mBranchVal, ef, eg, ek, Option.bind_some]; exact em σ⟩
end

/-! ### Items -/

theorem MTable.get_snoc (T : MTable) (x y : String) (e : MEntry) :
    (MTable.get (T ++ [(x, e)]) y) = (T.get y).or (if x = y then some e else none) := by
  unfold MTable.get
  rw [List.find?_append]
  by_cases h : x = y <;> cases hf : List.find? (fun p => decide (p.1 = y)) T <;> simp [h, hf, List.find?_cons]

theorem MTable.get_set (T : MTable) (x y : String) (v : Pt) :
    (T.set x v).get y = if y = x then (T.get y).map (fun e => { e with value := some v }) else T.get y := by
  unfold MTable.get MTable.set
  induction T with
  | nil => simp
  | cons p T ih =>
    rw [List.map_cons, List.find?_cons, List.find?_cons]
    by_cases h : p.1 = x
    · rw [if_pos h]
      by_cases hy : p.1 = y
      · have : y = x := hy ▸ h
        simp [hy, this]
      · simp only [hy, decide_false]
        exact ih
    · rw [if_neg h]
      by_cases hy : p.1 = y
      · have : y ≠ x := fun e => h (hy.trans e)
        simp [hy, this]
      · simp only [hy, decide_false]
        exact ih

/-- `EqualsOrIff`: the value of the equation. -/
theorem pEqualsOrIff_ok {l r q : Pt} {a b : PTy} {u w : Env K → PVal K} (hl : Stands l a u) (hr : Stands r b w) (h : pEqualsOrIff l r = .ok q) :
    ∃ f, Stands q .bool f ∧ ∀ σ : Env K, mznOp .eq (u σ) (w σ) = some (f σ) := by
  unfold pEqualsOrIff at h
  split at h
  · obtain ⟨rfl, hs⟩ := pNode_ok h
    obtain ⟨f, hf, e⟩ := conn_ok hl hr (· == ·) (n := .iff l r) (by simp [Pt.ty]) hs (fun σ => by simp [Pt.den]) .eq fun x y => rfl
    exact ⟨f, hf.isBool, e⟩
  · obtain ⟨rfl, hs⟩ := pNode_ok h
    obtain ⟨f, hf, e⟩ := cmp_ok hl hr (fun x y => decide (x = y)) (n := .equals l r) (by simp only [Pt.ty]) hs (fun σ => by simp [Pt.den]) .eq
      fun x y => rfl
    exact ⟨f, hf.isBool, e⟩

theorem mGiven_ok {var : Bool} {ty : PTy} {v : MVal} {p : Pt} {f : Env K → PVal K} (hv : MOk v.value v.ty f) (h : mGiven var ty v = .ok p) :
    MOk p ty f := by
  unfold mGiven at h
  split at h
  · cases h
  split at h
  · split at h
    · rename_i hc
      obtain ⟨t, s, _⟩ := hv
      exact ⟨.real, (pToReal_stands s h).2, .inl hc.1.symm⟩
    · cases h
  · rename_i hc
    cases h
    rw [not_not.mp hc]
    exact hv

theorem MOk.simp {simp : Pt → Pt} (hs : KeepsMeaning K simp) {p : Pt} {ty : PTy} {f : Env K → PVal K} (h : MOk p ty f) : MOk (simp p) ty f := by
  obtain ⟨t, s, c⟩ := h
  obtain ⟨h1, h2⟩ := hs p t s.ty
  exact ⟨t, ⟨h1, fun σ => by rw [h2, s.den], s.kind⟩, c⟩

/-- SPEC: the product of values. -/
def prodV (σ : Env K) : List (Env K → Option (PVal K)) → Option K
  | [] => some 1
  | f :: fs => match f σ with
    | some (.n a) => (prodV σ fs).map (a * ·)
    | _ => none

theorem prodV_snoc (σ : Env K) (fs : List (Env K → Option (PVal K))) (f : Env K → Option (PVal K)) {a b : K}
    (h : prodV σ fs = some a) (hf : f σ = some (.n b)) : prodV σ (fs ++ [f]) = some (a * b) := by
  induction fs generalizing a with
  | nil => simp_all [prodV, mul_comm]
  | cons g gs ih =>
    rw [List.cons_append]
    simp only [prodV] at h ⊢
    split at h
    · rename_i x hx
      obtain ⟨y, hy, rfl⟩ := Option.map_eq_some_iff.mp h
      rw [ih hy]
      simp [mul_assoc]
    · cases h

/-- SPEC: the bounds of a variable are the values of the endpoints. -/
def BoundsAre (b : Option (ℚ × ℚ)) (e : Option ((Env K → Option (PVal K)) × (Env K → Option (PVal K)))) : Prop :=
  match b, e with
  | none, none => True
  | some (lo, hi), some (f, g) => ∀ σ : Env K, f σ = some (.n (lo : K)) ∧ g σ = some (.n (hi : K))
  | _, _ => False

/-- SPEC: a numeric variable is the one that is meant: its name, its type if stated, its bounds. -/
def NumIs (r : MReal) (n : String × Option PTy × Option ((Env K → Option (PVal K)) × (Env K → Option (PVal K)))) : Prop :=
  r.name = n.1 ∧ r.ty ≠ .bool ∧ (∀ t, n.2.1 = some t → r.ty = t) ∧ BoundsAre r.bounds n.2.2

/-- The state of the visitor stands for the meaning of what was read. -/
structure MInv (S : MState) (M : Meaning K) : Prop where
  table : MTableOk M.names S.table
  boolNames : ∀ x ∈ S.bools, (∃ e p, S.table.get x = some e ∧ e.value = some p) ∧ ∀ σ, M.names x σ = some (.b (σ.b x))
  realNames : ∀ r ∈ S.reals, (∃ e p, S.table.get r.name = some e ∧ e.value = some p) ∧ ∀ σ, M.names r.name σ = some (.n (σ.r r.name))
  supportTy : ∀ p ∈ S.support, p.ty = some .bool
  consKind : ∀ c ∈ M.cons, ∀ σ, ∃ b, c σ = some (.b b)
  support : ∀ σ : Env K, (∀ p ∈ S.support, Pt.den σ p = .b true) ↔ ∀ c ∈ M.cons, c σ = some (.b true)
  weightTy : ∀ p, S.weight = some p → ∃ t, t ≠ .bool ∧ p.ty = some t
  weight : ∀ σ : Env K, ∃ x, prodV σ M.weights = some x ∧ Pt.den σ (S.weight.getD (.realC 1)) = .n x
  queries : List.Forall₂ (fun p q => p.ty = some .bool ∧ ∀ σ : Env K, q σ = some (Pt.den σ p)) S.queries M.queries
  bools : S.bools = M.bools
  reals : List.Forall₂ NumIs S.reals M.nums

theorem MTableOk.snoc {ρ : Names K} {T : MTable} (h : MTableOk ρ T) {x : String} (hx : T.get x = none) {e : MEntry} {g : Env K → Option (PVal K)}
    (he : ∀ p, e.value = some p → ∃ f, MOk p e.ty f ∧ ∀ σ, g σ = some (f σ)) : MTableOk (ρ.bind x g) (T ++ [(x, e)]) := by
  intro y e' p hy hp
  rw [MTable.get_snoc] at hy
  by_cases hxy : y = x
  · subst hxy
    rw [hx] at hy
    simp only [Option.none_or, if_true, Option.some.injEq] at hy
    subst hy
    obtain ⟨f, h1, h2⟩ := he p hp
    exact ⟨f, h1, fun σ => by simp only [Names.bind, if_true]; exact h2 σ⟩
  · rw [if_neg (fun e => hxy e.symm), Option.or_none] at hy
    obtain ⟨f, h1, h2⟩ := h y e' p hy hp
    exact ⟨f, h1, fun σ => by simp only [Names.bind, if_neg hxy]; exact h2 σ⟩

theorem get_snoc_some {T : MTable} {x y : String} {e e' : MEntry} {p : Pt} (h : T.get y = some e' ∧ e'.value = some p) :
    ∃ e'' p, MTable.get (T ++ [(x, e)]) y = some e'' ∧ e''.value = some p :=
  ⟨e', p, by rw [MTable.get_snoc, h.1]; rfl, h.2⟩

theorem ne_of_get {T : MTable} {x y : String} (hx : T.get x = none) (hy : ∃ e p, T.get y = some e ∧ e.value = some p) : y ≠ x := by
  rintro rfl
  obtain ⟨e, p, h, _⟩ := hy
  rw [hx] at h
  cases h

/-- The terms of a range stand for its endpoints. -/
def RangeOk (ρ : Names K) (t : MType) (ty : PTy) : Option (Pt × Pt) → Prop
  | none => endpoints ρ t = none
  | some (a, b) => ∃ f g, endpoints ρ t = some (f, g) ∧ (∃ u, MOk a ty u ∧ ∀ σ, f σ = some (u σ)) ∧ ∃ u, MOk b ty u ∧ ∀ σ, g σ = some (u σ)

theorem mType_ok {ρ : Names K} {T : MTable} (hT : MTableOk ρ T) {var : Bool} {t : MType} {ty : PTy} {rng : Option (Pt × Pt)}
    (h : mType T var t = .ok (ty, rng)) :
    decide (ty = .bool) = t.isBool ∧ (∀ s, t.stated = some s → ty = s) ∧
      RangeOk ρ t ty rng := by
  cases t with
  | bool => cases h; exact ⟨rfl, fun s hs => (by cases hs), rfl⟩
  | int => cases h; exact ⟨rfl, fun s hs => by cases hs; rfl, rfl⟩
  | float => cases h; exact ⟨rfl, fun s hs => by cases hs; rfl, rfl⟩
  | string => cases h
  | named => cases h
  | other => cases h
  | range lo hi =>
    simp only [mType] at h
    split at h
    · cases h
    rename_i a h1
    split at h
    · cases h
    rename_i b h2
    split at h
    · cases h
    · cases h
    rename_i a' b' hc
    split at h
    · cases h
    rename_i hb
    split at h
    · cases h
    cases h
    obtain ⟨f, of, ef⟩ := mExpr_ok hT lo h1
    obtain ⟨g, og, eg⟩ := mExpr_ok hT hi h2
    obtain ⟨oa, ob, e⟩ := castM_ok of og hc
    exact ⟨by simp [hb, MType.isBool], fun s hs => (by cases hs), _, _, rfl, ⟨f, oa, ef⟩, ⟨g, e ▸ ob, eg⟩⟩

theorem mGivenOpt_ok {ρ : Names K} {T : MTable} (hT : MTableOk ρ T) {var : Bool} {ty : PTy} {e : Option MExpr} {v : Option Pt}
    (h : mGivenOpt T var ty e = .ok v) :
    match e with
    | none => v = none
    | some e => ∃ p f, v = some p ∧ MOk p ty f ∧ ∀ σ, mVal ρ σ e = some (f σ) := by
  cases e with
  | none => cases h; rfl
  | some e =>
    simp only [mGivenOpt] at h
    split at h
    · cases h
    rename_i v hv
    split at h
    · cases h
    rename_i p hp
    cases h
    obtain ⟨f, o, ef⟩ := mExpr_ok hT e hv
    exact ⟨p, f, rfl, mGiven_ok o hp, ef⟩

theorem constValue_ok {p : Pt} {q : ℚ} (h : constValue p = .ok q) (σ : Env K) : Pt.den σ p = .n (q : K) := by
  cases p <;> simp only [constValue] at h <;> cases h <;> simp [Pt.den]

theorem mBounds_ok {simp : Pt → Pt} (hs : KeepsMeaning K simp) {ρ : Names K} {t : MType} {ty : PTy} {rng : Option (Pt × Pt)} {bs : Option (ℚ × ℚ)}
    (hr : RangeOk ρ t ty rng)
    (h : mBounds simp rng = .ok bs) : BoundsAre bs (endpoints ρ t) := by
  cases rng with
  | none => cases h; rw [show endpoints ρ t = none from hr]; trivial
  | some ab =>
    obtain ⟨f, g, he, ⟨u, ⟨ta, sa, _⟩, eu⟩, ⟨w, ⟨tb, sb, _⟩, ew⟩⟩ := hr
    simp only [mBounds] at h
    split at h
    · cases h
    rename_i a ha
    split at h
    · cases h
    rename_i b hb
    cases h
    rw [he]
    intro σ
    have h1 := constValue_ok ha σ
    have h2 := constValue_ok hb σ
    rw [(hs _ _ sa.ty).2, sa.den] at h1
    rw [(hs _ _ sb.ty).2, sb.den] at h2
    exact ⟨by rw [eu, h1], by rw [ew, h2]⟩

/-- More constraints. -/
theorem support_snoc {ps : List Pt} {cs : List (Env K → Option (PVal K))} {q : Pt} {f : Env K → PVal K} {c : Env K → Option (PVal K)}
    (h : ∀ σ : Env K, (∀ p ∈ ps, Pt.den σ p = .b true) ↔ ∀ c ∈ cs, c σ = some (.b true))
    (hq : Stands q .bool f) (hc : ∀ σ, c σ = some (f σ)) (σ : Env K) :
    (∀ p ∈ ps ++ [q], Pt.den σ p = .b true) ↔ ∀ d ∈ cs ++ [c], d σ = some (.b true) := by
  rw [List.forall_mem_append, List.forall_mem_append, h σ]
  simp [hq.den, hc]

theorem kind_snoc {cs : List (Env K → Option (PVal K))} {q : Pt} {f : Env K → PVal K} {c : Env K → Option (PVal K)}
    (h : ∀ c ∈ cs, ∀ σ : Env K, ∃ b, c σ = some (.b b)) (hq : Stands q .bool f) (hc : ∀ σ, c σ = some (f σ)) :
    ∀ d ∈ cs ++ [c], ∀ σ : Env K, ∃ b, d σ = some (.b b) := by
  rw [List.forall_mem_append]
  refine ⟨h, ?_⟩
  simp only [List.mem_singleton, forall_eq]
  intro σ
  obtain ⟨x, hx⟩ := stands_b hq σ
  exact ⟨x, by rw [hc, hx]⟩

theorem MInv.decl {simp : Pt → Pt} (hs : KeepsMeaning K simp) {S S' : MState} {M : Meaning K} (hI : MInv S M) {var : Bool} {t : MType} {x : String}
    {ann : Bool} {e : Option MExpr} (h : mDecl simp S var t x ann e = .ok S') : MInv S' (declMeaning M var t x e) := by
  unfold mDecl at h
  split at h
  · cases h
  rename_i ty rng hty
  split at h
  · cases h
  split at h
  · cases h
  rename_i hx
  have hx : S.table.get x = none := by simpa using hx
  split at h
  · cases h
  rename_i v hv
  obtain ⟨hbool, hst, hrng⟩ := mType_ok hI.table hty
  have hg := mGivenOpt_ok hI.table hv
  have hbn : ∀ (g : Env K → Option (PVal K)) (en : MEntry), ∀ y ∈ S.bools, (∃ e p, MTable.get (S.table ++ [(x, en)]) y = some e ∧ e.value = some p) ∧
      ∀ σ, (M.names.bind x g) y σ = some (.b (σ.b y)) := by
    intro g en y hy
    obtain ⟨⟨e, p, h1⟩, h2⟩ := hI.boolNames y hy
    refine ⟨get_snoc_some h1, fun σ => ?_⟩
    simp only [Names.bind, if_neg (ne_of_get hx ⟨e, p, h1⟩)]
    exact h2 σ
  have hrn : ∀ (g : Env K → Option (PVal K)) (en : MEntry), ∀ r ∈ S.reals, (∃ e p, MTable.get (S.table ++ [(x, en)]) r.name = some e ∧ e.value = some p) ∧
      ∀ σ, (M.names.bind x g) r.name σ = some (.n (σ.r r.name)) := by
    intro g en y hy
    obtain ⟨⟨e, p, h1⟩, h2⟩ := hI.realNames y hy
    refine ⟨get_snoc_some h1, fun σ => ?_⟩
    simp only [Names.bind, if_neg (ne_of_get hx ⟨e, p, h1⟩)]
    exact h2 σ
  split at h
  · rename_i hvar
    subst hvar
    split at h
    · cases h
    rename_i bs hbs
    have hB := mBounds_ok hs hrng hbs
    -- the state without the equation
    have key : MInv { S with
          table := S.table ++ [(x, ⟨some (.sym x ty), ty, true⟩)]
          bools := if ty = .bool then S.bools ++ [x] else S.bools
          reals := if ty = .bool then S.reals else S.reals ++ [⟨x, ty, bs⟩] } (declMeaning M true t x none) := by
      have hget : ∃ e p, MTable.get (S.table ++ [(x, (⟨some (.sym x ty), ty, true⟩ : MEntry))]) x = some e ∧ e.value = some p :=
        ⟨_, _, by rw [MTable.get_snoc, hx, if_pos rfl]; rfl, rfl⟩
      refine ⟨?_, ?_, ?_, hI.supportTy, ?_, ?_, hI.weightTy, hI.weight, hI.queries, ?_, ?_⟩
      · simp only [declMeaning, if_true]
        refine hI.table.snoc hx fun p hp => ?_
        cases hp
        refine ⟨_, ⟨ty, stands_sym x ty, .inl rfl⟩, fun σ => ?_⟩
        rw [hbool]
      · simp only [declMeaning, if_true]
        split
        · rename_i hb
          rw [List.forall_mem_append]
          refine ⟨hbn _ _, ?_⟩
          simp only [List.mem_singleton, forall_eq]
          refine ⟨hget, fun σ => ?_⟩
          simp only [Names.bind, if_true, ← hbool, hb, decide_true, varVal]
        · exact hbn _ _
      · simp only [declMeaning, if_true]
        split
        · exact hrn _ _
        · rename_i hb
          rw [List.forall_mem_append]
          refine ⟨hrn _ _, ?_⟩
          simp only [List.mem_singleton, forall_eq]
          refine ⟨hget, fun σ => ?_⟩
          simp only [Names.bind, if_true, ← hbool, hb, decide_false, varVal]
          simp
      · simpa [declMeaning] using hI.consKind
      · simpa [declMeaning] using hI.support
      · simp only [declMeaning, if_true, ← hbool, decide_eq_true_eq, hI.bools]
      · simp only [declMeaning, if_true, ← hbool, decide_eq_true_eq]
        split
        · exact hI.reals
        · rename_i hb
          exact List.rel_append hI.reals (.cons ⟨rfl, hb, hst, hB⟩ .nil)
    cases e with
    | none =>
      obtain rfl : v = none := hg
      cases h
      exact key
    | some e =>
      obtain ⟨p, f, rfl, ⟨tp, sp, _⟩, ef⟩ := hg
      dsimp only at h
      split at h
      · cases h
      rename_i q hq
      cases h
      obtain ⟨k, hk, ek⟩ := pEqualsOrIff_ok (stands_sym x ty) sp hq
      have hc : ∀ σ : Env K, ((mVal M.names σ e).bind fun v => mznOp .eq (varVal t.isBool x σ) v) = some (k σ) := fun σ => by
        rw [ef, Option.bind_some, ← hbool, ek]
      refine ⟨?_, ?_, ?_, ?_, ?_, ?_, key.weightTy, key.weight, key.queries, key.bools, key.reals⟩
      · exact key.table
      · exact key.boolNames
      · exact key.realNames
      · dsimp only
        rw [List.forall_mem_append]
        exact ⟨hI.supportTy, by simpa using hk.ty⟩
      · simp only [declMeaning, if_true]
        exact kind_snoc hI.consKind hk hc
      · simp only [declMeaning, if_true]
        exact support_snoc hI.support hk hc
  · rename_i hvar
    obtain rfl : var = false := by simpa using hvar
    cases h
    refine ⟨?_, hbn _ _, hrn _ _, hI.supportTy, hI.consKind, hI.support, hI.weightTy, hI.weight, hI.queries, hI.bools, hI.reals⟩
    refine hI.table.snoc hx fun p hp => ?_
    cases e with
    | none =>
      obtain rfl : v = none := hg
      cases hp
    | some e =>
      obtain ⟨q, f, rfl, o, ef⟩ := hg
      cases hp
      exact ⟨f, o.simp hs, ef⟩

theorem MInv.assign {simp : Pt → Pt} (hs : KeepsMeaning K simp) {S S' : MState} {M : Meaning K} (hI : MInv S M) {x : String} {e : MExpr}
    (h : mAssign simp S x e = .ok S') : MInv S' { M with names := M.names.bind x fun σ => mVal M.names σ e } := by
  unfold mAssign at h
  split at h
  · cases h
  rename_i v hv
  split at h
  · cases h
  rename_i i hi
  split at h
  · cases h
  rename_i hn
  split at h
  · cases h
  rename_i p hp
  split at h
  · cases h
  cases h
  obtain ⟨f, o, ef⟩ := mExpr_ok hI.table e hv
  have o := (mGiven_ok o hp).simp hs
  have hne : ∀ y, (∃ e p, S.table.get y = some e ∧ e.value = some p) → y ≠ x := by
    rintro y ⟨e', p', h1, h2⟩ rfl
    rw [hi] at h1
    cases h1
    rw [h2] at hn
    exact hn rfl
  have keep : ∀ y, (∃ e p, S.table.get y = some e ∧ e.value = some p) → ∃ e p', (S.table.set x (simp p)).get y = some e ∧ e.value = some p' := by
    intro y hy
    have := hne y hy
    rw [MTable.get_set, if_neg this]
    exact hy
  refine ⟨?_, ?_, ?_, hI.supportTy, hI.consKind, hI.support, hI.weightTy, hI.weight, hI.queries, hI.bools, hI.reals⟩
  · intro y e' p' hy hp'
    rw [MTable.get_set] at hy
    by_cases hxy : y = x
    · subst hxy
      rw [if_pos rfl, hi] at hy
      cases hy
      cases hp'
      exact ⟨f, o, fun σ => by simp only [Names.bind, if_true]; exact ef σ⟩
    · rw [if_neg hxy] at hy
      obtain ⟨g, h1, h2⟩ := hI.table y e' p' hy hp'
      exact ⟨g, h1, fun σ => by simp only [Names.bind, if_neg hxy]; exact h2 σ⟩
  · intro y hy
    obtain ⟨h1, h2⟩ := hI.boolNames y hy
    refine ⟨keep y h1, fun σ => ?_⟩
    simp only [Names.bind, if_neg (hne y h1)]
    exact h2 σ
  · intro y hy
    obtain ⟨h1, h2⟩ := hI.realNames y hy
    refine ⟨keep _ h1, fun σ => ?_⟩
    simp only [Names.bind, if_neg (hne _ h1)]
    exact h2 σ

theorem MInv.weighted {S S' : MState} {M : Meaning K} (hI : MInv S M) {e : MExpr} (h : mWeight S e = .ok S') :
    MInv S' { M with weights := M.weights ++ [fun σ => mVal M.names σ e] } := by
  unfold mWeight at h
  split at h
  · cases h
  rename_i v hv
  obtain ⟨f, o, ef⟩ := mExpr_ok hI.table e hv
  split at h
  · cases h
  rename_i hn
  have hn : S.weight = none := by simpa using hn
  have key : ∀ (p : Pt) (t : PTy), t ≠ .bool → Stands p t f →
      MInv { S with weight := some p } { M with weights := M.weights ++ [fun σ => mVal M.names σ e] } := by
    intro p t ht sp
    refine ⟨hI.table, hI.boolNames, hI.realNames, hI.supportTy, hI.consKind, hI.support, ?_, ?_, hI.queries, hI.bools, hI.reals⟩
    · intro q hq
      cases hq
      exact ⟨t, ht, sp.ty⟩
    · intro σ
      obtain ⟨a, h1, h2⟩ := hI.weight σ
      obtain ⟨y, hy⟩ := stands_n ht sp σ
      rw [hn] at h2
      have h2 : (PVal.n 1 : PVal K) = .n a := by rw [← h2]; simp [Pt.den]
      cases h2
      exact ⟨1 * y, prodV_snoc σ _ _ h1 (by rw [ef, hy]), by rw [one_mul, Option.getD_some, sp.den, hy]⟩
  split at h
  · rename_i hty
    cases h
    obtain ⟨t, ht, sp⟩ := o.isNum (by rw [hty]; simp)
    exact key _ t ht sp
  · split at h
    · cases h
    rename_i p hp
    cases h
    obtain ⟨t, sp, _⟩ := o
    exact key p .real (by simp) (pToReal_stands sp hp).2
  · cases h

/-- `And`: typed, and true exactly if all are. -/
theorem pAnd_all {ps : List Pt} {f : Pt} (ht : ∀ p ∈ ps, p.ty = some .bool) (h : pAnd ps = .ok f) :
    f.ty = some .bool ∧ ∀ σ : Env K, Pt.den σ f = .b true ↔ ∀ p ∈ ps, Pt.den σ p = .b true := by
  have hb : ∀ p ∈ ps, ∀ σ : Env K, Pt.den σ p = .b true ↔ (Pt.den σ p).toB = true := fun p hp σ => by
    rw [PVal.eq_b (Pt.den_kind (K := K) _ (ht p hp) σ)]
    simp [PVal.toB]
  unfold pAnd at h
  split at h
  · cases h
    exact ⟨rfl, fun σ => by simp [Pt.den]⟩
  · cases h
    exact ⟨ht _ (by simp), fun σ => by simp⟩
  · obtain ⟨rfl, hs⟩ := pNode_ok h
    refine ⟨by simp only [Pt.ty]; rw [if_pos ((Pt.tyAll_iff _ _).mpr ht)], fun σ => ?_⟩
    have : (∀ p ∈ _, Pt.den σ p = .b true) ↔ ∀ p ∈ _, (Pt.den σ p).toB = true := forall₂_congr fun p hp => hb p hp σ
    rw [this]
    simp only [Pt.den, Pt.dens_eq, PVal.b.injEq, List.all_eq_true, List.mem_map, forall_exists_index, and_imp,
      forall_apply_eq_imp_iff₂]

theorem get_mapped {α : Type} {f : α → String × MEntry} {l : List α} {x : String} {e : MEntry} (h : MTable.get (l.map f) x = some e) :
    ∃ a ∈ l, f a = (x, e) := by
  unfold MTable.get at h
  obtain ⟨⟨y, e'⟩, h1, rfl⟩ := Option.map_eq_some_iff.mp h
  have h2 := List.mem_of_find?_eq_some h1
  have h3 := List.find?_some h1
  obtain ⟨a, ha, hf⟩ := List.mem_map.mp h2
  simp only [decide_eq_true_eq] at h3
  exact ⟨a, ha, by rw [hf, ← h3]⟩

theorem get_isSome {α : Type} {f : α → String × MEntry} {l : List α} {a : α} (ha : a ∈ l) : (MTable.get (l.map f) (f a).1).isSome := by
  unfold MTable.get
  rw [Option.isSome_map, List.find?_isSome]
  exact ⟨f a, List.mem_map.mpr ⟨a, ha, rfl⟩, by simp⟩

theorem MTable.get_append (T U : MTable) (x : String) : MTable.get (T ++ U) x = (T.get x).or (U.get x) := by
  unfold MTable.get
  rw [List.find?_append]
  cases List.find? (fun p => decide (p.1 = x)) T <;> simp

/-- The fresh visitor of an included file, or of the file itself. -/
theorem MInv.init {A : List String} {X : List MReal} {w : Option Pt} (hd : ∀ a ∈ A, a ∉ X.map MReal.name)
    (hw : ∀ p, w = some p → ∃ t, t ≠ .bool ∧ p.ty = some t) {M : Meaning K} (hc : M.cons = []) (hq : M.queries = [])
    (hb : M.bools = A) (hr : List.Forall₂ NumIs X M.nums) (hnb : ∀ a ∈ A, ∀ σ, M.names a σ = some (.b (σ.b a)))
    (hnr : ∀ r ∈ X, ∀ σ, M.names r.name σ = some (.n (σ.r r.name)))
    (hwe : ∀ σ : Env K, ∃ x, prodV σ M.weights = some x ∧ Pt.den σ (w.getD (.realC 1)) = .n x) : MInv (.init A X w) M := by
  have hX : ∀ r ∈ X, r.ty ≠ .bool := by
    generalize M.nums = ns at hr
    clear hd hnr
    induction hr with
    | nil => simp
    | cons h _ ih => exact List.forall_mem_cons.mpr ⟨h.2.1, ih⟩
  refine ⟨?_, ?_, ?_, by simp [MState.init], by simp [hc], by simp [MState.init, hc], hw, hwe, by rw [hq]; exact .nil, hb.symm, hr⟩
  · intro x e p hx hp
    simp only [MState.init, MTable.get_append] at hx
    rcases Option.or_eq_some_iff.mp hx with h | ⟨_, h⟩
    · obtain ⟨a, ha, hf⟩ := get_mapped h
      cases hf
      cases hp
      exact ⟨_, ⟨.bool, stands_sym _ .bool, .inl rfl⟩, fun σ => by rw [hnb _ ha]; rfl⟩
    · obtain ⟨r, hr', hf⟩ := get_mapped h
      cases hf
      cases hp
      refine ⟨_, ⟨r.ty, stands_sym r.name r.ty, ?_⟩, fun σ => ?_⟩
      · have := hX r hr'
        cases ht : r.ty
        · exact absurd ht this
        · exact .inr ⟨rfl, rfl⟩
        · exact .inl rfl
      · rw [hnr r hr']
        simp [varVal, hX r hr']
  · intro a ha
    replace ha : a ∈ A := ha
    refine ⟨?_, hnb a ha⟩
    have := get_isSome (f := fun a : String => (a, (⟨some (.sym a .bool), .bool, true⟩ : MEntry))) ha
    obtain ⟨e, he⟩ := Option.isSome_iff_exists.mp this
    obtain ⟨b, _, hf⟩ := get_mapped he
    cases hf
    dsimp only at he
    exact ⟨_, _, by simp only [MState.init, MTable.get_append]; rw [he]; rfl, rfl⟩
  · intro r hr'
    refine ⟨?_, hnr r hr'⟩
    have := get_isSome (f := fun x : MReal => (x.name, (⟨some (.sym x.name x.ty), .real, true⟩ : MEntry))) hr'
    obtain ⟨e, he⟩ := Option.isSome_iff_exists.mp this
    obtain ⟨b, _, hf⟩ := get_mapped he
    have hn : MTable.get (A.map fun a => (a, (⟨some (.sym a .bool), .bool, true⟩ : MEntry))) r.name = none := by
      cases hg : MTable.get (A.map fun a => (a, (⟨some (.sym a .bool), .bool, true⟩ : MEntry))) r.name with
      | none => rfl
      | some e =>
        obtain ⟨a, ha, hf⟩ := get_mapped hg
        cases hf
        exact absurd (List.mem_map.mpr ⟨r, hr', rfl⟩) (hd _ ha)
    have he2 : e = ⟨some (.sym b.name b.ty), .real, true⟩ := (Prod.mk.inj hf).2.symm
    exact ⟨e, _, by simp only [MState.init, MTable.get_append]; rw [hn]; exact he, by rw [he2]⟩

/-- SPEC: more constraints and queries in front. -/
def Meaning.prepend (c q : List (Env K → Option (PVal K))) (M : Meaning K) : Meaning K := { M with cons := c ++ M.cons, queries := q ++ M.queries }

theorem declMeaning_prepend (c q : List (Env K → Option (PVal K))) (M : Meaning K) (var : Bool) (t : MType) (x : String) (e : Option MExpr) :
    declMeaning (M.prepend c q) var t x e = (declMeaning M var t x e).prepend c q := by
  cases var <;> cases e <;> simp [declMeaning, Meaning.prepend, List.append_assoc]

mutual
/-- What was read before does not matter for the constraints and queries of later items. -/
theorem itemMeaning_prepend (c q : List (Env K → Option (PVal K))) : ∀ (i : MItem) (M : Meaning K),
    itemMeaning (M.prepend c q) i = (itemMeaning M i).prepend c q
  | .incl is, M => by simp only [itemMeaning]; exact itemsMeaning_prepend c q is M
  | .decl var t x _ e, M => by simp only [itemMeaning]; exact declMeaning_prepend c q M var t x e
  | .assign x e, M => by simp only [itemMeaning, Meaning.prepend]
  | .constr e, M => by simp only [itemMeaning, Meaning.prepend, List.append_assoc]
  | .weight e, M => by simp only [itemMeaning, Meaning.prepend]
  | .query e, M => by simp only [itemMeaning, Meaning.prepend, List.append_assoc]
  | .annotated i, M => by simp only [itemMeaning]; exact itemMeaning_prepend c q i M
  | .other, M => by simp only [itemMeaning]
theorem itemsMeaning_prepend (c q : List (Env K → Option (PVal K))) : ∀ (is : List MItem) (M : Meaning K),
    itemsMeaning (M.prepend c q) is = (itemsMeaning M is).prepend c q
  | [], M => by simp only [itemsMeaning]
  | i :: is, M => by simp only [itemsMeaning]; rw [itemMeaning_prepend c q i M]; exact itemsMeaning_prepend c q is _
end

/-- The names of the Booleans and of the numbers are different. -/
theorem MInv.disjoint {S : MState} {M : Meaning K} (hI : MInv S M) : ∀ a ∈ S.bools, a ∉ S.reals.map MReal.name := by
  intro a ha hr
  obtain ⟨r, hr', rfl⟩ := List.mem_map.mp hr
  have h1 := (hI.boolNames _ ha).2 ⟨fun _ => true, fun _ => 0⟩
  have h2 := (hI.realNames _ hr').2 ⟨fun _ => true, fun _ => 0⟩
  rw [h1] at h2
  cases h2

/-- A weight stays, up to its form. -/
def WeightKept (K : Type) [Field K] [LinearOrder K] (S S' : MState) : Prop :=
  ∀ p, S.weight = some p → ∃ p', S'.weight = some p' ∧ ∀ σ : Env K, Pt.den σ p' = Pt.den σ p

theorem MInv.after {simp : Pt → Pt} (hs : KeepsMeaning K simp) {S C S' : MState} {M N : Meaning K} (hI : MInv S M) (hC : MInv C N)
    (hk : WeightKept K S C) (h : mAfter simp S C = .ok S') : MInv S' (N.prepend M.cons M.queries) ∧ WeightKept K S S' := by
  unfold mAfter at h
  split at h
  · cases h
  rename_i f hf
  obtain ⟨f1, f2⟩ := pAnd_all (K := K) hC.supportTy hf
  obtain ⟨g1, g2⟩ := hs f _ f1
  have hwt : ∃ t, t ≠ PTy.bool ∧ (C.weight.getD (.realC 1)).ty = some t := by
    cases hw : C.weight with
    | none => exact ⟨.real, by simp, rfl⟩
    | some p => exact hC.weightTy p hw
  obtain ⟨tw, htw, hwty⟩ := hwt
  obtain ⟨w1, w2⟩ := hs _ _ hwty
  have rest : ∀ W : Option Pt, (∀ p, W = some p → ∃ t, t ≠ PTy.bool ∧ p.ty = some t) →
      (∀ σ : Env K, Pt.den σ (W.getD (.realC 1)) = Pt.den σ (C.weight.getD (.realC 1))) →
      MInv { S with
        table := C.table, bools := C.bools, reals := C.reals, support := S.support ++ [simp f], queries := S.queries ++ C.queries
        weight := W } (N.prepend M.cons M.queries) := by
    intro W hW1 hW2
    refine ⟨hC.table, hC.boolNames, hC.realNames, ?_, ?_, ?_, hW1, ?_, List.rel_append hI.queries hC.queries, hC.bools, hC.reals⟩
    · dsimp only
      rw [List.forall_mem_append]
      exact ⟨hI.supportTy, by simpa using g1⟩
    · simp only [Meaning.prepend]
      rw [List.forall_mem_append]
      exact ⟨hI.consKind, hC.consKind⟩
    · intro σ
      simp only [Meaning.prepend]
      rw [List.forall_mem_append, List.forall_mem_append, hI.support σ, ← hC.support σ, ← f2 σ, ← g2 σ]
      simp
    · intro σ
      obtain ⟨x, h1, h2⟩ := hC.weight σ
      exact ⟨x, h1, by rw [hW2, h2]⟩
  have other : MInv { S with
        table := C.table, bools := C.bools, reals := C.reals, support := S.support ++ [simp f], queries := S.queries ++ C.queries
        weight := some (simp (C.weight.getD (.realC 1))) } (N.prepend M.cons M.queries) ∧
      ∀ p, S.weight = some p → ∀ σ : Env K, Pt.den σ (simp (C.weight.getD (.realC 1))) = Pt.den σ p := by
    refine ⟨rest _ (fun p hp => by cases hp; exact ⟨tw, htw, w1⟩) fun σ => by rw [Option.getD_some, w2], fun p hp σ => ?_⟩
    obtain ⟨p', h1, h2⟩ := hk p hp
    rw [w2, h1, Option.getD_some, h2]
  dsimp only at h
  generalize hW : simp (C.weight.getD (.realC 1)) = W at *
  cases h
  split
  · rename_i q
    split
    · rename_i hq
      subst hq
      have one : ∀ σ : Env K, Pt.den σ (C.weight.getD (.realC 1)) = .n 1 := fun σ => by rw [← w2]; simp [Pt.den]
      refine ⟨rest _ hI.weightTy fun σ => ?_, fun p hp => ⟨p, hp, fun σ => rfl⟩⟩
      rw [one]
      cases hw : S.weight with
      | none => simp [Pt.den]
      | some p =>
        obtain ⟨p', h1, h2⟩ := hk p hw
        rw [Option.getD_some, ← h2, ← one σ, h1, Option.getD_some]
    · exact ⟨other.1, fun p hp => ⟨_, rfl, other.2 p hp⟩⟩
  · exact ⟨other.1, fun p hp => ⟨_, rfl, other.2 p hp⟩⟩

theorem mDecl_weight {simp : Pt → Pt} {S S' : MState} {var : Bool} {t : MType} {x : String} {ann : Bool} {e : Option MExpr}
    (h : mDecl simp S var t x ann e = .ok S') : S'.weight = S.weight := by
  unfold mDecl at h
  repeat' split at h
  all_goals first | (cases h; done) | (cases h; rfl)

theorem mAssign_weight {simp : Pt → Pt} {S S' : MState} {x : String} {e : MExpr} (h : mAssign simp S x e = .ok S') : S'.weight = S.weight := by
  unfold mAssign at h
  repeat' split at h
  all_goals first | (cases h; done) | (cases h; rfl)

mutual
/-- Reading an item. -/
theorem mItem_ok {simp : Pt → Pt} (hs : KeepsMeaning K simp) : ∀ (i : MItem) {S S' : MState} {M : Meaning K}, MInv S M → mItem simp S i = .ok S' →
    MInv S' (itemMeaning M i) ∧ WeightKept K S S'
  | .incl is, S, S', M, hI, h => by
    simp only [mItem] at h
    split at h
    · cases h
    rename_i C hC
    have h0 : MInv (.init S.bools S.reals S.weight) { M with cons := [], queries := [] } :=
      MInv.init hI.disjoint hI.weightTy rfl rfl hI.bools.symm hI.reals (fun a ha => (hI.boolNames a ha).2)
        (fun r hr => (hI.realNames r hr).2) hI.weight
    obtain ⟨h1, h2⟩ := mItems_ok hs is h0 hC
    have := hI.after hs h1 h2 h
    rw [← itemsMeaning_prepend] at this
    simpa [itemMeaning, Meaning.prepend] using this
  | .decl var t x ann e, S, S', M, hI, h => by
    simp only [mItem] at h
    refine ⟨?_, fun p hp => ⟨p, by rw [mDecl_weight h, hp], fun σ => rfl⟩⟩
    simp only [itemMeaning]
    exact hI.decl hs h
  | .assign x e, S, S', M, hI, h => by
    simp only [mItem] at h
    refine ⟨?_, fun p hp => ⟨p, by rw [mAssign_weight h, hp], fun σ => rfl⟩⟩
    simp only [itemMeaning]
    exact hI.assign hs h
  | .constr e, S, S', M, hI, h => by
    simp only [mItem] at h
    split at h
    · cases h
    rename_i v hv
    split at h
    · cases h
    rename_i hb
    cases h
    obtain ⟨f, o, ef⟩ := mExpr_ok hI.table e hv
    rw [not_not.mp hb] at o
    have o := o.isBool
    refine ⟨?_, fun p hp => ⟨p, hp, fun σ => rfl⟩⟩
    simp only [itemMeaning]
    refine ⟨hI.table, hI.boolNames, hI.realNames, ?_, kind_snoc hI.consKind o ef, support_snoc hI.support o ef, hI.weightTy, hI.weight, hI.queries,
      hI.bools, hI.reals⟩
    dsimp only
    rw [List.forall_mem_append]
    exact ⟨hI.supportTy, by simpa using o.ty⟩
  | .weight e, S, S', M, hI, h => by
    simp only [mItem] at h
    refine ⟨?_, fun p hp => ?_⟩
    · simp only [itemMeaning]
      exact hI.weighted h
    · unfold mWeight at h
      split at h
      · cases h
      · rw [hp] at h
        cases h
  | .query e, S, S', M, hI, h => by
    simp only [mItem] at h
    split at h
    · cases h
    rename_i v hv
    split at h
    · cases h
    rename_i hb
    cases h
    obtain ⟨f, o, ef⟩ := mExpr_ok hI.table e hv
    rw [not_not.mp hb] at o
    have o := o.isBool
    refine ⟨?_, fun p hp => ⟨p, hp, fun σ => rfl⟩⟩
    simp only [itemMeaning]
    exact ⟨hI.table, hI.boolNames, hI.realNames, hI.supportTy, hI.consKind, hI.support, hI.weightTy, hI.weight,
      List.rel_append hI.queries (.cons ⟨o.ty, fun σ => by rw [o.den]; exact ef σ⟩ .nil), hI.bools, hI.reals⟩
  | .annotated i, S, S', M, hI, h => by
    simp only [mItem] at h
    simp only [itemMeaning]
    exact mItem_ok hs i hI h
  | .other, S, S', M, hI, h => by simp only [mItem] at h; cases h
/-- Reading items. -/
theorem mItems_ok {simp : Pt → Pt} (hs : KeepsMeaning K simp) : ∀ (is : List MItem) {S S' : MState} {M : Meaning K}, MInv S M → mItems simp S is = .ok S' →
    MInv S' (itemsMeaning M is) ∧ WeightKept K S S'
  | [], S, S', M, hI, h => by
    simp only [mItems] at h
    cases h
    simp only [itemsMeaning]
    exact ⟨hI, fun p hp => ⟨p, hp, fun σ => rfl⟩⟩
  | i :: is, S, S', M, hI, h => by
    simp only [mItems] at h
    split at h
    · cases h
    rename_i S1 h1
    obtain ⟨a1, a2⟩ := mItem_ok hs i hI h1
    obtain ⟨b1, b2⟩ := mItems_ok hs is a1 h
    simp only [itemsMeaning]
    refine ⟨b1, fun p hp => ?_⟩
    obtain ⟨p1, c1, c2⟩ := a2 p hp
    obtain ⟨p2, d1, d2⟩ := b2 p1 c1
    exact ⟨p2, d1, fun σ => by rw [d2, c2]⟩
end

/-- C71: whatever MiniZinc file is read, with whatever variables and weight the caller gives, what comes out is what the text means,
included files read as if they stood in it: every constraint has a truth value, the support is true exactly where all constraints
(and the equations of declared variables that are given a value) are, the weight is the product of the given weight and of all
weights, the queries have their values, in order, and the domain is made of the given and the declared variables, with the stated
types and with the values of the endpoints of their ranges as bounds. -/
theorem mzn_meaning {simp : Pt → Pt} (hs : KeepsMeaning K simp) {A : List String} {X : List MReal} {w : Option Pt} {is : List MItem} {R : MResult}
    (hd : ∀ a ∈ A, a ∉ X.map MReal.name) (hX : ∀ r ∈ X, r.ty ≠ .bool) (hw : ∀ p, w = some p → ∃ t, t ≠ .bool ∧ p.ty = some t)
    (h : parseMzn simp A X w is = .ok R) :
    let M := itemsMeaning (givenMeaning (K := K) A X w) is
    (R.support.ty = some .bool ∧ ∀ σ : Env K, (∀ c ∈ M.cons, ∃ b, c σ = some (.b b)) ∧
      (Pt.den σ R.support = .b true ↔ ∀ c ∈ M.cons, c σ = some (.b true))) ∧
    ((∃ t, t ≠ .bool ∧ R.weight.ty = some t) ∧ ∀ σ : Env K, ∃ x, prodV σ M.weights = some x ∧ Pt.den σ R.weight = .n x) ∧
    List.Forall₂ (fun p q => p.ty = some .bool ∧ ∀ σ : Env K, q σ = some (Pt.den σ p)) R.queries M.queries ∧
    R.bools = M.bools ∧ List.Forall₂ NumIs R.reals M.nums ∧ ∀ a ∈ R.bools, a ∉ R.reals.map MReal.name := by
  intro M
  unfold parseMzn at h
  split at h
  · cases h
  rename_i S hS
  split at h
  · cases h
  rename_i f hf
  cases h
  have h0 : MInv (.init A X w) (givenMeaning (K := K) A X w) := by
    refine MInv.init hd hw rfl rfl rfl ?_ ?_ ?_ ?_
    · simp only [givenMeaning]
      rw [List.forall₂_map_right_iff, List.forall₂_same]
      intro r hr
      refine ⟨rfl, hX r hr, fun t ht => by cases ht; rfl, ?_⟩
      cases hb : r.bounds with
      | none => trivial
      | some b => exact fun σ => ⟨rfl, rfl⟩
    · intro a ha σ
      simp only [givenMeaning, if_pos ha]
    · intro r hr σ
      have hm : r.name ∈ X.map MReal.name := List.mem_map.mpr ⟨r, hr, rfl⟩
      simp only [givenMeaning, if_neg (fun ha => hd _ ha hm), if_pos hm]
    · intro σ
      cases w with
      | none => exact ⟨1, rfl, by simp [Pt.den]⟩
      | some p =>
        obtain ⟨t, ht, hp⟩ := hw p rfl
        have hn := PVal.eq_n (show (Pt.den σ p).isB = false by rw [Pt.den_kind (K := K) p hp σ]; simp [ht])
        refine ⟨_, ?_, hn⟩
        simp only [givenMeaning, prodV]
        rw [hn]
        simp [PVal.toN]
  obtain ⟨hI, _⟩ := mItems_ok hs is h0 hS
  obtain ⟨f1, f2⟩ := pAnd_all (K := K) hI.supportTy hf
  obtain ⟨g1, g2⟩ := hs f _ f1
  have hwt : ∃ t, t ≠ PTy.bool ∧ (S.weight.getD (.realC 1)).ty = some t := by
    cases hw : S.weight with
    | none => exact ⟨.real, by simp, rfl⟩
    | some p => exact hI.weightTy p hw
  obtain ⟨tw, htw, hwty⟩ := hwt
  obtain ⟨w1, w2⟩ := hs _ _ hwty
  refine ⟨⟨g1, fun σ => ⟨fun c hc => hI.consKind c hc σ, ?_⟩⟩, ⟨⟨tw, htw, w1⟩, fun σ => ?_⟩, hI.queries, hI.bools, hI.reals, hI.disjoint⟩
  · dsimp only
    rw [g2, f2]
    exact hI.support σ
  · dsimp only
    rw [w2]
    exact hI.weight σ
end

end Pywmi
