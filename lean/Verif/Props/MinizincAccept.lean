import Verif.Props.Minizinc
import Verif.Props.SmtlibAccept

set_option linter.unusedSectionVars false
set_option linter.unusedSimpArgs false

/-!
# C72: which MiniZinc files are read
-/

namespace Pywmi

/-! ### Specification: the types of expressions, the well-formed files -/

/-- SPEC: what is known of a name: its type, whether it is a decision variable, whether it has a value. -/
structure Slot where
  ty : PTy
  var : Bool
  has : Bool

/-- SPEC: what is known of the names. -/
abbrev Ctx := String → Option Slot

/-- SPEC: a name is declared. -/
def Ctx.bind (Γ : Ctx) (x : String) (s : Slot) : Ctx := fun y => if y = x then some s else Γ y

/-- SPEC: the common type of two types. -/
def unify (a b : PTy) : Option PTy := if a = b then some a else joinSort a b

/-- SPEC: the type of the result of an operator on two operands of a type.  Only Booleans are compared with `=` and `==`, only
numbers with `!=`. -/
def zSort : ZOp → PTy → Option PTy
  | .div, .int => some .real
  | .div, .real => some .real
  | .mult, .int => some .int
  | .mult, .real => some .real
  | .minus, .int => some .int
  | .minus, .real => some .real
  | .plus, .int => some .int
  | .plus, .real => some .real
  | .nq, .int => some .bool
  | .nq, .real => some .bool
  | .ge, .int => some .bool
  | .ge, .real => some .bool
  | .le, .int => some .bool
  | .le, .real => some .bool
  | .gt, .int => some .bool
  | .gt, .real => some .bool
  | .lt, .int => some .bool
  | .lt, .real => some .bool
  | .eq, .bool => some .bool
  | .eqeq, .bool => some .bool
  | .and, .bool => some .bool
  | .xor, .bool => some .bool
  | .or, .bool => some .bool
  | .rimpl, .bool => some .bool
  | .impl, .bool => some .bool
  | .equiv, .bool => some .bool
  | _, _ => none

/-- SPEC: a divisor that cannot be the constant zero: no zero literal and no parameter. -/
def nonZero (Γ : Ctx) : MExpr → Bool
  | .intL n => n ≠ 0
  | .floatL q => q ≠ 0
  | .pos e => nonZero Γ e
  | .ident x => match Γ x with
    | some s => s.var
    | none => true
  | _ => true

mutual
/-- SPEC: the type of an expression; with `z`, divisors must not be able to be the constant zero. -/
def mSort (z : Bool) (Γ : Ctx) : MExpr → Option PTy
  | .bin op l r => (mSort z Γ l).bind fun a => (mSort z Γ r).bind fun b => (unify a b).bind fun t =>
      if z ∧ op = .div ∧ ¬ nonZero Γ r then none else zSort op t
  | .not e => (mSort z Γ e).bind fun t => if t = .bool then some .bool else none
  | .neg e => (mSort z Γ e).bind fun t => if t = .bool then none else some t
  | .pos e => mSort z Γ e
  | .ident x => (Γ x).bind fun s => if s.has then some s.ty else none
  | .boolL _ => some .bool
  | .intL _ => some .int
  | .floatL _ => some .real
  | .ite b => mSortB z Γ b
  | .bad => none
/-- SPEC: the type of a chain of conditions. -/
def mSortB (z : Bool) (Γ : Ctx) : MBranch → Option PTy
  | .last c t e => (mSort z Γ c).bind fun k => if k ≠ .bool then none else
      (mSort z Γ t).bind fun a => (mSort z Γ e).bind fun b => unify a b
  | .more c t rest => (mSort z Γ c).bind fun k => if k ≠ .bool then none else
      (mSort z Γ t).bind fun a => (mSortB z Γ rest).bind fun b => unify a b
end

mutual
/-- SPEC: a decision variable occurs. -/
def usesVar (Γ : Ctx) : MExpr → Bool
  | .bin _ l r => usesVar Γ l || usesVar Γ r
  | .not e => usesVar Γ e
  | .neg e => usesVar Γ e
  | .pos e => usesVar Γ e
  | .ident x => (Γ x).any Slot.var
  | .ite b => usesVarB Γ b
  | _ => false
/-- SPEC: a decision variable occurs. -/
def usesVarB (Γ : Ctx) : MBranch → Bool
  | .last c t e => usesVar Γ c || usesVar Γ t || usesVar Γ e
  | .more c t rest => usesVar Γ c || usesVar Γ t || usesVarB Γ rest
end

/-- SPEC: the type of a number that is written down, perhaps with a minus. -/
def litTy : MExpr → Option PTy
  | .intL _ => some .int
  | .floatL _ => some .real
  | .neg (.intL _) => some .int
  | .neg (.floatL _) => some .real
  | _ => none

/-- SPEC: the type that is declared; ranges between two numbers of the same type, for decision variables. -/
def mznTy (var : Bool) : MType → Option PTy
  | .bool => some .bool
  | .int => some .int
  | .float => some .real
  | .range lo hi => if var ∧ litTy lo = litTy hi then litTy lo else none
  | _ => none

/-- SPEC: an expression can be the value of something of a type. -/
def fits (Γ : Ctx) (var : Bool) (ty : PTy) (e : MExpr) : Bool :=
  (mSort true Γ e = some ty ∨ (ty = .real ∧ mSort true Γ e = some .int)) ∧ (var ∨ ¬ usesVar Γ e)

/-- SPEC: a well-formed item, and what is known after it; `seen` says that there is a weight. -/
def itemOk (Γ : Ctx) (seen : Bool) : MItem → Option (Ctx × Bool)
  | .incl _ => none
  | .decl var t x ann e => (mznTy var t).bind fun ty =>
      if ¬ ann ∧ (Γ x).isNone ∧ (e.all (fits Γ var ty)) then some (Γ.bind x ⟨ty, var, var || e.isSome⟩, seen) else none
  | .assign x e => match Γ x with
    | some ⟨ty, false, false⟩ => if fits Γ false ty e then some (Γ.bind x ⟨ty, false, true⟩, seen) else none
    | _ => none
  | .constr e => if mSort true Γ e = some .bool then some (Γ, seen) else none
  | .query e => if mSort true Γ e = some .bool then some (Γ, seen) else none
  | .weight e => if ¬ seen ∧ (mSort true Γ e = some .int ∨ mSort true Γ e = some .real) then some (Γ, true) else none
  | .annotated i => itemOk Γ seen i
  | .other => none

/-- SPEC: a well-formed file. -/
def itemsOk (Γ : Ctx) (seen : Bool) : List MItem → Bool
  | [] => true
  | i :: is => match itemOk Γ seen i with
    | none => false
    | some (Γ', seen') => itemsOk Γ' seen' is

/-- SPEC: what is known of the given variables. -/
def givenCtx (A : List String) (X : List MReal) : Ctx := fun x =>
  if x ∈ A then some ⟨.bool, true, true⟩ else if x ∈ X.map MReal.name then some ⟨.real, true, true⟩ else none

/-- A simplifier that leaves numbers alone and computes their negations. -/
structure FoldsLits (simp : Pt → Pt) : Prop where
  int : ∀ z, simp (.intC z) = .intC z
  real : ∀ q, simp (.realC q) = .realC q
  negInt : ∀ z, simp (.times [.intC z, .intC (-1)]) = .intC (-z)
  negReal : ∀ q, simp (.times [.realC q, .realC (-1)]) = .realC (-q)

/-! ### Expressions -/

/-- The table agrees with what is known. -/
def TableG (Γ : Ctx) (T : MTable) : Prop :=
  ∀ x, match Γ x with
    | none => T.get x = none
    | some s => ∃ e, T.get x = some e ∧ e.ty = s.ty ∧ e.var = s.var ∧
      (s.has = true → ∃ p, e.value = some p ∧ p.ty = some s.ty ∧ (s.var = true → p = .sym x s.ty)) ∧ (s.has = false → e.value = none)

/-- A value of a type. -/
def HasTy (v : MVal) (t : PTy) : Prop := v.ty = t ∧ v.value.ty = some t

theorem castM_accepts {a b : MVal} {s t u : PTy} (ha : HasTy a s) (hb : HasTy b t) (h : unify s t = some u) :
    ∃ a' b', castM a b = .ok (some (a', b')) ∧ HasTy a' u ∧ HasTy b' u ∧ a'.var = a.var ∧ b'.var = b.var ∧
      (NotZero b.value → NotZero b'.value) := by
  unfold unify at h
  unfold castM
  rw [ha.1, hb.1]
  by_cases hst : s = t
  · subst hst
    rw [if_pos rfl] at h ⊢
    cases h
    exact ⟨a, b, rfl, ha, hb, rfl, rfl, fun h => h⟩
  · rw [if_neg hst] at h ⊢
    have hj := join_ne h
    have hs : s ≠ .bool ∧ t ≠ .bool ∧ u = .real ∧ ((s = .real ∧ t = .int) ∨ (s = .int ∧ t = .real)) := by
      clear ha hb
      cases s <;> cases t <;> simp_all [joinSort]
    obtain ⟨h1, h2, rfl, h3⟩ := hs
    rw [if_pos h3]
    obtain ⟨p, hp, tp⟩ := pToReal_ok h1 ha.2
    obtain ⟨q, hq, tq⟩ := pToReal_ok h2 hb.2
    rw [hp, hq]
    exact ⟨_, _, rfl, ⟨rfl, tp⟩, ⟨rfl, tq⟩, rfl, rfl, fun h => pToReal_nz hq h⟩

theorem castM_types {a b a' b' : MVal} {s t : PTy} (ha : HasTy a s) (hb : HasTy b t) (h : castM a b = .ok (some (a', b'))) :
    ∃ u, unify s t = some u ∧ HasTy a' u ∧ HasTy b' u := by
  unfold castM at h
  unfold unify
  rw [ha.1, hb.1] at h
  split at h
  · rename_i e
    cases h
    subst e
    exact ⟨s, if_pos rfl, ha, hb⟩
  · rename_i hne
    split at h
    · rename_i hc
      have h1 : s ≠ .bool ∧ t ≠ .bool ∧ joinSort s t = some .real := by
        rcases hc with ⟨rfl, rfl⟩ | ⟨rfl, rfl⟩ <;> simp [joinSort]
      obtain ⟨p, hp, tp⟩ := pToReal_ok h1.1 ha.2
      obtain ⟨q, hq, tq⟩ := pToReal_ok h1.2.1 hb.2
      rw [hp, hq] at h
      cases h
      exact ⟨.real, by rw [if_neg hne, h1.2.2], ⟨rfl, tp⟩, ⟨rfl, tq⟩⟩
    · cases h

theorem pDiv_typed {l r : Pt} (hl : l.ty = some .real) (hr : r.ty = some .real) (hz : NotZero r) :
    ∃ p, pDiv l r = .ok p ∧ p.ty = some .real ∧ NotZero p := by
  unfold pDiv
  split
  · rename_i q
    rw [if_neg (fun e => hz.1 (by rw [e]))]
    have h : (Pt.times [l, .realC q⁻¹]).ty = some .real := by simp [Pt.ty, Pt.tyAll, hl]
    exact ⟨_, pNode_some h, h, by simp [NotZero]⟩
  · have h : (Pt.div l r).ty = some .real := by simp [Pt.ty, hl, hr]
    exact ⟨_, pNode_some h, h, by simp [NotZero]⟩

/-- The operators accept operands of their types. -/
theorem mOpTerm_accepts {op : ZOp} {t s : PTy} {l r : Pt} (h : zSort op t = some s) (hl : l.ty = some t) (hr : r.ty = some t)
    (hz : op = .div → NotZero r) : ∃ p, mOpTerm op t l r = .ok (p, s) ∧ p.ty = some s ∧ NotZero p := by
  have node : ∀ n : Pt, n.ty = some s → NotZero n → ∃ p, (pNode n).map (·, s) = .ok (p, s) ∧ p.ty = some s ∧ NotZero p := fun n hn hz =>
    ⟨n, by rw [pNode_some hn]; rfl, hn, hz⟩
  cases op <;> cases t <;> simp only [zSort, Option.some.injEq, reduceCtorEq] at h <;> subst h
  case div.int | div.real =>
    obtain ⟨p, hp, tp⟩ := pToReal_ok (by simp) hl
    obtain ⟨q, hq, tq⟩ := pToReal_ok (by simp) hr
    obtain ⟨m, hm, tm, zm⟩ := pDiv_typed tp tq (pToReal_nz hq (hz rfl))
    exact ⟨m, by simp only [mOpTerm, hp, hq, hm]; rfl, tm, zm⟩
  case nq.int | nq.real =>
    have he : (Pt.equals l r).ty = some .bool := by simp [Pt.ty, hl, hr]
    have hn : (Pt.not (.equals l r)).ty = some .bool := by simp [Pt.ty, hl, hr]
    refine ⟨_, ?_, hn, by simp [NotZero]⟩
    simp only [mOpTerm, pNotEquals, pNode_some he, pNot, pNode_some hn]
    rfl
  case xor.bool =>
    have he : (Pt.iff l r).ty = some .bool := by simp [Pt.ty, hl, hr]
    have hn : (Pt.not (.iff l r)).ty = some .bool := by simp [Pt.ty, hl, hr]
    refine ⟨_, ?_, hn, by simp [NotZero]⟩
    simp only [mOpTerm, pXor, pNode_some he, pNot, pNode_some hn]
    rfl
  all_goals exact node _ (by simp [Pt.ty, Pt.tyAll, hl, hr]) (by simp [NotZero])

/-- What the operators accept has their types. -/
theorem mOpTerm_types {op : ZOp} {t s : PTy} {l r p : Pt} (hl : l.ty = some t) (hr : r.ty = some t) (h : mOpTerm op t l r = .ok (p, s)) :
    zSort op t = some s ∧ p.ty = some s := by
  have node : ∀ (n : Pt) (c : PTy), (pNode n).map (·, c) = .ok (p, s) → n.ty.isSome ∧ p = n ∧ s = c := by
    intro n c hn
    obtain ⟨q, hq, he⟩ := map_ok hn
    cases he
    obtain ⟨rfl, h1⟩ := pNode_ok hq
    exact ⟨h1, rfl, rfl⟩
  cases op
  case other => cases h
  case div =>
    simp only [mOpTerm] at h
    split at h
    · cases h
    rename_i vl h1
    split at h
    · cases h
    rename_i vr h2
    obtain ⟨q, hq, he⟩ := map_ok h
    cases he
    have ht : t ≠ .bool := by
      rintro rfl
      simp [pToReal, hl] at h1
    obtain ⟨_, e1, t1⟩ := pToReal_ok ht hl
    obtain ⟨_, e2, t2⟩ := pToReal_ok ht hr
    rw [h1] at e1
    rw [h2] at e2
    cases e1
    cases e2
    refine ⟨by cases t <;> simp [zSort] at ht ⊢, ?_⟩
    unfold pDiv at hq
    split at hq
    · split at hq
      · cases hq
      · obtain ⟨rfl, hs⟩ := pNode_ok (show pNode (.times [_, _]) = .ok _ from hq)
        simp [Pt.ty, Pt.tyAll, t1]
    · obtain ⟨rfl, hs⟩ := pNode_ok hq
      simp [Pt.ty, t1, t2]
  case nq =>
    obtain ⟨q, hq, he⟩ := map_ok h
    cases he
    unfold pNotEquals at hq
    split at hq
    · rename_i q' hq'
      obtain ⟨rfl, h1⟩ := pNode_ok hq'
      obtain ⟨rfl, h2⟩ := pNode_ok (show pNode (.not _) = .ok _ from hq)
      cases t <;> simp [Pt.ty, hl, hr] at h1
      all_goals exact ⟨rfl, by simp [Pt.ty, hl, hr]⟩
    · cases hq
  case xor =>
    obtain ⟨q, hq, he⟩ := map_ok h
    cases he
    unfold pXor at hq
    split at hq
    · rename_i q' hq'
      obtain ⟨rfl, h1⟩ := pNode_ok hq'
      obtain ⟨rfl, h2⟩ := pNode_ok (show pNode (.not _) = .ok _ from hq)
      cases t <;> simp [Pt.ty, hl, hr] at h1
      all_goals exact ⟨rfl, by simp [Pt.ty, hl, hr]⟩
    · cases hq
  all_goals
    obtain ⟨h1, hp, hs⟩ := node _ _ (by simpa only [mOpTerm, pTimes, pPlus, pAnd, pOr] using h)
    rw [hp, hs]
    cases t <;> simp [Pt.ty, Pt.tyAll, hl, hr] at h1
    all_goals exact ⟨rfl, by simp [Pt.ty, Pt.tyAll, hl, hr]⟩

theorem mIte_accepts {c t e : MVal} {a b u : PTy} (hc : HasTy c .bool) (ht : HasTy t a) (he : HasTy e b) (h : unify a b = some u) :
    ∃ v, mIte c t e = .ok v ∧ HasTy v u ∧ v.var = (c.var || t.var || e.var) ∧ NotZero v.value := by
  obtain ⟨t', e', h1, h2, h3, h4, h5, _⟩ := castM_accepts ht he h
  unfold mIte
  rw [if_neg (by simp [hc.1]), h1]
  have hn : (Pt.ite c.value t'.value e'.value).ty = some u := by
    simp only [Pt.ty]
    rw [if_pos ⟨hc.2, by rw [h2.2, h3.2]⟩, h2.2]
  simp only [pNode_some hn]
  exact ⟨_, rfl, ⟨h2.1, hn⟩, by simp [h4, h5], by simp [NotZero]⟩

theorem mIte_types {c t e v : MVal} {k a b : PTy} (hc : HasTy c k) (ht : HasTy t a) (he : HasTy e b) (h : mIte c t e = .ok v) :
    k = .bool ∧ ∃ u, unify a b = some u ∧ HasTy v u := by
  unfold mIte at h
  split at h
  · cases h
  rename_i hb
  refine ⟨by rw [← hc.1]; exact not_not.mp hb, ?_⟩
  split at h
  · cases h
  · cases h
  rename_i t' e' h1
  obtain ⟨u, hu, h2, h3⟩ := castM_types ht he h1
  split at h
  · cases h
  rename_i p hp
  cases h
  obtain ⟨rfl, hs⟩ := pNode_ok hp
  refine ⟨u, hu, h2.1, ?_⟩
  simp only [Pt.ty] at hs ⊢
  split at hs
  · rename_i hc'
    rw [if_pos hc', h2.2]
  · cases hs

theorem pNot_typed {p : Pt} (h : p.ty = some .bool) : ∃ q, pNot p = .ok q ∧ q.ty = some .bool ∧ NotZero q := by
  unfold pNot
  split
  · rename_i q
    have : q.ty = some .bool := by
      simp only [Pt.ty] at h
      exact isSome_ite (by rw [h]; rfl)
    exact ⟨q, rfl, this, notZero_of this rfl⟩
  · have hn : (Pt.not p).ty = some .bool := by simp [Pt.ty, h]
    exact ⟨_, pNode_some hn, hn, by simp [NotZero]⟩

theorem neg_typed {p : Pt} {t : PTy} (ht : t ≠ .bool) (h : p.ty = some t) :
    (t = .int → pTimes [p, .intC (-1)] = .ok (.times [p, .intC (-1)]) ∧ (Pt.times [p, .intC (-1)]).ty = some .int) ∧
    (t = .real → pTimes [p, .realC (-1)] = .ok (.times [p, .realC (-1)]) ∧ (Pt.times [p, .realC (-1)]).ty = some .real) := by
  constructor
  · rintro rfl
    have hn : (Pt.times [p, .intC (-1)]).ty = some .int := by simp [Pt.ty, Pt.tyAll, h]
    exact ⟨pNode_some hn, hn⟩
  · rintro rfl
    have hn : (Pt.times [p, .realC (-1)]).ty = some .real := by simp [Pt.ty, Pt.tyAll, h]
    exact ⟨pNode_some hn, hn⟩

mutual
/-- Well-typed expressions are read, with their type. -/
theorem mExpr_accepts {Γ : Ctx} {T : MTable} (hT : TableG Γ T) : ∀ (e : MExpr) {t : PTy}, mSort true Γ e = some t →
    ∃ v, mExpr T e = .ok v ∧ HasTy v t ∧ v.var = usesVar Γ e ∧ (nonZero Γ e = true → NotZero v.value)
  | .bin op l r, t, h => by
    simp only [mSort, Option.bind_eq_some_iff] at h
    obtain ⟨a, ha, b, hb, u, hu, h⟩ := h
    split at h
    · cases h
    rename_i hz
    obtain ⟨vl, hl, tl, xl, _⟩ := mExpr_accepts hT l ha
    obtain ⟨vr, hr, tr, xr, zr⟩ := mExpr_accepts hT r hb
    obtain ⟨l', r', h1, h2, h3, h4, h5, h6⟩ := castM_accepts tl tr hu
    obtain ⟨p, hp, tp, zp⟩ := mOpTerm_accepts (l := l'.value) (r := r'.value) h h2.2 h3.2 fun hd => h6 (zr (by
      by_contra hn
      exact hz ⟨trivial, hd, hn⟩))
    refine ⟨⟨p, t, l'.var || r'.var⟩, ?_, ⟨rfl, tp⟩, ?_, fun _ => zp⟩
    · simp only [mExpr, hl, hr, mBin, h1]
      rw [h2.1, hp]
    · simp only [usesVar, h4, h5, xl, xr]
  | .not e, t, h => by
    simp only [mSort, Option.bind_eq_some_iff] at h
    obtain ⟨a, ha, h⟩ := h
    split at h
    · rename_i hb
      subst hb
      cases h
      obtain ⟨v, hv, tv, xv, _⟩ := mExpr_accepts hT e ha
      obtain ⟨q, hq, tq, zq⟩ := pNot_typed tv.2
      refine ⟨⟨q, .bool, v.var⟩, ?_, ⟨rfl, tq⟩, by simp only [usesVar, xv], fun _ => zq⟩
      simp only [mExpr, hv, if_pos tv.1, hq]
      rfl
    · cases h
  | .neg e, t, h => by
    simp only [mSort, Option.bind_eq_some_iff] at h
    obtain ⟨a, ha, h⟩ := h
    split at h
    · cases h
    rename_i hb
    cases h
    obtain ⟨v, hv, tv, xv, _⟩ := mExpr_accepts hT e ha
    have hn := neg_typed hb tv.2
    cases t with
    | bool => exact absurd rfl hb
    | int =>
      obtain ⟨h1, h2⟩ := hn.1 rfl
      refine ⟨⟨_, .int, v.var⟩, ?_, ⟨rfl, h2⟩, by simp only [usesVar, xv], fun _ => by simp [NotZero]⟩
      simp only [mExpr, hv, tv.1, h1]
      rfl
    | real =>
      obtain ⟨h1, h2⟩ := hn.2 rfl
      refine ⟨⟨_, .real, v.var⟩, ?_, ⟨rfl, h2⟩, by simp only [usesVar, xv], fun _ => by simp [NotZero]⟩
      simp only [mExpr, hv, tv.1, h1]
      rfl
  | .pos e, t, h => by
    simp only [mSort] at h
    simp only [mExpr, usesVar, nonZero]
    exact mExpr_accepts hT e h
  | .ident x, t, h => by
    simp only [mSort, Option.bind_eq_some_iff] at h
    obtain ⟨s, hs, h⟩ := h
    split at h
    · rename_i hh
      cases h
      have hx := hT x
      rw [hs] at hx
      obtain ⟨e, h1, h2, h3, h4, _⟩ := hx
      obtain ⟨p, h5, h6, h7⟩ := h4 hh
      refine ⟨⟨p, e.ty, e.var⟩, ?_, ⟨h2, h6⟩, ?_, ?_⟩
      · simp only [mExpr, h1, h5]
      · simp only [usesVar, hs, h3, Option.any_some]
      · simp only [nonZero, hs]
        intro hv
        rw [h7 hv]
        simp [NotZero]
    · cases h
  | .boolL b, t, h => by
    simp only [mSort, Option.some.injEq] at h
    subst h
    exact ⟨⟨.boolC b, .bool, false⟩, by simp only [mExpr], ⟨rfl, rfl⟩, by simp only [usesVar], fun _ => by simp [NotZero]⟩
  | .intL n, t, h => by
    simp only [mSort, Option.some.injEq] at h
    subst h
    refine ⟨⟨.intC n, .int, false⟩, by simp only [mExpr], ⟨rfl, rfl⟩, by simp only [usesVar], fun hz => ?_⟩
    simpa [NotZero, nonZero] using hz
  | .floatL q, t, h => by
    simp only [mSort, Option.some.injEq] at h
    subst h
    refine ⟨⟨.realC q, .real, false⟩, by simp only [mExpr], ⟨rfl, rfl⟩, by simp only [usesVar], fun hz => ?_⟩
    simpa [NotZero, nonZero] using hz
  | .ite b, t, h => by
    simp only [mSort] at h
    simp only [mExpr, usesVar, nonZero]
    obtain ⟨v, h1, h2, h3, h4⟩ := mBranch_accepts hT b h
    exact ⟨v, h1, h2, h3, fun _ => h4⟩
  | .bad, t, h => by simp only [mSort] at h; cases h
/-- Well-typed conditions are read. -/
theorem mBranch_accepts {Γ : Ctx} {T : MTable} (hT : TableG Γ T) : ∀ (b : MBranch) {t : PTy}, mSortB true Γ b = some t →
    ∃ v, mBranch T b = .ok v ∧ HasTy v t ∧ v.var = usesVarB Γ b ∧ NotZero v.value
  | .last c t e, u, h => by
    simp only [mSortB, Option.bind_eq_some_iff] at h
    obtain ⟨k, hk, h⟩ := h
    split at h
    · cases h
    rename_i hb
    obtain rfl := not_not.mp hb
    simp only [Option.bind_eq_some_iff] at h
    obtain ⟨a, ha, b, hb, h⟩ := h
    obtain ⟨vc, hc, tc, xc, _⟩ := mExpr_accepts hT c hk
    obtain ⟨vt, ht, tt, xt, _⟩ := mExpr_accepts hT t ha
    obtain ⟨ve, he, te, xe, _⟩ := mExpr_accepts hT e hb
    obtain ⟨v, h1, h2, h3, h4⟩ := mIte_accepts tc tt te h
    exact ⟨v, by simp only [mBranch, hc, ht, he, h1], h2, by simp only [usesVarB, h3, xc, xt, xe], h4⟩
  | .more c t rest, u, h => by
    simp only [mSortB, Option.bind_eq_some_iff] at h
    obtain ⟨k, hk, h⟩ := h
    split at h
    · cases h
    rename_i hb
    obtain rfl := not_not.mp hb
    simp only [Option.bind_eq_some_iff] at h
    obtain ⟨a, ha, b, hb, h⟩ := h
    obtain ⟨vc, hc, tc, xc, _⟩ := mExpr_accepts hT c hk
    obtain ⟨vt, ht, tt, xt, _⟩ := mExpr_accepts hT t ha
    obtain ⟨ve, he, te, xe, _⟩ := mBranch_accepts hT rest hb
    obtain ⟨v, h1, h2, h3, h4⟩ := mIte_accepts tc tt te h
    exact ⟨v, by simp only [mBranch, hc, ht, he, h1], h2, by simp only [usesVarB, h3, xc, xt, xe], h4⟩
end

mutual
/-- Only well-typed expressions are read, and with their type. -/
theorem mExpr_types {Γ : Ctx} {T : MTable} (hT : TableG Γ T) : ∀ (e : MExpr) {v : MVal}, mExpr T e = .ok v →
    ∃ t, mSort false Γ e = some t ∧ HasTy v t
  | .bin op l r, v, h => by
    simp only [mExpr] at h
    split at h
    · cases h
    rename_i vl h1
    split at h
    · cases h
    rename_i vr h2
    obtain ⟨a, ha, tl⟩ := mExpr_types hT l h1
    obtain ⟨b, hb, tr⟩ := mExpr_types hT r h2
    unfold mBin at h
    split at h
    · cases h
    · cases h
    rename_i l' r' hc
    obtain ⟨u, hu, t1, t2⟩ := castM_types tl tr hc
    split at h
    · cases h
    rename_i p s hp
    cases h
    rw [t1.1] at hp
    obtain ⟨z1, z2⟩ := mOpTerm_types t1.2 t2.2 hp
    exact ⟨s, by simp [mSort, ha, hb, hu, z1], rfl, z2⟩
  | .not e, v, h => by
    simp only [mExpr] at h
    split at h
    · cases h
    rename_i w h1
    obtain ⟨a, ha, tw⟩ := mExpr_types hT e h1
    split at h
    · rename_i hb
      obtain rfl : a = .bool := by rw [← tw.1, hb]
      obtain ⟨p, hp, rfl⟩ := map_ok h
      obtain ⟨q, hq, tq, _⟩ := pNot_typed tw.2
      rw [hp] at hq
      cases hq
      exact ⟨.bool, by simp [mSort, ha], rfl, tq⟩
    · cases h
  | .neg e, v, h => by
    simp only [mExpr] at h
    split at h
    · cases h
    rename_i w h1
    obtain ⟨a, ha, tw⟩ := mExpr_types hT e h1
    split at h
    · rename_i hb
      obtain rfl : a = .real := by rw [← tw.1, hb]
      obtain ⟨p, hp, rfl⟩ := map_ok h
      obtain ⟨h2, h3⟩ := (neg_typed (by simp) tw.2).2 rfl
      rw [hp] at h2
      cases h2
      exact ⟨.real, by simp [mSort, ha], rfl, h3⟩
    · rename_i hb
      obtain rfl : a = .int := by rw [← tw.1, hb]
      obtain ⟨p, hp, rfl⟩ := map_ok h
      obtain ⟨h2, h3⟩ := (neg_typed (by simp) tw.2).1 rfl
      rw [hp] at h2
      cases h2
      exact ⟨.int, by simp [mSort, ha], rfl, h3⟩
    · cases h
  | .pos e, v, h => by
    simp only [mExpr] at h
    simp only [mSort]
    exact mExpr_types hT e h
  | .ident x, v, h => by
    simp only [mExpr] at h
    split at h
    · cases h
    rename_i e he
    split at h
    · cases h
    rename_i p hp
    cases h
    have hx := hT x
    cases hs : Γ x with
    | none => rw [hs] at hx; rw [hx] at he; cases he
    | some s =>
      rw [hs] at hx
      obtain ⟨e', h1, h2, h3, h4, h5⟩ := hx
      rw [he] at h1
      cases h1
      have hh : s.has = true := by
        by_contra hn
        rw [h5 (by simpa using hn)] at hp
        cases hp
      obtain ⟨p', h6, h7, _⟩ := h4 hh
      rw [hp] at h6
      cases h6
      exact ⟨s.ty, by simp [mSort, hs, hh], h2, h7⟩
  | .boolL b, v, h => by
    simp only [mExpr] at h
    cases h
    exact ⟨.bool, by simp only [mSort], rfl, rfl⟩
  | .intL n, v, h => by
    simp only [mExpr] at h
    cases h
    exact ⟨.int, by simp only [mSort], rfl, rfl⟩
  | .floatL q, v, h => by
    simp only [mExpr] at h
    cases h
    exact ⟨.real, by simp only [mSort], rfl, rfl⟩
  | .ite b, v, h => by
    simp only [mExpr] at h
    simp only [mSort]
    exact mBranch_types hT b h
  | .bad, v, h => by simp only [mExpr] at h; cases h
/-- Only well-typed conditions are read. -/
theorem mBranch_types {Γ : Ctx} {T : MTable} (hT : TableG Γ T) : ∀ (b : MBranch) {v : MVal}, mBranch T b = .ok v →
    ∃ t, mSortB false Γ b = some t ∧ HasTy v t
  | .last c t e, v, h => by
    simp only [mBranch] at h
    split at h
    · cases h
    rename_i vc h1
    split at h
    · cases h
    rename_i vt h2
    split at h
    · cases h
    rename_i ve h3
    obtain ⟨k, hk, tc⟩ := mExpr_types hT c h1
    obtain ⟨a, ha, tt⟩ := mExpr_types hT t h2
    obtain ⟨b, hb, te⟩ := mExpr_types hT e h3
    obtain ⟨rfl, u, hu, tv⟩ := mIte_types tc tt te h
    exact ⟨u, by simp [mSortB, hk, ha, hb, hu], tv⟩
  | .more c t rest, v, h => by
    simp only [mBranch] at h
    split at h
    · cases h
    rename_i ve h3
    split at h
    · cases h
    rename_i vt h2
    split at h
    · cases h
    rename_i vc h1
    obtain ⟨k, hk, tc⟩ := mExpr_types hT c h1
    obtain ⟨a, ha, tt⟩ := mExpr_types hT t h2
    obtain ⟨b, hb, te⟩ := mBranch_types hT rest h3
    obtain ⟨rfl, u, hu, tv⟩ := mIte_types tc tt te h
    exact ⟨u, by simp [mSortB, hk, ha, hb, hu], tv⟩
end


/-! ### Files -/

theorem TableG.bind {Γ : Ctx} {T : MTable} (h : TableG Γ T) {x : String} (hx : Γ x = none) {s : Slot} {e : MEntry} (h1 : e.ty = s.ty) (h2 : e.var = s.var)
    (h3 : s.has = true → ∃ p, e.value = some p ∧ p.ty = some s.ty ∧ (s.var = true → p = .sym x s.ty)) (h4 : s.has = false → e.value = none) :
    TableG (Γ.bind x s) (T ++ [(x, e)]) := by
  have hn : T.get x = none := by
    have := h x
    rw [hx] at this
    exact this
  intro y
  by_cases hy : y = x
  · subst hy
    simp only [Ctx.bind, if_true]
    exact ⟨e, by rw [MTable.get_snoc, hn, if_pos rfl]; rfl, h1, h2, h3, h4⟩
  · simp only [Ctx.bind, if_neg hy]
    rw [MTable.get_snoc, if_neg (fun e => hy e.symm), Option.or_none]
    exact h y

theorem mGiven_accepts {var : Bool} {ty t : PTy} {v : MVal} (hv : HasTy v t) (ht : t = ty ∨ (ty = .real ∧ t = .int)) (hu : var = true ∨ v.var = false) :
    ∃ p, mGiven var ty v = .ok p ∧ p.ty = some ty := by
  unfold mGiven
  rw [if_neg (by rcases hu with h | h <;> simp [h]), hv.1]
  rcases ht with rfl | ⟨rfl, rfl⟩
  · rw [if_neg (by simp)]
    exact ⟨_, rfl, hv.2⟩
  · rw [if_pos (by simp), if_pos ⟨rfl, rfl⟩]
    exact pToReal_ok (by simp) hv.2

theorem fits_accepts {Γ : Ctx} {T : MTable} (hT : TableG Γ T) {var : Bool} {ty : PTy} {e : MExpr} (h : fits Γ var ty e = true) :
    ∃ v p, mExpr T e = .ok v ∧ mGiven var ty v = .ok p ∧ p.ty = some ty := by
  simp only [fits, decide_eq_true_eq] at h
  obtain ⟨h1, h2⟩ := h
  obtain ⟨t, ht, htt⟩ : ∃ t, mSort true Γ e = some t ∧ (t = ty ∨ (ty = .real ∧ t = .int)) := by
    rcases h1 with h | ⟨rfl, h⟩
    · exact ⟨ty, h, .inl rfl⟩
    · exact ⟨.int, h, .inr ⟨rfl, rfl⟩⟩
  obtain ⟨v, hv, tv, xv, _⟩ := mExpr_accepts hT e ht
  obtain ⟨p, hp, tp⟩ := mGiven_accepts (var := var) tv htt (by
    rcases h2 with h | h
    · exact .inl h
    · exact .inr (by rw [xv]; simpa using h))
  exact ⟨v, p, hv, hp, tp⟩

/-- Numbers that are written down. -/
theorem lit_accepts {simp : Pt → Pt} (hf : FoldsLits simp) {e : MExpr} {t : PTy} (h : litTy e = some t) (T : MTable) :
    ∃ v q, mExpr T e = .ok v ∧ v.ty = t ∧ t ≠ .bool ∧ constValue (simp v.value) = .ok q := by
  unfold litTy at h
  split at h
  · cases h
    rename_i n
    exact ⟨⟨.intC n, .int, false⟩, n, by simp only [mExpr], rfl, by simp, by rw [hf.int]; simp [constValue]⟩
  · cases h
    rename_i q
    exact ⟨⟨.realC q, .real, false⟩, q, by simp only [mExpr], rfl, by simp, by rw [hf.real]; simp [constValue]⟩
  · cases h
    rename_i n
    have hn := (neg_typed (p := .intC n) (t := .int) (by simp) rfl).1 rfl
    refine ⟨⟨.times [.intC n, .intC (-1)], .int, false⟩, -n, ?_, rfl, by simp, by rw [hf.negInt]; simp [constValue]⟩
    simp only [mExpr, hn.1]
    rfl
  · cases h
    rename_i q
    have hn := (neg_typed (p := .realC q) (t := .real) (by simp) rfl).2 rfl
    refine ⟨⟨.times [.realC q, .realC (-1)], .real, false⟩, -q, ?_, rfl, by simp, by rw [hf.negReal]; simp [constValue]⟩
    simp only [mExpr, hn.1]
    rfl
  · cases h

theorem mType_accepts {simp : Pt → Pt} (hf : FoldsLits simp) {var : Bool} {t : MType} {ty : PTy} (h : mznTy var t = some ty) (T : MTable) :
    ∃ rng bs, mType T var t = .ok (ty, rng) ∧ mBounds simp rng = .ok bs := by
  cases t with
  | bool => cases h; exact ⟨_, _, rfl, rfl⟩
  | int => cases h; exact ⟨_, _, rfl, rfl⟩
  | float => cases h; exact ⟨_, _, rfl, rfl⟩
  | string => cases h
  | named => cases h
  | other => cases h
  | range lo hi =>
    simp only [mznTy] at h
    split at h
    · rename_i hc
      obtain ⟨a, qa, h1, h2, h3, h4⟩ := lit_accepts hf h T
      obtain ⟨b, qb, g1, g2, g3, g4⟩ := lit_accepts hf (hc.2 ▸ h) T
      refine ⟨some (a.value, b.value), some (qa, qb), ?_, by simp only [mBounds, h4, g4]⟩
      simp only [mType, h1, g1, castM]
      rw [if_pos (by rw [h2, g2])]
      simp only [h2, if_neg h3]
      rw [if_neg (by simp [hc.1])]
    · cases h

theorem pEqualsOrIff_typed {l r : Pt} {t : PTy} (hl : l.ty = some t) (hr : r.ty = some t) : ∃ q, pEqualsOrIff l r = .ok q ∧ q.ty = some .bool := by
  unfold pEqualsOrIff
  cases t with
  | bool =>
    rw [if_pos hl]
    have h : (Pt.iff l r).ty = some .bool := by simp [Pt.ty, hl, hr]
    exact ⟨_, pNode_some h, h⟩
  | int =>
    rw [if_neg (by rw [hl]; simp)]
    have h : (Pt.equals l r).ty = some .bool := by simp [Pt.ty, hl, hr]
    exact ⟨_, pNode_some h, h⟩
  | real =>
    rw [if_neg (by rw [hl]; simp)]
    have h : (Pt.equals l r).ty = some .bool := by simp [Pt.ty, hl, hr]
    exact ⟨_, pNode_some h, h⟩

/-- The state of the visitor agrees with what is known. -/
structure StateG (Γ : Ctx) (seen : Bool) (S : MState) : Prop where
  table : TableG Γ S.table
  seen : S.weight.isSome = seen
  support : ∀ p ∈ S.support, p.ty = some .bool

/-- The simplifier keeps types. -/
def KeepsTypes (simp : Pt → Pt) : Prop := ∀ p t, p.ty = some t → (simp p).ty = some t

theorem mDecl_accepts {simp : Pt → Pt} (hf : FoldsLits simp) (hk : KeepsTypes simp) {Γ : Ctx} {seen : Bool} {S : MState} (hS : StateG Γ seen S)
    {var : Bool} {t : MType} {x : String} {e : Option MExpr} {ty : PTy} (ht : mznTy var t = some ty) (hx : Γ x = none)
    (he : e.all (fits Γ var ty) = true) :
    ∃ S', mDecl simp S var t x false e = .ok S' ∧ StateG (Γ.bind x ⟨ty, var, var || e.isSome⟩) seen S' := by
  obtain ⟨rng, bs, h1, h2⟩ := mType_accepts hf ht S.table
  have hn : S.table.get x = none := by
    have := hS.table x
    rw [hx] at this
    exact this
  unfold mDecl
  simp only [h1, hn, Option.isSome_none, Bool.false_eq_true, if_false]
  have hv : ∃ v : Option Pt, mGivenOpt S.table var ty e = .ok v ∧ v.isSome = e.isSome ∧ ∀ p, v = some p → p.ty = some ty := by
    cases e with
    | none => exact ⟨none, rfl, rfl, fun p hp => by cases hp⟩
    | some e =>
      obtain ⟨v, p, h3, h4, h5⟩ := fits_accepts hS.table (by simpa using he)
      exact ⟨some p, by simp only [mGivenOpt, h3, h4], rfl, fun q hq => by cases hq; exact h5⟩
  obtain ⟨v, h3, h4, h5⟩ := hv
  rw [h3]
  cases var with
  | true =>
    have hT : TableG (Γ.bind x ⟨ty, true, true || e.isSome⟩) (S.table ++ [(x, ⟨some (.sym x ty), ty, true⟩)]) :=
      hS.table.bind hx rfl rfl (fun _ => ⟨_, rfl, rfl, fun _ => rfl⟩) (fun h => by cases h)
    simp only [if_true, h2]
    cases v with
    | none => exact ⟨_, rfl, hT, hS.seen, hS.support⟩
    | some p =>
      obtain ⟨q, hq, tq⟩ := pEqualsOrIff_typed (l := .sym x ty) (r := p) rfl (h5 p rfl)
      simp only [hq]
      refine ⟨_, rfl, hT, hS.seen, ?_⟩
      dsimp only
      rw [List.forall_mem_append]
      exact ⟨hS.support, by simpa using tq⟩
  | false =>
    simp only [Bool.false_eq_true, if_false, Bool.false_or]
    refine ⟨_, rfl, hS.table.bind hx rfl rfl (fun h => ?_) (fun h => ?_), hS.seen, hS.support⟩
    · dsimp only at h ⊢
      rw [← h4] at h
      obtain ⟨p, rfl⟩ := Option.isSome_iff_exists.mp h
      exact ⟨simp p, rfl, hk p ty (h5 p rfl), fun h => by cases h⟩
    · dsimp only at h ⊢
      rw [← h4] at h
      cases v with
      | none => rfl
      | some p => cases h

theorem mAssign_accepts {simp : Pt → Pt} (hk : KeepsTypes simp) {Γ : Ctx} {seen : Bool} {S : MState} (hS : StateG Γ seen S)
    {x : String} {e : MExpr} {ty : PTy} (hx : Γ x = some ⟨ty, false, false⟩) (he : fits Γ false ty e = true) :
    ∃ S', mAssign simp S x e = .ok S' ∧ StateG (Γ.bind x ⟨ty, false, true⟩) seen S' := by
  obtain ⟨v, p, h3, h4, h5⟩ := fits_accepts hS.table he
  have hT := hS.table x
  rw [hx] at hT
  obtain ⟨i, h6, h7, h8, _, h9⟩ := hT
  dsimp only at h7 h8 h9
  unfold mAssign
  simp only [h3, h6, h9 rfl, Option.isSome_none, Bool.false_eq_true, if_false, h7, h8, h4]
  refine ⟨_, rfl, ?_, hS.seen, hS.support⟩
  intro y
  by_cases hy : y = x
  · subst hy
    simp only [Ctx.bind, if_true]
    exact ⟨{ i with value := some (simp p) }, by rw [MTable.get_set, if_pos rfl, h6]; rfl, h7, h8, fun _ => ⟨_, rfl, hk p ty h5, fun h => by cases h⟩,
      fun h => by cases h⟩
  · simp only [Ctx.bind, if_neg hy]
    rw [MTable.get_set, if_neg hy]
    exact hS.table y

theorem mItem_accepts {simp : Pt → Pt} (hf : FoldsLits simp) (hk : KeepsTypes simp) : ∀ (i : MItem) {Γ Γ' : Ctx} {seen seen' : Bool} {S : MState},
    StateG Γ seen S → itemOk Γ seen i = some (Γ', seen') → ∃ S', mItem simp S i = .ok S' ∧ StateG Γ' seen' S'
  | .incl is, Γ, Γ', seen, seen', S, hS, h => by simp only [itemOk] at h; cases h
  | .decl var t x ann e, Γ, Γ', seen, seen', S, hS, h => by
    simp only [itemOk, Option.bind_eq_some_iff] at h
    obtain ⟨ty, ht, h⟩ := h
    split at h
    · rename_i hc
      cases h
      obtain ⟨h1, h2, h3⟩ := hc
      simp only [Bool.not_eq_true] at h1
      subst h1
      simp only [mItem]
      exact mDecl_accepts hf hk hS ht (by simpa using h2) h3
    · cases h
  | .assign x e, Γ, Γ', seen, seen', S, hS, h => by
    simp only [itemOk] at h
    split at h
    · rename_i ty hx
      split at h
      · rename_i hc
        cases h
        simp only [mItem]
        exact mAssign_accepts hk hS hx hc
      · cases h
    · cases h
  | .constr e, Γ, Γ', seen, seen', S, hS, h => by
    simp only [itemOk] at h
    split at h
    · rename_i hc
      cases h
      obtain ⟨v, hv, tv, _⟩ := mExpr_accepts hS.table e hc
      simp only [mItem, hv]
      rw [if_neg (by simp [tv.1])]
      refine ⟨_, rfl, hS.table, hS.seen, ?_⟩
      dsimp only
      rw [List.forall_mem_append]
      exact ⟨hS.support, by simpa using tv.2⟩
    · cases h
  | .query e, Γ, Γ', seen, seen', S, hS, h => by
    simp only [itemOk] at h
    split at h
    · rename_i hc
      cases h
      obtain ⟨v, hv, tv, _⟩ := mExpr_accepts hS.table e hc
      simp only [mItem, hv]
      rw [if_neg (by simp [tv.1])]
      exact ⟨_, rfl, hS.table, hS.seen, hS.support⟩
    · cases h
  | .weight e, Γ, Γ', seen, seen', S, hS, h => by
    simp only [itemOk] at h
    split at h
    · rename_i hc
      cases h
      have hw : S.weight.isSome = false := by rw [hS.seen]; simpa using hc.1
      rcases hc.2 with h | h
      · obtain ⟨v, hv, tv, _⟩ := mExpr_accepts hS.table e h
        obtain ⟨p, hp, _⟩ := pToReal_ok (by simp) tv.2
        simp only [mItem, mWeight, hv, hw, tv.1, hp]
        exact ⟨_, rfl, hS.table, rfl, hS.support⟩
      · obtain ⟨v, hv, tv, _⟩ := mExpr_accepts hS.table e h
        simp only [mItem, mWeight, hv, hw, tv.1]
        exact ⟨_, rfl, hS.table, rfl, hS.support⟩
    · cases h
  | .annotated i, Γ, Γ', seen, seen', S, hS, h => by
    simp only [itemOk] at h
    simp only [mItem]
    exact mItem_accepts hf hk i hS h
  | .other, Γ, Γ', seen, seen', S, hS, h => by simp only [itemOk] at h; cases h

theorem mItems_accepts {simp : Pt → Pt} (hf : FoldsLits simp) (hk : KeepsTypes simp) : ∀ (is : List MItem) {Γ : Ctx} {seen : Bool} {S : MState},
    StateG Γ seen S → itemsOk Γ seen is = true → ∃ S', mItems simp S is = .ok S' ∧ ∀ p ∈ S'.support, p.ty = some .bool
  | [], Γ, seen, S, hS, h => ⟨S, by simp only [mItems], hS.support⟩
  | i :: is, Γ, seen, S, hS, h => by
    simp only [itemsOk] at h
    split at h
    · cases h
    rename_i Γ' seen' hi
    obtain ⟨S1, h1, h2⟩ := mItem_accepts hf hk i hS hi
    obtain ⟨S2, h3, h4⟩ := mItems_accepts hf hk is h2 h
    exact ⟨S2, by simp only [mItems, h1, h3], h4⟩

theorem pAnd_ok {ps : List Pt} (h : ∀ p ∈ ps, p.ty = some .bool) : ∃ f, pAnd ps = .ok f := by
  match ps with
  | [] => exact ⟨_, rfl⟩
  | [p] => exact ⟨_, rfl⟩
  | a :: b :: ps => exact ⟨_, (pAnd_typed (by simp) h).1⟩

theorem init_g {A : List String} {X : List MReal} {w : Option Pt} (hX : ∀ r ∈ X, r.ty = .real) :
    StateG (givenCtx A X) w.isSome (.init A X w) := by
  refine ⟨?_, rfl, by simp [MState.init]⟩
  intro x
  simp only [MState.init, MTable.get_append]
  by_cases hA : x ∈ A
  · simp only [givenCtx, if_pos hA]
    have := get_isSome (f := fun a : String => (a, (⟨some (.sym a .bool), .bool, true⟩ : MEntry))) hA
    obtain ⟨e, he⟩ := Option.isSome_iff_exists.mp this
    dsimp only at he
    obtain ⟨b, _, hf⟩ := get_mapped he
    cases hf
    rw [he]
    exact ⟨_, rfl, rfl, rfl, fun _ => ⟨_, rfl, rfl, fun _ => rfl⟩, fun h => by cases h⟩
  · have hn : MTable.get (A.map fun a => (a, (⟨some (.sym a .bool), .bool, true⟩ : MEntry))) x = none := by
      cases hg : MTable.get (A.map fun a => (a, (⟨some (.sym a .bool), .bool, true⟩ : MEntry))) x with
      | none => rfl
      | some e =>
        obtain ⟨a, ha, hf⟩ := get_mapped hg
        cases hf
        exact absurd ha hA
    rw [hn, Option.none_or]
    simp only [givenCtx, if_neg hA]
    split
    · rename_i h
      split at h
      · cases h
      rename_i hm
      cases hg : MTable.get (X.map fun x => (x.name, (⟨some (.sym x.name x.ty), .real, true⟩ : MEntry))) x with
      | none => rfl
      | some e =>
        obtain ⟨r, hr, hf⟩ := get_mapped hg
        exact absurd (List.mem_map.mpr ⟨r, hr, (Prod.mk.inj hf).1⟩) hm
    · rename_i s h
      split at h
      · rename_i hm
        cases h
        obtain ⟨r, hr, rfl⟩ := List.mem_map.mp hm
        have := get_isSome (f := fun x : MReal => (x.name, (⟨some (.sym x.name x.ty), .real, true⟩ : MEntry))) hr
        obtain ⟨e, he⟩ := Option.isSome_iff_exists.mp this
        dsimp only at he
        obtain ⟨b, hb, hf⟩ := get_mapped he
        obtain ⟨hf1, hf2⟩ := Prod.mk.inj hf
        refine ⟨e, he, by rw [← hf2], by rw [← hf2], fun _ => ⟨_, by rw [← hf2], ?_, fun _ => ?_⟩, fun h => by cases h⟩
        · simp [Pt.ty, hX b hb]
        · rw [hf1, hX b hb]
      · cases h

/-- C72: every well-formed file is read: every name declared once, no value missing where it is used, the types right, at most one
weight, no included files. -/
theorem mzn_accepts {simp : Pt → Pt} (hf : FoldsLits simp) (hk : KeepsTypes simp) {A : List String} {X : List MReal} {w : Option Pt} {is : List MItem}
    (hX : ∀ r ∈ X, r.ty = .real) (h : itemsOk (givenCtx A X) w.isSome is = true) : ∃ R, parseMzn simp A X w is = .ok R := by
  obtain ⟨S, h1, h2⟩ := mItems_accepts hf hk is (init_g (w := w) hX) h
  obtain ⟨f, hf⟩ := pAnd_ok h2
  exact ⟨_, by simp only [parseMzn, h1, hf]; rfl⟩

/-- C72: total correctness: every well-formed file is read, and as what it means. -/
theorem mzn_correct {K : Type} [Field K] [LinearOrder K] [IsStrictOrderedRing K] {simp : Pt → Pt} (hf : FoldsLits simp) (hs : KeepsMeaning K simp)
    {A : List String} {X : List MReal} {w : Option Pt} {is : List MItem}
    (hd : ∀ a ∈ A, a ∉ X.map MReal.name) (hX : ∀ r ∈ X, r.ty = .real) (hw : ∀ p, w = some p → ∃ t, t ≠ .bool ∧ p.ty = some t)
    (h : itemsOk (givenCtx A X) w.isSome is = true) :
    ∃ R, parseMzn simp A X w is = .ok R ∧
      let M := itemsMeaning (givenMeaning (K := K) A X w) is
      (∀ σ : Env K, Pt.den σ R.support = .b true ↔ ∀ c ∈ M.cons, c σ = some (.b true)) ∧
      (∀ σ : Env K, ∃ x, prodV σ M.weights = some x ∧ Pt.den σ R.weight = .n x) ∧
      List.Forall₂ (fun p q => p.ty = some .bool ∧ ∀ σ : Env K, q σ = some (Pt.den σ p)) R.queries M.queries ∧
      R.bools = M.bools ∧ List.Forall₂ NumIs R.reals M.nums := by
  obtain ⟨R, hR⟩ := mzn_accepts (w := w) hf (fun p t hp => (hs p t hp).1) hX h
  obtain ⟨h1, h2, h3, h4, h5, _⟩ := mzn_meaning hs hd (fun r hr => by rw [hX r hr]; simp) hw hR
  exact ⟨R, hR, fun σ => (h1.2 σ).2, h2.2, h3, h4, h5⟩


/-! ### What is not read, although it has a meaning -/

/-- An item that is not read ends the reading. -/
theorem mItem_bad {simp : Pt → Pt} {S : MState} {e : MExpr} (h : ∀ v, mExpr S.table e ≠ .ok v) :
    (∀ S', mItem simp S (.constr e) ≠ .ok S') ∧ (∀ S', mItem simp S (.query e) ≠ .ok S') ∧ (∀ S', mItem simp S (.weight e) ≠ .ok S') := by
  cases he : mExpr S.table e with
  | ok v => exact absurd he (h v)
  | error err =>
    refine ⟨fun S' hS => ?_, fun S' hS => ?_, fun S' hS => ?_⟩
    · simp only [mItem, he] at hS; cases hS
    · simp only [mItem, he] at hS; cases hS
    · simp only [mItem, mWeight, he] at hS; cases hS

/-- C72: only well-typed expressions are read: a constraint, query or weight that has no type is an error. -/
theorem mzn_types {simp : Pt → Pt} {Γ : Ctx} {seen : Bool} {S : MState} (hS : StateG Γ seen S) {e : MExpr} (h : mSort false Γ e = none) :
    (∀ S', mItem simp S (.constr e) ≠ .ok S') ∧ (∀ S', mItem simp S (.query e) ≠ .ok S') ∧ (∀ S', mItem simp S (.weight e) ≠ .ok S') := by
  refine mItem_bad fun v hv => ?_
  obtain ⟨t, ht, _⟩ := mExpr_types hS.table e hv
  rw [h] at ht
  cases ht

/-- C72 does not hold for all files that have a meaning: an equation between numbers, with `=` or `==`, is never read. -/
theorem mzn_no_equations {T : MTable} {Γ : Ctx} (hT : TableG Γ T) {l r : MExpr} {a b : PTy} (hl : mSort false Γ l = some a) (ha : a ≠ .bool)
    (hr : mSort false Γ r = some b) (hb : b ≠ .bool) (v : MVal) : mExpr T (.bin .eq l r) ≠ .ok v ∧ mExpr T (.bin .eqeq l r) ≠ .ok v := by
  constructor
  all_goals
    intro h
    obtain ⟨t, ht, _⟩ := mExpr_types hT _ h
    simp only [mSort, hl, hr, Option.bind_some] at ht
    cases a <;> cases b <;> simp [unify, joinSort, zSort] at ht ha hb

/-- C72 does not hold for all files that have a meaning: Booleans are never compared with `!=`. -/
theorem mzn_no_inequality {T : MTable} {Γ : Ctx} (hT : TableG Γ T) {l r : MExpr} (hl : mSort false Γ l = some .bool)
    (v : MVal) : mExpr T (.bin .nq l r) ≠ .ok v := by
  intro h
  obtain ⟨t, ht, _⟩ := mExpr_types hT _ h
  simp only [mSort, hl, Option.bind_some, Option.bind_eq_some_iff] at ht
  obtain ⟨b, _, u, hu, h⟩ := ht
  cases b <;> simp [unify, joinSort] at hu
  subst hu
  simp [zSort] at h

/-- C72 does not hold for all files that have a meaning: a decision variable is never assigned a value after its declaration. -/
theorem mzn_no_late_value {simp : Pt → Pt} {Γ : Ctx} {seen : Bool} {S : MState} (hS : StateG Γ seen S) {x : String} {s : Slot}
    (hx : Γ x = some s) (hv : s.has = true) (e : MExpr) (S' : MState) : mItem simp S (.assign x e) ≠ .ok S' := by
  intro h
  simp only [mItem, mAssign] at h
  split at h
  · cases h
  have hT := hS.table x
  rw [hx] at hT
  obtain ⟨i, h6, _, _, h7, _⟩ := hT
  obtain ⟨p, h8, _⟩ := h7 hv
  rw [h6] at h
  simp only [h8, Option.isSome_some, if_true] at h
  cases h

/-- The simplifier of the examples. -/
def foldLits : Pt → Pt
  | .times [.intC z, .intC (-1)] => .intC (-z)
  | .times [.realC q, .realC r] => .realC (q * r)
  | p => p

theorem foldLits_lits : FoldsLits foldLits := ⟨fun _ => rfl, fun _ => rfl, fun _ => rfl, fun q => by simp [foldLits]⟩

theorem foldLits_keeps : KeepsMeaning ℚ foldLits := by
  intro p t h
  unfold foldLits
  split
  · simp only [Pt.ty, Pt.tyAll] at h ⊢
    refine ⟨by simpa using h, fun σ => by simp [Pt.den, Pt.dens, PVal.toN]⟩
  · simp only [Pt.ty, Pt.tyAll] at h ⊢
    refine ⟨by simpa using h, fun σ => by simp [Pt.den, Pt.dens, PVal.toN]⟩
  · exact ⟨h, fun σ => rfl⟩

/-- `float: k; var -1..10: i; var bool: a; var float: x = 2 * i; k = 3; constraint a -> x <= k; query not a; weight: if a then x * x else 1 endif` -/
def exampleMzn : List MItem :=
  [.decl false .float "k" false none,
   .decl true (.range (.neg (.intL 1)) (.intL 10)) "i" false none,
   .decl true .bool "a" false none,
   .decl true .float "x" false (some (.bin .mult (.intL 2) (.ident "i"))),
   .assign "k" (.intL 3),
   .constr (.bin .impl (.ident "a") (.bin .le (.ident "x") (.ident "k"))),
   .query (.not (.ident "a")),
   .weight (.ite (.last (.ident "a") (.bin .mult (.ident "x") (.ident "x")) (.intL 1)))]

theorem exampleMzn_ok : itemsOk (givenCtx ["b"] [⟨"y", .real, none⟩]) false exampleMzn = true := by decide +kernel

example : ∃ R, parseMzn foldLits ["b"] [⟨"y", .real, none⟩] none exampleMzn = .ok R ∧ R.bools = ["b", "a"] ∧
    R.reals.map (fun r => (r.name, r.bounds)) = [("y", none), ("i", some (-1, 10)), ("x", none)] ∧ R.queries.length = 1 :=
  ⟨_, rfl, rfl, rfl, rfl⟩

example := mzn_correct (K := ℚ) (A := ["b"]) (X := [⟨"y", .real, none⟩]) (w := none) foldLits_lits foldLits_keeps (by decide) (by decide)
  (fun p hp => by cases hp) exampleMzn_ok

/-- The example means: the equation `x = 2 * i` and the implication. -/
example (σ : Env ℚ) : ((itemsMeaning (givenMeaning (K := ℚ) ["b"] [⟨"y", .real, none⟩] none) exampleMzn).cons.map fun c => c σ) =
    [some (.b (decide (σ.r "x" = 2 * σ.r "i"))), some (.b (!σ.b "a" || decide (σ.r "x" ≤ 3)))] := by
  simp [exampleMzn, itemsMeaning, itemMeaning, declMeaning, givenMeaning, mVal, mznOp, Names.bind, varVal, MType.isBool]

/-- Numbers are not compared with `=`: `var float: x; constraint x = 3.0` is an error. -/
example : ∀ v, mExpr [("x", ⟨some (.sym "x" .real), .real, true⟩)] (.bin .eq (.ident "x") (.floatL 3)) ≠ .ok v := by
  intro v h
  cases h

/-! ### Findings about included files -/

/-- C71 says nothing of files that are not read.  A parameter that is declared before an include is forgotten: whatever the included file
contains, the parameter is afterwards unknown, unless that file declares it again. -/
theorem mzn_include_forgets {simp : Pt → Pt} {S S' : MState} (x : String) (hb : x ∉ S.bools) (hr : x ∉ S.reals.map MReal.name)
    (h : mItem simp S (.incl []) = .ok S') : S'.table.get x = none ∧ ∀ v, mExpr S'.table (.ident x) ≠ .ok v := by
  have hg : S'.table.get x = none := by
    simp only [mItem, mItems, mAfter, MState.init, pAnd] at h
    cases h
    dsimp only
    rw [MTable.get_append]
    cases h1 : MTable.get (S.bools.map fun a => (a, (⟨some (.sym a .bool), .bool, true⟩ : MEntry))) x with
    | some e =>
      obtain ⟨a, ha, hf⟩ := get_mapped h1
      cases hf
      exact absurd ha hb
    | none =>
      rw [Option.none_or]
      cases h2 : MTable.get (S.reals.map fun x => (x.name, (⟨some (.sym x.name x.ty), .real, true⟩ : MEntry))) x with
      | none => rfl
      | some e =>
        obtain ⟨r, hr', hf⟩ := get_mapped h2
        exact absurd (List.mem_map.mpr ⟨r, hr', (Prod.mk.inj hf).1⟩) hr
  exact ⟨hg, fun v hv => by simp only [mExpr, hg] at hv; cases hv⟩

/-- `float: k = 3; var float: x; constraint x <= k` is read; with `include "empty.mzn"` before the constraint it is not. -/
theorem mzn_include_breaks : (∃ R, parseMzn foldLits [] [] none
      [.decl false .float "k" false (some (.intL 3)), .decl true .float "x" false none, .constr (.bin .le (.ident "x") (.ident "k"))] = .ok R) ∧
    parseMzn foldLits [] [] none
      [.decl false .float "k" false (some (.intL 3)), .decl true .float "x" false none, .incl [], .constr (.bin .le (.ident "x") (.ident "k"))] =
      .error .parseError := ⟨⟨_, rfl⟩, rfl⟩

/-- After an include, an integer variable counts as a real one, so that adding a real to it is a type error of pysmt. -/
theorem mzn_include_integers : (∃ R, parseMzn foldLits [] [] none
      [.decl true .int "i" false none, .constr (.bin .le (.bin .plus (.ident "i") (.floatL (5/2))) (.intL 9))] = .ok R) ∧
    parseMzn foldLits [] [] none
      [.decl true .int "i" false none, .incl [], .constr (.bin .le (.bin .plus (.ident "i") (.floatL (5/2))) (.intL 9))] = .error .other :=
  ⟨⟨_, rfl⟩, rfl⟩

/-- A second weight is an error, unless the first one is the number one in an included file. -/
theorem mzn_include_weight : parseMzn foldLits [] [] none [.weight (.floatL 1), .weight (.floatL 2)] = .error .parseError ∧
    ∃ R, parseMzn foldLits [] [] none [.incl [.weight (.floatL 1)], .weight (.floatL 2)] = .ok R ∧ R.weight = .realC 2 :=
  ⟨rfl, _, rfl, rfl⟩

/-- A plus sign in front of a Boolean is read. -/
theorem mzn_plus_bool (T : MTable) (b : Bool) : ∃ v, mExpr T (.pos (.boolL b)) = .ok v ∧ v.ty = .bool := ⟨_, rfl, rfl⟩

end Pywmi
