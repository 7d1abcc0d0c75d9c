import Verif.Parse.Smtlib

set_option linter.unusedSectionVars false
set_option linter.unusedSimpArgs false

/-!
# C69: reading SMT-LIB files
-/

namespace Pywmi

/-! ### Specification: the meaning of terms and scripts -/

section
variable {K : Type} [Field K] [LinearOrder K] [IsStrictOrderedRing K]

/-- SPEC: the numbers of a list of values, if all are numbers. -/
def numsOf : List (PVal K) → Option (List K)
  | [] => some []
  | .n x :: vs => (numsOf vs).map (x :: ·)
  | .b _ :: _ => none

/-- SPEC: the truth values of a list of values, if all are truth values. -/
def boolsOf : List (PVal K) → Option (List Bool)
  | [] => some []
  | .b x :: vs => (boolsOf vs).map (x :: ·)
  | .n _ :: _ => none

/-- SPEC: a relation between two numbers. -/
def cmpOf (R : K → K → Bool) : List (PVal K) → Option (PVal K)
  | [.n a, .n b] => some (.b (R a b))
  | _ => none

/-- SPEC: the meaning of the SMT-LIB operators of the theories Core and Reals_Ints. -/
def smtOp (op : String) (vs : List (PVal K)) : Option (PVal K) :=
  if op = "=" then match vs with
    | [.n a, .n b] => some (.b (decide (a = b)))
    | [.b a, .b b] => some (.b (a == b))
    | _ => none
  else if op = ">" then cmpOf (fun a b => decide (a > b)) vs
  else if op = ">=" then cmpOf (fun a b => decide (a ≥ b)) vs
  else if op = "<" then cmpOf (fun a b => decide (a < b)) vs
  else if op = "<=" then cmpOf (fun a b => decide (a ≤ b)) vs
  else if op = "=>" then match vs with
    | [.b a, .b b] => some (.b (!a || b))
    | _ => none
  else if op = "+" then (numsOf vs).map fun xs => .n xs.sum
  else if op = "*" then (numsOf vs).map fun xs => .n xs.prod
  else if op = "-" then match vs with
    | [.n a] => some (.n (-a))
    | [.n a, .n b] => some (.n (a - b))
    | _ => none
  else if op = "/" then match vs with
    | [.n a, .n b] => some (.n (a / b))
    | _ => none
  else if op = "and" then (boolsOf vs).map fun xs => .b (xs.all id)
  else if op = "or" then (boolsOf vs).map fun xs => .b (xs.any id)
  else if op = "not" then match vs with
    | [.b a] => some (.b !a)
    | _ => none
  else if op = "ite" then match vs with
    | [.b c, x, y] => if x.isB = y.isB then some (if c then x else y) else none
    | _ => none
  else none

/-- SPEC: the text of a symbol. -/
def SSym.text : SSym → String
  | .name s => s
  | .predef s => s
  | .quoted s => s

/-- SPEC: the value of a variable that is Boolean or not. -/
def varVal (k : Bool) (x : String) (σ : Env K) : PVal K := if k then .b (σ.b x) else .n (σ.r x)

mutual
/-- SPEC: the value of a term; `kind` says which names are declared, and whether as Booleans. -/
def sVal (kind : String → Option Bool) (σ : Env K) : STerm → Option (PVal K)
  | .numeral n => some (.n n)
  | .decimal q => some (.n (q : K))
  | .hex n => some (.n n)
  | .bin n => some (.n n)
  | .ident (.predef "true") => some (.b true)
  | .ident (.predef "false") => some (.b false)
  | .ident s => (kind s.text).map fun k => varVal k s.text σ
  | .app s ts => (sVals kind σ ts).bind (smtOp s.text)
  | _ => none
/-- SPEC: the values of a list of terms. -/
def sVals (kind : String → Option Bool) (σ : Env K) : List STerm → Option (List (PVal K))
  | [] => some []
  | t :: ts => (sVal kind σ t).bind fun v => (sVals kind σ ts).map (v :: ·)
end
end

mutual
/-- SPEC: the operators that SMT-LIB gives at least two arguments have them. -/
def arityS : STerm → Bool
  | .app s ts => (s.text ∉ ["+", "*", "and", "or"] || decide (2 ≤ ts.length)) && arityAll ts
  | _ => true
/-- SPEC: the same for all terms of a list. -/
def arityAll : List STerm → Bool
  | [] => true
  | t :: ts => arityS t && arityAll ts
end

/-- SPEC: the name and the sort that a command declares. -/
def SCmd.decl : SCmd → Option (String × String)
  | .declareConst s (.ident t) => some (s.text, t.text)
  | .declareFun s [] (.ident t) => some (s.text, t.text)
  | _ => none

/-- SPEC: the declarations of a script. -/
def decls (cs : List SCmd) : List (String × String) := cs.filterMap SCmd.decl

/-- SPEC: the asserted terms. -/
def asserts (cs : List SCmd) : List STerm := cs.filterMap fun c => match c with | .assert t => some t | _ => none
/-- SPEC: the terms given as weight. -/
def weights (cs : List SCmd) : List STerm := cs.filterMap fun c => match c with | .weight t => some t | _ => none
/-- SPEC: the queries. -/
def queriesOf (cs : List SCmd) : List STerm := cs.filterMap fun c => match c with | .query t => some t | _ => none
/-- SPEC: the term of a command. -/
def SCmd.term : SCmd → Option STerm
  | .assert t => some t
  | .weight t => some t
  | .query t => some t
  | _ => none

/-- SPEC: which names are declared, by the caller (`A` Boolean, `X` real) or by the script, and whether as Booleans. -/
def declKind (A X : List String) (cs : List SCmd) (x : String) : Option Bool :=
  if x ∈ A then some true
  else if x ∈ X then some false
  else ((decls cs).find? fun p => p.1 = x).map fun p => p.2 = "Bool"

/-! ### The table -/

section
variable {K : Type} [Field K] [LinearOrder K] [IsStrictOrderedRing K]

/-- An entry stands for a value; an integer entry may hold a real term, because `weight` writes the value and not the type. -/
def EntryOk (e : SEntry) (v : Env K → PVal K) : Prop := ∃ t, Stands e.value t v ∧ (t = e.ty ∨ (e.ty = .int ∧ t = .real))

theorem EntryOk.notBool {e : SEntry} {v : Env K → PVal K} (h : EntryOk e v) (hb : e.ty ≠ .bool) (σ : Env K) : (v σ).isB = false := by
  obtain ⟨t, h1, rfl | ⟨_, rfl⟩⟩ := h
  · simpa [hb] using h1.kind σ
  · simpa using h1.kind σ

theorem EntryOk.isBool {e : SEntry} {v : Env K → PVal K} (h : EntryOk e v) (hb : e.ty = .bool) : Stands e.value .bool v := by
  obtain ⟨t, h1, rfl | ⟨h2, rfl⟩⟩ := h
  · rwa [hb] at h1
  · rw [hb] at h2; cases h2

variable (K) in
/-- The table knows only declared names, and its entries stand for the variables. -/
def STableOk (kind : String → Option Bool) (T : STable) : Prop :=
  ∀ x e, T.get x = some e → ∃ k, kind x = some k ∧ EntryOk (K := K) e (varVal k x)

/-- A result stands for a value. -/
def SResOk (kind : String → Option Bool) (T : STable) (v : Env K → PVal K) : SRes → Prop
  | .var x => (T.get x).isSome ∧ ∃ k, kind x = some k ∧ v = varVal k x
  | .own e => EntryOk e v
  | .symb _ => False

/-- Two tables with the same names. -/
def SameKeys (T T' : STable) : Prop := ∀ x, (T'.get x).isSome = (T.get x).isSome

theorem SameKeys.refl (T : STable) : SameKeys T T := fun _ => rfl
theorem SameKeys.trans {T T' T'' : STable} (h : SameKeys T T') (h' : SameKeys T' T'') : SameKeys T T'' :=
  fun x => (h' x).trans (h x)

theorem SResOk.mono {kind : String → Option Bool} {T T' : STable} {v : Env K → PVal K} {r : SRes} (h : SResOk kind T v r)
    (hk : SameKeys T T') : SResOk kind T' v r := by
  cases r with
  | var x => exact ⟨by rw [hk x]; exact h.1, h.2⟩
  | own e => exact h
  | symb s => exact h

theorem SResOk.get {kind : String → Option Bool} {T : STable} {v : Env K → PVal K} {r : SRes} (hT : STableOk K kind T)
    (h : SResOk kind T v r) : ∃ e, r.get T = .ok e ∧ EntryOk e v := by
  cases r with
  | var x =>
    obtain ⟨h1, k, hk, rfl⟩ := h
    obtain ⟨e, he⟩ := Option.isSome_iff_exists.mp h1
    obtain ⟨k', hk', h2⟩ := hT x e he
    rw [hk] at hk'; cases hk'
    exact ⟨e, by simp [SRes.get, he], h2⟩
  | own e => exact ⟨e, rfl, h⟩
  | symb s => exact h.elim

theorem get_put (T : STable) (x y : String) (e : SEntry) :
    (T.put x e).get y = if y = x ∧ (T.get x).isSome then some e else T.get y := by
  unfold STable.get STable.put
  induction T with
  | nil => simp
  | cons p T ih =>
    rw [List.map_cons, List.find?_cons, List.find?_cons, List.find?_cons]
    by_cases hp : p.1 = x
    · by_cases hy : y = x
      · simp [hp, hy]
      · have : ¬ x = y := fun h => hy h.symm
        simp only [hp, hy, this, if_true, decide_false, if_false, false_and] at ih ⊢
        exact ih
    · by_cases hy : p.1 = y
      · have : y ≠ x := hy ▸ hp
        simp [hp, hy, this]
      · simp only [hp, hy, if_false, decide_false]
        exact ih

theorem put_ok {kind : String → Option Bool} {T : STable} {v : Env K → PVal K} {r : SRes} {e : SEntry} (hT : STableOk K kind T)
    (h : SResOk kind T v r) (he : EntryOk e v) :
    STableOk K kind (r.put T e).1 ∧ SameKeys T (r.put T e).1 ∧ SResOk kind (r.put T e).1 v (r.put T e).2 := by
  cases r with
  | var x =>
    have hs : SameKeys T (T.put x e) := by
      intro y
      rw [get_put]
      split
      · rename_i hy; rw [hy.1, hy.2]; rfl
      · rfl
    refine ⟨fun y e' hy => ?_, hs, SResOk.mono (r := .var x) h hs⟩
    simp only [SRes.put] at hy
    rw [get_put] at hy
    split at hy
    · rename_i hy'
      cases hy
      obtain ⟨_, k, hk, rfl⟩ := h
      exact ⟨k, hy'.1 ▸ hk, hy'.1 ▸ he⟩
    · exact hT y e' hy
  | own e' => exact ⟨hT, .refl T, he⟩
  | symb s => exact h.elim

/-- `_cast` keeps the meanings. -/
theorem castS_ok {kind : String → Option Bool} {T T' : STable} {va vb : Env K → PVal K} {a b a' b' : SRes} (hT : STableOk K kind T)
    (ha : SResOk kind T va a) (hb : SResOk kind T vb b) (h : castS T a b = .ok (some (T', a', b'))) :
    STableOk K kind T' ∧ SameKeys T T' ∧ SResOk kind T' va a' ∧ SResOk kind T' vb b' := by
  obtain ⟨ea, h1, oa⟩ := ha.get hT
  obtain ⟨eb, h2, ob⟩ := hb.get hT
  unfold castS at h
  simp only [h1, h2] at h
  split at h
  · cases h; exact ⟨hT, .refl T, ha, hb⟩
  · split at h
    · split at h
      · cases h
      · rename_i va' hva
        split at h
        · cases h
        · rename_i vb' hvb
          obtain ⟨ta, sa, _⟩ := oa
          obtain ⟨tb, sb, _⟩ := ob
          have oa' : EntryOk (K := K) ⟨va', .real⟩ va := ⟨.real, (pToReal_stands sa hva).2, .inl rfl⟩
          have ob' : EntryOk (K := K) ⟨vb', .real⟩ vb := ⟨.real, (pToReal_stands sb hvb).2, .inl rfl⟩
          obtain ⟨i1, i2, i3⟩ := put_ok hT ha oa'
          obtain ⟨j1, j2, j3⟩ := put_ok i1 (hb.mono i2) ob'
          cases h
          exact ⟨j1, i2.trans j2, i3.mono j2, j3⟩
    · cases h

/-! ### Operators -/

theorem tyAll_eq {t : PTy} {es : List SEntry} : Pt.tyAll t (es.map SEntry.value) = true ↔ ∀ e ∈ es, e.value.ty = some t := by
  rw [Pt.tyAll_iff]; simp

theorem entries_nums {es : List SEntry} {vs : List (Env K → PVal K)} (h : List.Forall₂ EntryOk es vs) {t : PTy} (ht : t ≠ .bool)
    (hty : ∀ e ∈ es, e.value.ty = some t) (σ : Env K) :
    numsOf (vs.map fun v => v σ) = some ((es.map SEntry.value).map fun p => (p.den σ).toN) := by
  induction h with
  | nil => rfl
  | @cons e v es vs h _ ih =>
    obtain ⟨t', hs, _⟩ := h
    have : t' = t := by have := hs.ty; rw [hty e (by simp)] at this; cases this; rfl
    subst this
    have hv := hs.toNum ht σ
    rw [List.map_cons, hv, numsOf, ih fun e he => hty e (by simp [he])]
    simp [hs.den]

theorem entries_bools {es : List SEntry} {vs : List (Env K → PVal K)} (h : List.Forall₂ EntryOk es vs)
    (hty : ∀ e ∈ es, e.value.ty = some .bool) (σ : Env K) :
    boolsOf (vs.map fun v => v σ) = some ((es.map SEntry.value).map fun p => (p.den σ).toB) := by
  induction h with
  | nil => rfl
  | @cons e v es vs h _ ih =>
    obtain ⟨t', hs, _⟩ := h
    have : t' = .bool := by have := hs.ty; rw [hty e (by simp)] at this; cases this; rfl
    subst this
    have hv := hs.toBool σ
    rw [List.map_cons, hv, boolsOf, ih fun e he => hty e (by simp [he])]
    simp [hs.den]

/-- What an operator has to deliver. -/
def Delivers (kind : String → Option Bool) (T T' : STable) (op : String) (vs : List (Env K → PVal K)) (r : SRes) : Prop :=
  STableOk K kind T' ∧ SameKeys T T' ∧ ∃ v, SResOk kind T' v r ∧ ∀ σ, smtOp op (vs.map fun v => v σ) = some (v σ)

theorem ownRes_ok {T T' : STable} {ty : PTy} {x : Except PyErr Pt} {r : SRes} (h : ownRes T ty x = .ok (r, T')) :
    ∃ p, x = .ok p ∧ r = .own ⟨p, ty⟩ ∧ T' = T := by
  unfold ownRes at h
  split at h
  · cases h; exact ⟨_, rfl, rfl, rfl⟩
  · cases h

theorem delivers_own {kind : String → Option Bool} {T T' : STable} {op : String} {vs : List (Env K → PVal K)} {r : SRes} {ty : PTy}
    {x : Except PyErr Pt} (hT : STableOk K kind T) (h : ownRes T ty x = .ok (r, T'))
    (hx : ∀ p, x = .ok p → ∃ v, EntryOk ⟨p, ty⟩ v ∧ ∀ σ : Env K, smtOp op (vs.map fun v => v σ) = some (v σ)) :
    Delivers kind T T' op vs r := by
  obtain ⟨p, h1, rfl, rfl⟩ := ownRes_ok h
  obtain ⟨v, h2, h3⟩ := hx p h1
  exact ⟨hT, .refl _, v, h2, h3⟩

theorem stands_ty {p : Pt} {t t' : PTy} {v : Env K → PVal K} (h : Stands p t v) (h' : p.ty = some t') : t = t' := by
  have := h.ty; rw [h'] at this; cases this; rfl

/-- The two sides of an arithmetic relation are numbers. -/
theorem rel_nums {l r : Pt} {tl tr : PTy} {vl vr : Env K → PVal K} (hl : Stands l tl vl) (hr : Stands r tr vr)
    (h : (l.ty = some .int ∧ r.ty = some .int) ∨ (l.ty = some .real ∧ r.ty = some .real)) :
    tl = tr ∧ ∀ σ, vl σ = .n (l.den σ).toN ∧ vr σ = .n (r.den σ).toN := by
  have h1 : tl ≠ .bool ∧ tl = tr := by
    rcases h with ⟨a, b⟩ | ⟨a, b⟩ <;> rw [stands_ty hl a, stands_ty hr b] <;> simp
  refine ⟨h1.2, fun σ => ?_⟩
  rw [hl.den, hr.den]
  exact ⟨hl.toNum h1.1 σ, hr.toNum (h1.2 ▸ h1.1) σ⟩

theorem isSome_ite {α : Type} {c : Prop} [Decidable c] {a : α} (h : (if c then some a else none).isSome = true) : c := by
  by_contra hc; simp [hc] at h

theorem applyS_ok {kind : String → Option Bool} {T T' : STable} {op : String} {rs : List SRes} {es : List SEntry}
    {vs : List (Env K → PVal K)} {r : SRes} (hT : STableOk K kind T) (hr : List.Forall₂ (fun r v => SResOk kind T v r) rs vs)
    (he : List.Forall₂ EntryOk es vs) (har : op ∈ ["+", "*", "and", "or"] → 2 ≤ es.length)
    (h : applyS T op rs es = .ok (r, T')) : Delivers kind T T' op vs r := by
  have two : ∀ {a b : SEntry}, es = [a, b] → ∃ u w, vs = [u, w] ∧ EntryOk a u ∧ EntryOk b w := by
    rintro a b rfl
    cases he with | cons h1 h' => cases h' with | cons h2 h'' => cases h''; exact ⟨_, _, rfl, h1, h2⟩
  have one : ∀ {a : SEntry}, es = [a] → ∃ u, vs = [u] ∧ EntryOk a u := by
    rintro a rfl
    cases he with | cons h1 h' => cases h'; exact ⟨_, rfl, h1⟩
  have rel : ∀ (a b : SEntry) (u w : Env K → PVal K) (N : Pt → Pt → Pt) (R : K → K → Bool),
      EntryOk a u → EntryOk b w →
      (∀ l r : Pt, (N l r).ty = if (l.ty = some .int ∧ r.ty = some .int) ∨ (l.ty = some .real ∧ r.ty = some .real) then some .bool else none) →
      (∀ (l r : Pt) (σ : Env K), (N l r).den σ = .b (R (l.den σ).toN (r.den σ).toN)) →
      ∀ p, pNode (N a.value b.value) = .ok p → ∃ v : Env K → PVal K, EntryOk ⟨p, .bool⟩ v ∧
        (∀ σ, ∃ x y, u σ = .n x ∧ w σ = .n y ∧ v σ = .b (R x y)) := by
    intro a b u w N R ha hb hty hden p hp
    obtain ⟨rfl, hs⟩ := pNode_ok hp
    obtain ⟨ta, sa, _⟩ := ha
    obtain ⟨tb, sb, _⟩ := hb
    rw [hty] at hs
    have hc := isSome_ite hs
    have hn := (rel_nums sa sb hc).2
    refine ⟨fun σ => (N a.value b.value).den σ, ⟨.bool, ⟨by rw [hty, if_pos hc], fun σ => rfl, fun σ => by simp [hden, PVal.isB]⟩, .inl rfl⟩,
      fun σ => ⟨_, _, (hn σ).1, (hn σ).2, hden _ _ σ⟩⟩
  unfold applyS at h
  by_cases hop : op = "="
  · rw [if_pos hop] at h; subst hop
    split at h
    · rename_i a b
      obtain ⟨u, w, rfl, ha, hb⟩ := two rfl
      refine delivers_own hT h fun p hp => ?_
      unfold pEqualsOrIff at hp
      split at hp
      · obtain ⟨rfl, hs⟩ := pNode_ok hp
        have hc := isSome_ite (by simpa only [Pt.ty] using hs)
        obtain ⟨ta, sa, _⟩ := ha
        obtain ⟨tb, sb, _⟩ := hb
        obtain rfl := stands_ty sa hc.1
        obtain rfl := stands_ty sb hc.2
        refine ⟨fun σ => .b ((u σ).toB == (w σ).toB),
          ⟨.bool, ⟨by simp only [Pt.ty]; rw [if_pos hc], fun σ => ?_, fun σ => rfl⟩, .inl rfl⟩, fun σ => ?_⟩
        · simp only [Pt.den, sa.den, sb.den]
        · simp only [List.map_cons, List.map_nil]
          rw [sa.toBool σ, sb.toBool σ]
          simp [smtOp, PVal.toB]
      · obtain ⟨v, hv, hR⟩ := rel a b u w Pt.equals (fun x y => decide (x = y)) ha hb (fun _ _ => by simp only [Pt.ty]) (fun _ _ _ => by simp only [Pt.den]) p hp
        refine ⟨v, hv, fun σ => ?_⟩
        obtain ⟨x, y, e1, e2, e3⟩ := hR σ
        simp [smtOp, e1, e2, e3]
    · cases h
  rw [if_neg hop] at h; clear hop
  by_cases hop : op = ">"
  · rw [if_pos hop] at h; subst hop
    split at h
    · rename_i a b
      obtain ⟨u, w, rfl, ha, hb⟩ := two rfl
      refine delivers_own hT h fun p hp => ?_
      obtain ⟨v, hv, hR⟩ := rel b a w u Pt.lt (fun x y => decide (x < y)) hb ha (fun _ _ => by simp only [Pt.ty]) (fun _ _ _ => by simp only [Pt.den]) p hp
      refine ⟨v, hv, fun σ => ?_⟩
      obtain ⟨x, y, e1, e2, e3⟩ := hR σ
      simp [smtOp, cmpOf, e1, e2, e3]
    · cases h
  rw [if_neg hop] at h; clear hop
  by_cases hop : op = ">="
  · rw [if_pos hop] at h; subst hop
    split at h
    · rename_i a b
      obtain ⟨u, w, rfl, ha, hb⟩ := two rfl
      refine delivers_own hT h fun p hp => ?_
      obtain ⟨v, hv, hR⟩ := rel b a w u Pt.le (fun x y => decide (x ≤ y)) hb ha (fun _ _ => by simp only [Pt.ty]) (fun _ _ _ => by simp only [Pt.den]) p hp
      refine ⟨v, hv, fun σ => ?_⟩
      obtain ⟨x, y, e1, e2, e3⟩ := hR σ
      simp [smtOp, cmpOf, e1, e2, e3]
    · cases h
  rw [if_neg hop] at h; clear hop
  by_cases hop : op = "<"
  · rw [if_pos hop] at h; subst hop
    split at h
    · rename_i a b
      obtain ⟨u, w, rfl, ha, hb⟩ := two rfl
      refine delivers_own hT h fun p hp => ?_
      obtain ⟨v, hv, hR⟩ := rel a b u w Pt.lt (fun x y => decide (x < y)) ha hb (fun _ _ => by simp only [Pt.ty]) (fun _ _ _ => by simp only [Pt.den]) p hp
      refine ⟨v, hv, fun σ => ?_⟩
      obtain ⟨x, y, e1, e2, e3⟩ := hR σ
      simp [smtOp, cmpOf, e1, e2, e3]
    · cases h
  rw [if_neg hop] at h; clear hop
  by_cases hop : op = "<="
  · rw [if_pos hop] at h; subst hop
    split at h
    · rename_i a b
      obtain ⟨u, w, rfl, ha, hb⟩ := two rfl
      refine delivers_own hT h fun p hp => ?_
      obtain ⟨v, hv, hR⟩ := rel a b u w Pt.le (fun x y => decide (x ≤ y)) ha hb (fun _ _ => by simp only [Pt.ty]) (fun _ _ _ => by simp only [Pt.den]) p hp
      refine ⟨v, hv, fun σ => ?_⟩
      obtain ⟨x, y, e1, e2, e3⟩ := hR σ
      simp [smtOp, cmpOf, e1, e2, e3]
    · cases h
  rw [if_neg hop] at h; clear hop
  by_cases hop : op = "=>"
  · rw [if_pos hop] at h; subst hop
    split at h
    · rename_i a b
      obtain ⟨u, w, rfl, ha, hb⟩ := two rfl
      refine delivers_own hT h fun p hp => ?_
      obtain ⟨rfl, hs⟩ := pNode_ok hp
      have hc := isSome_ite (by simpa only [Pt.ty] using hs)
      obtain ⟨ta, sa, _⟩ := ha
      obtain ⟨tb, sb, _⟩ := hb
      obtain rfl := stands_ty sa hc.1
      obtain rfl := stands_ty sb hc.2
      refine ⟨fun σ => .b (!(u σ).toB || (w σ).toB),
        ⟨.bool, ⟨by simp only [Pt.ty]; rw [if_pos hc], fun σ => ?_, fun σ => rfl⟩, .inl rfl⟩, fun σ => ?_⟩
      · simp only [Pt.den, sa.den, sb.den]
      · simp only [List.map_cons, List.map_nil]
        rw [sa.toBool σ, sb.toBool σ]
        simp [smtOp, PVal.toB]
    · cases h
  -- the type of a sum or product is the type of its parts
  have nary : ∀ (a : SEntry) (as : List SEntry) (N : List Pt → Pt), es = a :: as →
      (∀ ps : List Pt, (N ps).ty = if Pt.tyAll .int ps then some .int else if Pt.tyAll .real ps then some .real else none) →
      (N (es.map SEntry.value)).ty.isSome → ∃ t, t ≠ .bool ∧ (∀ e ∈ es, e.value.ty = some t) ∧ (N (es.map SEntry.value)).ty = some t ∧
        (t = a.ty ∨ (a.ty = .int ∧ t = .real)) := by
    intro a as N hes hty hs
    rw [hty] at hs ⊢
    have : ∃ t, t ≠ PTy.bool ∧ (∀ e ∈ es, e.value.ty = some t) ∧
        (if Pt.tyAll .int (es.map SEntry.value) = true then some PTy.int
          else if Pt.tyAll .real (es.map SEntry.value) = true then some PTy.real else none) = some t := by
      by_cases h1 : Pt.tyAll .int (es.map SEntry.value) = true
      · exact ⟨.int, by simp, tyAll_eq.mp h1, by rw [if_pos h1]⟩
      · by_cases h2 : Pt.tyAll .real (es.map SEntry.value) = true
        · exact ⟨.real, by simp, tyAll_eq.mp h2, by rw [if_neg h1, if_pos h2]⟩
        · rw [if_neg h1, if_neg h2] at hs; cases hs
    obtain ⟨t, h1, h2, h3⟩ := this
    refine ⟨t, h1, h2, h3, ?_⟩
    subst hes
    cases he with
    | cons ha _ =>
      obtain ⟨ta, sa, hfit⟩ := ha
      obtain rfl := stands_ty sa (h2 a (by simp))
      exact hfit
  rw [if_neg hop] at h; clear hop
  by_cases hop : op = "+"
  · rw [if_pos hop] at h; subst hop
    have har2 := har (by simp)
    split at h
    · rename_i a as
      refine delivers_own hT h fun p hp => ?_
      obtain ⟨b, bs, rfl⟩ : ∃ b bs, as = b :: bs := by cases as with
        | nil => simp at har2
        | cons b bs => exact ⟨b, bs, rfl⟩
      obtain ⟨rfl, hs⟩ := pNode_ok (p := .plus (((a :: b :: bs)).map SEntry.value)) hp
      obtain ⟨t, h1, h2, h3, h4⟩ := nary a (b :: bs) .plus rfl (fun ps => by simp only [Pt.ty]) hs
      refine ⟨fun σ => .n (((a :: b :: bs).map SEntry.value).map fun p => (p.den σ).toN).sum,
        ⟨t, ⟨h3, fun σ => ?_, fun σ => by simp [PVal.isB, h1]⟩, h4⟩, fun σ => ?_⟩
      · simp [Pt.den, Pt.dens_eq, Function.comp_def]
      · have := entries_nums he h1 h2 σ
        simp only [smtOp, this]
        simp
    · cases h
  rw [if_neg hop] at h; clear hop
  by_cases hop : op = "-"
  · rw [if_pos hop] at h; subst hop
    split at h
    · rename_i a b
      obtain ⟨u, w, rfl, ha, hb⟩ := two rfl
      refine delivers_own hT h fun p hp => ?_
      obtain ⟨rfl, hs⟩ := pNode_ok hp
      obtain ⟨ta, sa, fa⟩ := ha
      obtain ⟨tb, sb, _⟩ := hb
      have hc : (a.value.ty = some .int ∧ b.value.ty = some .int) ∨ (a.value.ty = some .real ∧ b.value.ty = some .real) := by
        simp only [Pt.ty] at hs
        by_contra hc
        rw [not_or] at hc
        rw [if_neg hc.1, if_neg hc.2] at hs
        cases hs
      have hn := (rel_nums sa sb hc).2
      have hnb : ta ≠ .bool ∧ (Pt.minus a.value b.value).ty = some ta := by
        rcases hc with hc | hc
        · rw [stands_ty sa hc.1]; simp only [Pt.ty]; rw [if_pos hc]; exact ⟨by simp, rfl⟩
        · rw [stands_ty sa hc.1]; simp only [Pt.ty]; rw [if_neg (by simp [hc.1]), if_pos hc]; exact ⟨by simp, rfl⟩
      refine ⟨fun σ => .n ((a.value.den σ).toN - (b.value.den σ).toN),
        ⟨ta, ⟨hnb.2, fun σ => by simp only [Pt.den], fun σ => by simp [PVal.isB, hnb.1]⟩, fa⟩, fun σ => ?_⟩
      simp only [List.map_cons, List.map_nil, (hn σ).1, (hn σ).2]
      simp [smtOp]
    · rename_i a
      obtain ⟨u, rfl, ha⟩ := one rfl
      obtain ⟨ta, sa, fa⟩ := ha
      split at h
      · refine delivers_own hT h fun p hp => ?_
        obtain ⟨rfl, hs⟩ := pNode_ok (p := .times [a.value, .intC (-1)]) hp
        have hc : a.value.ty = some .int := by
          simp only [Pt.ty, Pt.tyAll] at hs
          by_contra hc
          simp [hc] at hs
        obtain rfl := stands_ty sa hc
        refine ⟨fun σ => .n (-(u σ).toN), ⟨.int, ⟨by simp [Pt.ty, Pt.tyAll, hc], fun σ => by simp [Pt.den, Pt.dens, sa.den, PVal.toN],
          fun σ => by simp [PVal.isB]⟩, .inl rfl⟩, fun σ => ?_⟩
        simp only [List.map_cons, List.map_nil]
        rw [sa.toNum (by simp) σ]
        simp [smtOp, PVal.toN]
      · split at h
        · refine delivers_own hT h fun p hp => ?_
          obtain ⟨rfl, hs⟩ := pNode_ok (p := .times [a.value, .realC (-1)]) hp
          have hc : a.value.ty = some .real := by
            simp only [Pt.ty, Pt.tyAll] at hs
            by_contra hc
            simp [hc] at hs
          obtain rfl := stands_ty sa hc
          refine ⟨fun σ => .n (-(u σ).toN), ⟨.real, ⟨by simp [Pt.ty, Pt.tyAll, hc], fun σ => by simp [Pt.den, Pt.dens, sa.den, PVal.toN],
            fun σ => by simp [PVal.isB]⟩, .inl rfl⟩, fun σ => ?_⟩
          simp only [List.map_cons, List.map_nil]
          rw [sa.toNum (by simp) σ]
          simp [smtOp, PVal.toN]
        · cases h
    · cases h
  rw [if_neg hop] at h; clear hop
  by_cases hop : op = "*"
  · rw [if_pos hop] at h; subst hop
    have har2 := har (by simp)
    split at h
    · rename_i a as
      refine delivers_own hT h fun p hp => ?_
      obtain ⟨b, bs, rfl⟩ : ∃ b bs, as = b :: bs := by cases as with
        | nil => simp at har2
        | cons b bs => exact ⟨b, bs, rfl⟩
      obtain ⟨rfl, hs⟩ := pNode_ok (p := .times (((a :: b :: bs)).map SEntry.value)) hp
      obtain ⟨t, h1, h2, h3, h4⟩ := nary a (b :: bs) .times rfl (fun ps => by simp only [Pt.ty]) hs
      refine ⟨fun σ => .n (((a :: b :: bs).map SEntry.value).map fun p => (p.den σ).toN).prod,
        ⟨t, ⟨h3, fun σ => ?_, fun σ => by simp [PVal.isB, h1]⟩, h4⟩, fun σ => ?_⟩
      · simp [Pt.den, Pt.dens_eq, Function.comp_def]
      · have := entries_nums he h1 h2 σ
        simp only [smtOp, this]
        simp
    · cases h
  rw [if_neg hop] at h; clear hop
  by_cases hop : op = "/"
  · rw [if_pos hop] at h; subst hop
    split at h
    · rename_i a b
      obtain ⟨u, w, rfl, ha, hb⟩ := two rfl
      split at h
      · cases h
      rename_i pa hpa
      split at h
      · cases h
      rename_i pb hpb
      refine delivers_own hT h fun p hp => ?_
      obtain ⟨ta, sa, fa⟩ := ha
      obtain ⟨tb, sb, fb⟩ := hb
      have qa := (pToReal_stands sa hpa).2
      have qb := (pToReal_stands sb hpb).2
      refine ⟨fun σ => .n ((u σ).toN / (w σ).toN), ⟨.real, ?_, .inl rfl⟩, fun σ => ?_⟩
      · unfold pDiv at hp
        split at hp
        · split at hp
          · cases hp
          · obtain ⟨rfl, hs⟩ := pNode_ok (p := .times [pa, .realC _]) hp
            refine ⟨by simp [Pt.ty, Pt.tyAll, qa.ty], fun σ => ?_, fun σ => by simp [PVal.isB]⟩
            have := qb.den σ
            simp only [Pt.den] at this
            simp [Pt.den, Pt.dens, qa.den, ← this, PVal.toN, div_eq_mul_inv]
        · obtain ⟨rfl, hs⟩ := pNode_ok hp
          exact ⟨by simp [Pt.ty, qa.ty, qb.ty], fun σ => by simp [Pt.den, qa.den, qb.den], fun σ => by simp [PVal.isB]⟩
      · simp only [List.map_cons, List.map_nil]
        rw [qa.toNum (by simp) σ, qb.toNum (by simp) σ]
        simp [smtOp, PVal.toN]
    · cases h
  rw [if_neg hop] at h; clear hop
  by_cases hop : op = "and"
  · rw [if_pos hop] at h; subst hop
    have har2 := har (by simp)
    refine delivers_own hT h fun p hp => ?_
    obtain ⟨a, b, bs, rfl⟩ : ∃ a b bs, es = a :: b :: bs := by
      match es, har2 with
      | a :: b :: bs, _ => exact ⟨a, b, bs, rfl⟩
    obtain ⟨rfl, hs⟩ := pNode_ok (p := .and (((a :: b :: bs)).map SEntry.value)) hp
    have hc := isSome_ite (by simpa only [Pt.ty] using hs)
    refine ⟨fun σ => .b ((((a :: b :: bs).map SEntry.value).map fun p => (p.den σ).toB).all id),
      ⟨.bool, ⟨by simp only [Pt.ty]; rw [if_pos hc], fun σ => ?_, fun σ => by simp [PVal.isB]⟩, .inl rfl⟩, fun σ => ?_⟩
    · simp [Pt.den, Pt.dens_eq, Function.comp_def, List.all_map]
    · have := entries_bools he (tyAll_eq.mp hc) σ
      simp only [smtOp, this]
      simp
  rw [if_neg hop] at h; clear hop
  by_cases hop : op = "or"
  · rw [if_pos hop] at h; subst hop
    have har2 := har (by simp)
    refine delivers_own hT h fun p hp => ?_
    obtain ⟨a, b, bs, rfl⟩ : ∃ a b bs, es = a :: b :: bs := by
      match es, har2 with
      | a :: b :: bs, _ => exact ⟨a, b, bs, rfl⟩
    obtain ⟨rfl, hs⟩ := pNode_ok (p := .or (((a :: b :: bs)).map SEntry.value)) hp
    have hc := isSome_ite (by simpa only [Pt.ty] using hs)
    refine ⟨fun σ => .b ((((a :: b :: bs).map SEntry.value).map fun p => (p.den σ).toB).any id),
      ⟨.bool, ⟨by simp only [Pt.ty]; rw [if_pos hc], fun σ => ?_, fun σ => by simp [PVal.isB]⟩, .inl rfl⟩, fun σ => ?_⟩
    · simp [Pt.den, Pt.dens_eq, Function.comp_def, List.any_map]
    · have := entries_bools he (tyAll_eq.mp hc) σ
      simp only [smtOp, this]
      simp
  rw [if_neg hop] at h; clear hop
  by_cases hop : op = "not"
  · rw [if_pos hop] at h; subst hop
    split at h
    · rename_i a
      obtain ⟨u, rfl, ha⟩ := one rfl
      obtain ⟨ta, sa, fa⟩ := ha
      refine delivers_own hT h fun p hp => ?_
      have key : ta = .bool ∧ p.ty = some .bool ∧ ∀ σ, p.den σ = .b !(u σ).toB := by
        unfold pNot at hp
        split at hp
        · rename_i q hq
          cases hp
          have hty := sa.ty
          rw [hq] at hty
          simp only [Pt.ty] at hty
          have hc := isSome_ite (by rw [hty]; rfl)
          rw [if_pos hc] at hty
          cases hty
          refine ⟨rfl, hc, fun σ => ?_⟩
          have := sa.den σ
          rw [hq] at this
          simp only [Pt.den] at this
          rw [← this]
          have := PVal.eq_b (Pt.den_kind (K := K) p hc σ)
          rw [this]
          simp [PVal.toB]
        · obtain ⟨rfl, hs⟩ := pNode_ok hp
          have hc := isSome_ite (by simpa only [Pt.ty] using hs)
          exact ⟨stands_ty sa hc, by simp only [Pt.ty]; rw [if_pos hc], fun σ => by simp only [Pt.den, sa.den]⟩
      obtain ⟨rfl, k1, k2⟩ := key
      refine ⟨fun σ => .b !(u σ).toB, ⟨.bool, ⟨k1, k2, fun σ => by simp [PVal.isB]⟩, .inl rfl⟩, fun σ => ?_⟩
      simp only [List.map_cons, List.map_nil]
      rw [sa.toBool σ]
      simp [smtOp, PVal.toB]
    · cases h
  rw [if_neg hop] at h; clear hop
  by_cases hop : op = "ite"
  · rw [if_pos hop] at h; subst hop
    split at h
    · rename_i c t e ec et ee
      cases hr with | cons hr1 hr' => cases hr' with | cons hr2 hr'' => cases hr'' with | cons hr3 hr3' =>
      cases hr3'
      rename_i vc vt ve
      split at h
      · cases h
      rename_i hec
      simp only [ne_eq, not_not] at hec
      split at h
      · cases h
      · cases h
      · rename_i T1 t' e' hcast
        obtain ⟨i1, i2, i3, i4⟩ := castS_ok hT hr2 hr3 hcast
        obtain ⟨xc, hxc, oc⟩ := (hr1.mono i2).get i1
        obtain ⟨xt, hxt, ot⟩ := i3.get i1
        obtain ⟨xe, hxe, oe⟩ := i4.get i1
        simp only [hxc, hxt, hxe] at h
        obtain ⟨p, hp, rfl, rfl⟩ := ownRes_ok h
        obtain ⟨rfl, hs⟩ := pNode_ok hp
        obtain ⟨tc, sc, fc⟩ := oc
        obtain ⟨tt, st, ft⟩ := ot
        obtain ⟨te, se, fe⟩ := oe
        have hc : xc.value.ty = some .bool ∧ xt.value.ty = xe.value.ty := by
          simp only [Pt.ty] at hs
          by_contra hc
          rw [if_neg hc] at hs
          cases hs
        obtain rfl := stands_ty sc hc.1
        have htt : tt = te := stands_ty st (hc.2.trans se.ty)
        refine ⟨i1, i2, fun σ => if (vc σ).toB then vt σ else ve σ, ⟨tt, ⟨by simp only [Pt.ty]; rw [if_pos hc, st.ty], fun σ => ?_, fun σ => ?_⟩, ft⟩, fun σ => ?_⟩
        · simp only [Pt.den, sc.den, st.den, se.den]
        · split
          · exact st.kind σ
          · rw [htt]; exact se.kind σ
        · simp only [List.map_cons, List.map_nil]
          have hb := sc.toBool σ
          generalize vc σ = x at hb
          cases x with
          | b x => cases x <;> simp [smtOp, PVal.toB, st.kind σ, se.kind σ, htt]
          | n x => cases hb
    · cases h
  rw [if_neg hop] at h
  cases h

/-! ### Terms -/

theorem SResOk.getAll {kind : String → Option Bool} {T : STable} (hT : STableOk K kind T) {rs : List SRes} {vs : List (Env K → PVal K)}
    (h : List.Forall₂ (fun r v => SResOk kind T v r) rs vs) : ∃ es, Pywmi.getAll T rs = .ok es ∧ List.Forall₂ EntryOk es vs := by
  induction h with
  | nil => exact ⟨[], rfl, .nil⟩
  | cons h _ ih =>
    obtain ⟨e, h1, h2⟩ := h.get hT
    obtain ⟨es, h3, h4⟩ := ih
    exact ⟨e :: es, by simp [Pywmi.getAll, h1, h3], .cons h2 h4⟩

theorem sVal_ident {kind : String → Option Bool} {x : SSym} (h : ∀ b, symVal x ≠ .ok (.inl b)) (σ : Env K) :
    sVal kind σ (.ident x) = (kind x.text).map fun k => varVal k x.text σ := by
  have h1 : x ≠ .predef "true" := by rintro rfl; exact h true rfl
  have h2 : x ≠ .predef "false" := by rintro rfl; exact h false rfl
  unfold sVal
  split
  all_goals first | rfl | simp_all

theorem symVal_inr {s : SSym} {x : String} (h : symVal s = .ok (.inr x)) : x = s.text := by
  cases s with
  | name s => cases h; rfl
  | quoted s => cases h
  | predef s =>
    simp only [symVal] at h
    split at h
    · cases h
    · split at h
      · cases h
      · split at h
        · cases h; rfl
        · cases h

theorem symVal_inl {s : SSym} {b : Bool} (h : symVal s = .ok (.inl b)) :
    (s = .predef "true" ∧ b = true) ∨ (s = .predef "false" ∧ b = false) := by
  cases s with
  | name s => cases h
  | quoted s => cases h
  | predef s =>
    simp only [symVal] at h
    split at h
    · rename_i hs; subst hs; cases h; exact .inl ⟨rfl, rfl⟩
    · split at h
      · rename_i hs; subst hs; cases h; exact .inr ⟨rfl, rfl⟩
      · split at h <;> cases h

theorem stands_int (z : ℤ) : Stands (K := K) (.intC z) .int fun _ => .n (z : K) := ⟨rfl, fun σ => by simp [Pt.den], fun σ => by simp [PVal.isB]⟩
theorem stands_real (q : ℚ) : Stands (K := K) (.realC q) .real fun _ => .n (q : K) := ⟨rfl, fun σ => by simp [Pt.den], fun σ => by simp [PVal.isB]⟩
theorem stands_bool (b : Bool) : Stands (K := K) (.boolC b) .bool fun _ => .b b := ⟨rfl, fun σ => by simp [Pt.den], fun σ => by simp [PVal.isB]⟩

theorem forall₂_values_snoc {kind : String → Option Bool} {σ : Env K} {ts : List STerm} {vs : List (Env K → PVal K)}
    (h : List.Forall₂ (fun t v => ∀ σ, sVal kind σ t = some (v σ)) ts vs) : sVals kind σ ts = some (vs.map fun v => v σ) := by
  induction h with
  | nil => rfl
  | cons h _ ih => simp [sVals, h σ, ih]

mutual
/-- A term that is read stands for its meaning. -/
theorem sTerm_ok {kind : String → Option Bool} : ∀ (t : STerm) {T T' : STable} {r : SRes}, STableOk K kind T → arityS t = true →
    sTerm T t = .ok (r, T') → STableOk K kind T' ∧ SameKeys T T' ∧
      ((∃ s, r = .symb s) ∨ ∃ v : Env K → PVal K, SResOk kind T' v r ∧ ∀ σ, sVal kind σ t = some (v σ))
  | .numeral n, T, T', r, hT, _, h | .hex n, T, T', r, hT, _, h | .bin n, T, T', r, hT, _, h => by
    simp only [sTerm] at h
    cases h
    exact ⟨hT, .refl _, .inr ⟨_, ⟨.int, stands_int n, .inl rfl⟩, fun σ => by simp [sVal]⟩⟩
  | .decimal q, T, T', r, hT, _, h => by
    simp only [sTerm] at h
    cases h
    exact ⟨hT, .refl _, .inr ⟨_, ⟨.real, stands_real q, .inl rfl⟩, fun σ => by simp [sVal]⟩⟩
  | .str, T, T', r, hT, _, h | .indexed, T, T', r, hT, _, h | .appIndexed, T, T', r, hT, _, h | .binder, T, T', r, hT, _, h => by
    simp only [sTerm] at h
    cases h
  | .ident s, T, T', r, hT, _, h => by
    simp only [sTerm] at h
    split at h
    · cases h
    · rename_i b hs
      cases h
      refine ⟨hT, .refl _, .inr ⟨_, ⟨.bool, stands_bool b, .inl rfl⟩, fun σ => ?_⟩⟩
      rcases symVal_inl hs with ⟨rfl, rfl⟩ | ⟨rfl, rfl⟩ <;> simp [sVal]
    · rename_i x hs
      obtain rfl := symVal_inr hs
      split at h
      · rename_i hx
        cases h
        obtain ⟨e, he⟩ := Option.isSome_iff_exists.mp hx
        obtain ⟨k, hk, _⟩ := hT _ _ he
        refine ⟨hT, .refl _, .inr ⟨varVal k s.text, ⟨hx, k, hk, rfl⟩, fun σ => ?_⟩⟩
        rw [sVal_ident (by rw [hs]; simp), hk]; rfl
      · cases h
        exact ⟨hT, .refl _, .inl ⟨_, rfl⟩⟩
  | .app s ts, T, T', r, hT, har, h => by
    simp only [sTerm] at h
    simp only [arityS, Bool.and_eq_true] at har
    split at h
    · cases h
    · rename_i hd hs
      split at h
      · cases h
      · rename_i rs T1 hrs
        obtain ⟨i1, i2, ws, i3, i4⟩ := sTerms_ok ts (acc := []) (us := []) hT har.2 .nil hrs
        split at h
        · cases h
        · rename_i op
          obtain rfl := symVal_inr hs
          split at h
          · cases h
          · rename_i es hes
            obtain ⟨es', h1, h2⟩ := SResOk.getAll i1 i3
            rw [hes] at h1; cases h1
            have hlen : es.length = ts.length := by rw [h2.length_eq]; simpa using i4.length_eq.symm
            obtain ⟨j1, j2, v, j3, j4⟩ := applyS_ok i1 i3 h2
              (fun hop => by
                have := har.1
                simp only [Bool.or_eq_true, decide_eq_true_eq] at this
                rcases this with h | h
                · exact absurd hop h
                · rw [hlen]; exact h) h
            refine ⟨j1, i2.trans j2, .inr ⟨v, j3, fun σ => ?_⟩⟩
            simp only [sVal, forall₂_values_snoc i4, Option.bind_some]
            exact j4 σ
/-- The loop over the children. -/
theorem sTerms_ok {kind : String → Option Bool} : ∀ (ts : List STerm) {T T' : STable} {op : String} {acc rs : List SRes}
    {us : List (Env K → PVal K)}, STableOk K kind T → arityAll ts = true → List.Forall₂ (fun r v => SResOk kind T v r) acc us →
    sTerms T op acc ts = .ok (rs, T') → STableOk K kind T' ∧ SameKeys T T' ∧
      ∃ ws : List (Env K → PVal K), List.Forall₂ (fun r v => SResOk kind T' v r) rs (us.reverse ++ ws) ∧ List.Forall₂ (fun t v => ∀ σ, sVal kind σ t = some (v σ)) ts ws
  | [], T, T', op, acc, rs, us, hT, _, ha, h => by
    simp only [sTerms] at h
    cases h
    exact ⟨hT, .refl _, [], by simpa using List.rel_reverse ha, .nil⟩
  | t :: ts, T, T', op, acc, rs, us, hT, har, ha, h => by
    simp only [arityAll, Bool.and_eq_true] at har
    simp only [sTerms] at h
    split at h
    · cases h
    · cases h
    · rename_i r T1 hns hr
      obtain ⟨i1, i2, i3⟩ := sTerm_ok t hT har.1 hr
      obtain ⟨v, i4, i5⟩ : ∃ v : Env K → PVal K, SResOk kind T1 v r ∧ ∀ σ, sVal kind σ t = some (v σ) := by
        rcases i3 with ⟨s, rfl⟩ | h
        · exact absurd rfl (hns s)
        · exact h
      have ha1 : List.Forall₂ (fun r v => SResOk kind T1 v r) acc us := ha.imp fun _ _ h => h.mono i2
      cases ha1 with
      | nil =>
        obtain ⟨j1, j2, ws, j3, j4⟩ := sTerms_ok ts (us := [v]) i1 har.2 (.cons i4 .nil) h
        exact ⟨j1, i2.trans j2, v :: ws, by simpa using j3, .cons i5 j4⟩
      | @cons l u acc' us' hl hacc =>
        dsimp only at h
        split at h
        · split at h
          · cases h
          · cases h
          · rename_i T2 l' r' hcast
            obtain ⟨k1, k2, k3, k4⟩ := castS_ok i1 hl i4 hcast
            obtain ⟨j1, j2, ws, j3, j4⟩ := sTerms_ok ts (us := v :: u :: us') k1 har.2
              (.cons k4 (.cons k3 (hacc.imp fun _ _ h => h.mono k2))) h
            exact ⟨j1, i2.trans (k2.trans j2), v :: ws, by simpa using j3, .cons i5 j4⟩
        · obtain ⟨j1, j2, ws, j3, j4⟩ := sTerms_ok ts (us := v :: u :: us') i1 har.2 (.cons i4 (.cons hl hacc)) h
          exact ⟨j1, i2.trans j2, v :: ws, by simpa using j3, .cons i5 j4⟩
end

/-! ### Scripts -/

/-- SPEC: the sorts a variable may have. -/
def sortOf (s : String) : Option PTy :=
  if s = "Bool" then some .bool else if s = "Int" then some .int else if s = "Real" then some .real else none

theorem sortVal_ok {t : SSort} {ty : PTy} (h : sortVal t = .ok ty) : ∃ s : SSym, t = .ident s ∧ sortOf s.text = some ty := by
  cases t with
  | indexed => cases h
  | param => cases h
  | ident s =>
    refine ⟨s, rfl, ?_⟩
    simp only [sortVal] at h
    split at h
    · cases h
    · cases h
    · rename_i n hn
      obtain rfl := symVal_inr hn
      split at h
      · rename_i hs; cases h; rw [hs]; rfl
      · split at h
        · rename_i hs; cases h; rw [hs]; rfl
        · split at h
          · rename_i hs; cases h; rw [hs]; rfl
          · cases h

/-- A declaration that is read: the name is new, the sort is one of the three. -/
theorem declareS_ok {S S' : SState} {s : SSym} {args : List SSort} {sort : SSort} (h : declareS S s args sort = .ok S') :
    args = [] ∧ (S.table.get s.text).isSome = false ∧ ∃ (t : SSym) (ty : PTy), sort = .ident t ∧ sortOf t.text = some ty ∧
      S' = { S with
        table := S.table ++ [(s.text, ⟨.sym s.text ty, ty⟩)]
        bools := if ty = .bool then S.bools ++ [s.text] else S.bools
        reals := if ty = .bool then S.reals else S.reals ++ [(s.text, ty)] } := by
  unfold declareS at h
  split at h
  · cases h
  · split at h
    · cases h
    · split at h <;> cases h
  · rename_i x hx
    obtain rfl := symVal_inr hx
    split at h
    · cases h
    rename_i hn
    split at h
    · cases h
    rename_i ha
    refine ⟨by simpa using ha, by simpa using hn, ?_⟩
    split at h
    · cases h
    all_goals
      rename_i hs
      obtain ⟨t, rfl, ht⟩ := sortVal_ok hs
      cases h
      exact ⟨t, _, rfl, ht, by simp⟩

theorem get_snoc (T : STable) (x y : String) (e : SEntry) (hx : (T.get x).isSome = false) :
    STable.get (T ++ [(x, e)]) y = if y = x then some e else T.get y := by
  unfold STable.get at *
  rw [List.find?_append]
  by_cases hy : y = x
  · subst hy
    have : List.find? (fun p => decide (p.1 = y)) T = none := by
      cases hf : List.find? (fun p => decide (p.1 = y)) T with
      | none => rfl
      | some p => rw [hf] at hx; cases hx
    simp [this]
  · have : ¬ x = y := fun h => hy h.symm
    simp only [List.find?_cons, List.find?_nil, this, decide_false, hy, if_false, Option.or_none]

theorem stands_sym (x : String) (ty : PTy) : Stands (K := K) (.sym x ty) ty (varVal (decide (ty = .bool)) x) := by
  refine ⟨rfl, fun σ => ?_, fun σ => ?_⟩
  · cases ty <;> rfl
  · cases ty <;> rfl

/-- The name and sort of a declaration, as the reader records it. -/
def declTy (p : String × String) : Option (String × PTy) := (sortOf p.2).map fun t => (p.1, t)

variable (K) in
/-- What holds after the commands `pre` of the script `cs`. -/
structure ScriptInv (A X : List String) (kind : String → Option Bool) (pre : List SCmd) (S : SState) : Prop where
  table : STableOk K kind S.table
  keys : ∀ x, (S.table.get x).isSome = true ↔ x ∈ A ∨ x ∈ X ∨ x ∈ (decls pre).map Prod.fst
  bools : S.bools = A ++ ((decls pre).filter fun p => p.2 = "Bool").map Prod.fst
  reals : S.reals = (X.map fun x => (x, PTy.real)) ++
    ((decls pre).filter fun p => ¬ p.2 = "Bool").map fun p => (p.1, if p.2 = "Int" then PTy.int else PTy.real)
  sorts : ∀ p ∈ decls pre, p.2 ∈ ["Bool", "Int", "Real"]
  nodup : ((decls pre).map Prod.fst).Nodup
  fresh : ∀ x ∈ (decls pre).map Prod.fst, x ∉ A ∧ x ∉ X
  support : List.Forall₂ (fun t p => ∃ v, Stands (K := K) p .bool v ∧ ∀ σ, sVal kind σ t = some (v σ)) (asserts pre) S.support
  weight : match S.weight with
    | none => weights pre = []
    | some p => ∃ t v, weights pre = [t] ∧ Stands (K := K) p .real v ∧ ∀ σ, sVal kind σ t = some (v σ)
  queries : List.Forall₂ (fun t p => ∃ ty v, Stands (K := K) p ty v ∧ ∀ σ, sVal kind σ t = some (v σ)) (queriesOf pre) S.queries
  known : ∀ c ∈ pre, c.decl.isSome ∨ c.term.isSome

theorem sTerm_entry {kind : String → Option Bool} {t : STerm} {T T' : STable} {r : SRes} {e : SEntry} (hT : STableOk K kind T)
    (ha : arityS t = true) (h : sTerm T t = .ok (r, T')) (he : r.get T' = .ok e) :
    STableOk K kind T' ∧ SameKeys T T' ∧ ∃ v : Env K → PVal K, SResOk kind T' v r ∧ EntryOk e v ∧ ∀ σ, sVal kind σ t = some (v σ) := by
  obtain ⟨i1, i2, i3⟩ := sTerm_ok t hT ha h
  rcases i3 with ⟨s, rfl⟩ | ⟨v, i3, i4⟩
  · cases he
  · obtain ⟨e', h1, h2⟩ := i3.get i1
    rw [he] at h1; cases h1
    exact ⟨i1, i2, v, i3, h2, i4⟩

theorem decl_step {A X : List String} {pre post : List SCmd} {c : SCmd} {S S' : SState} {s t : SSym} {ty : PTy}
    (hI : ScriptInv K A X (declKind A X (pre ++ c :: post)) pre S) (hc : c.decl = some (s.text, t.text)) (hterm : c.term = none)
    (hn : (S.table.get s.text).isSome = false) (ht : sortOf t.text = some ty)
    (hS : S' = { S with
        table := S.table ++ [(s.text, ⟨.sym s.text ty, ty⟩)]
        bools := if ty = .bool then S.bools ++ [s.text] else S.bools
        reals := if ty = .bool then S.reals else S.reals ++ [(s.text, ty)] }) :
    ScriptInv K A X (declKind A X (pre ++ c :: post)) (pre ++ [c]) S' := by
  have hd : decls (pre ++ [c]) = decls pre ++ [(s.text, t.text)] := by simp [decls, List.filterMap_append, hc]
  have h1 : asserts (pre ++ [c]) = asserts pre := by
    cases c <;> simp_all [asserts, List.filterMap_append, SCmd.term]
  have h2 : weights (pre ++ [c]) = weights pre := by
    cases c <;> simp_all [weights, List.filterMap_append, SCmd.term]
  have h3 : queriesOf (pre ++ [c]) = queriesOf pre := by
    cases c <;> simp_all [queriesOf, List.filterMap_append, SCmd.term]
  have hnk := mt (hI.keys s.text).mpr (by simp [hn])
  push Not at hnk
  have hty : decide (t.text = "Bool") = decide (ty = .bool) ∧ t.text ∈ ["Bool", "Int", "Real"] ∧
      (ty ≠ .bool → (if t.text = "Int" then PTy.int else PTy.real) = ty) := by
    unfold sortOf at ht
    split at ht
    · rename_i hb; cases ht; simp [hb]
    · split at ht
      · rename_i hb; cases ht; simp [hb]
      · split at ht
        · rename_i hb; cases ht; simp [hb]
        · cases ht
  have hkind : declKind A X (pre ++ c :: post) s.text = some (decide (ty = .bool)) := by
    unfold declKind
    rw [if_neg hnk.1, if_neg hnk.2.1]
    have : decls (pre ++ c :: post) = decls pre ++ (s.text, t.text) :: decls post := by
      simp [decls, List.filterMap_append, hc]
    have hf : List.find? (fun p => decide (p.1 = s.text)) (decls pre) = none := by
      rw [List.find?_eq_none]
      intro p hp
      have := hnk.2.2
      simp only [decide_eq_true_eq]
      rintro h
      exact this (List.mem_map.mpr ⟨p, hp, h⟩)
    rw [this, List.find?_append, hf]
    simp only [Option.none_or, List.find?_cons, decide_true, Option.map_some, Option.some.injEq]
    exact hty.1
  subst hS
  refine ⟨?_, ?_, ?_, ?_, ?_, ?_, ?_, ?_, ?_, ?_, ?_⟩
  · intro x e he
    dsimp only at he
    rw [get_snoc _ _ _ _ hn] at he
    split at he
    · rename_i hx
      cases he; subst hx
      exact ⟨_, hkind, ty, stands_sym _ _, .inl rfl⟩
    · exact hI.table x e he
  · intro x
    dsimp only
    rw [get_snoc _ _ _ _ hn, hd]
    by_cases hx : x = s.text
    · simp [hx]
    · simp only [hx, if_false, hI.keys x, List.map_append, List.mem_append, List.map_cons, List.map_nil, List.mem_singleton, or_false]
  · dsimp only
    rw [hd, List.filter_append, List.map_append, ← List.append_assoc, ← hI.bools]
    have := hty.1
    by_cases hb : ty = .bool
    · have : t.text = "Bool" := by simpa [hb] using this
      simp [hb, this]
    · have : ¬ t.text = "Bool" := by simpa [hb] using this
      simp [hb, this]
  · dsimp only
    rw [hd, List.filter_append, List.map_append, ← List.append_assoc, ← hI.reals]
    have := hty.1
    by_cases hb : ty = .bool
    · have : t.text = "Bool" := by simpa [hb] using this
      simp [hb, this]
    · have h' : ¬ t.text = "Bool" := by simpa [hb] using this
      simp [hb, h', hty.2.2 hb]
  · intro p hp
    rw [hd, List.mem_append, List.mem_singleton] at hp
    rcases hp with hp | rfl
    · exact hI.sorts p hp
    · exact hty.2.1
  · rw [hd, List.map_append, List.nodup_append]
    refine ⟨hI.nodup, by simp, ?_⟩
    intro a ha b hb
    simp only [List.map_cons, List.map_nil, List.mem_singleton] at hb
    rintro rfl
    exact hnk.2.2 (hb ▸ ha)
  · intro x hx
    rw [hd, List.map_append, List.mem_append] at hx
    rcases hx with hx | hx
    · exact hI.fresh x hx
    · simp only [List.map_cons, List.map_nil, List.mem_singleton] at hx
      rw [hx]; exact ⟨hnk.1, hnk.2.1⟩
  · rw [h1]; exact hI.support
  · rw [h2]; exact hI.weight
  · rw [h3]; exact hI.queries
  · intro c' hc'
    rw [List.mem_append, List.mem_singleton] at hc'
    rcases hc' with hc' | rfl
    · exact hI.known c' hc'
    · left; simp [hc]

/-- The parts of the invariant about declarations, after a command that declares nothing. -/
theorem ScriptInv.noDecl {A X : List String} {kind : String → Option Bool} {pre : List SCmd} {c : SCmd} {S : SState} {T : STable}
    (hI : ScriptInv K A X kind pre S) (hc : c.decl = none) (ht : c.term.isSome) (hT : STableOk K kind T) (hk : SameKeys S.table T)
    {sup : List Pt} {w : Option Pt} {qs : List Pt}
    (h1 : List.Forall₂ (fun t p => ∃ v, Stands (K := K) p .bool v ∧ ∀ σ, sVal kind σ t = some (v σ)) (asserts (pre ++ [c])) sup)
    (h2 : match w with
      | none => weights (pre ++ [c]) = []
      | some p => ∃ t v, weights (pre ++ [c]) = [t] ∧ Stands (K := K) p .real v ∧ ∀ σ, sVal kind σ t = some (v σ))
    (h3 : List.Forall₂ (fun t p => ∃ ty v, Stands (K := K) p ty v ∧ ∀ σ, sVal kind σ t = some (v σ)) (queriesOf (pre ++ [c])) qs) :
    ScriptInv K A X kind (pre ++ [c]) ⟨T, S.bools, S.reals, sup, w, qs⟩ := by
  have hd : decls (pre ++ [c]) = decls pre := by simp [decls, List.filterMap_append, hc]
  refine ⟨hT, ?_, ?_, ?_, ?_, ?_, ?_, h1, h2, h3, ?_⟩
  · intro x; rw [hd, ← hI.keys, ← hk x]
  · rw [hd]; exact hI.bools
  · rw [hd]; exact hI.reals
  · rw [hd]; exact hI.sorts
  · rw [hd]; exact hI.nodup
  · rw [hd]; exact hI.fresh
  · intro c' hc'
    rw [List.mem_append, List.mem_singleton] at hc'
    rcases hc' with hc' | rfl
    · exact hI.known c' hc'
    · exact .inr ht

theorem sCmd_ok {A X : List String} {pre post : List SCmd} {c : SCmd} {S S' : SState} (har : ∀ t, c.term = some t → arityS t = true)
    (hI : ScriptInv K A X (declKind A X (pre ++ c :: post)) pre S) (h : sCmd S c = .ok S') :
    ScriptInv K A X (declKind A X (pre ++ c :: post)) (pre ++ [c]) S' := by
  cases c with
  | other => cases h
  | declareConst s sort =>
    obtain ⟨_, hn, t, ty, rfl, ht, hS⟩ := declareS_ok h
    exact decl_step hI rfl rfl hn ht hS
  | declareFun s args sort =>
    obtain ⟨rfl, hn, t, ty, rfl, ht, hS⟩ := declareS_ok h
    exact decl_step hI rfl rfl hn ht hS
  | assert t =>
    simp only [sCmd] at h
    split at h
    · cases h
    rename_i r T hr
    split at h
    · cases h
    rename_i e he
    obtain ⟨i1, i2, v, i3, i4, i5⟩ := sTerm_entry hI.table (har t rfl) hr he
    split at h
    · cases h
    rename_i hty
    simp only [ne_eq, not_not] at hty
    cases h
    have e1 : asserts (pre ++ [.assert t]) = asserts pre ++ [t] := by simp [asserts, List.filterMap_append]
    have e2 : weights (pre ++ [.assert t]) = weights pre := by simp [weights, List.filterMap_append]
    have e3 : queriesOf (pre ++ [.assert t]) = queriesOf pre := by simp [queriesOf, List.filterMap_append]
    refine hI.noDecl (c := .assert t) rfl rfl i1 i2 ?_ ?_ ?_
    · rw [e1]
      exact List.rel_append hI.support (.cons ⟨v, i4.isBool hty, i5⟩ .nil)
    · rw [e2]; exact hI.weight
    · rw [e3]; exact hI.queries
  | weight t =>
    have e1 : asserts (pre ++ [.weight t]) = asserts pre := by simp [asserts, List.filterMap_append]
    have e2 : weights (pre ++ [.weight t]) = weights pre ++ [t] := by simp [weights, List.filterMap_append]
    have e3 : queriesOf (pre ++ [.weight t]) = queriesOf pre := by simp [queriesOf, List.filterMap_append]
    simp only [sCmd] at h
    split at h
    · cases h
    rename_i r T hr
    split at h
    · cases h
    rename_i hw
    have hw : S.weight = none := by simpa using hw
    have hwp : weights pre = [] := by have := hI.weight; rwa [hw] at this
    split at h
    · cases h
    rename_i e he
    obtain ⟨i1, i2, v, i3, i4, i5⟩ := sTerm_entry hI.table (har t rfl) hr he
    split at h
    · rename_i hty
      cases h
      refine hI.noDecl (c := .weight t) rfl rfl i1 i2 (by rw [e1]; exact hI.support) ?_ (by rw [e3]; exact hI.queries)
      obtain ⟨t', s1, s2⟩ := i4
      have : t' = .real := by
        rcases s2 with rfl | ⟨h1, h2⟩
        · exact hty
        · exact h2
      subst this
      exact ⟨t, v, by rw [e2, hwp]; rfl, s1, i5⟩
    · rename_i hty
      split at h
      · cases h
      rename_i p hp
      cases h
      obtain ⟨t', s1, s2⟩ := i4
      have s3 := (pToReal_stands s1 hp).2
      obtain ⟨j1, j2, _⟩ := put_ok i1 i3 (e := ⟨p, .int⟩) ⟨.real, s3, .inr ⟨rfl, rfl⟩⟩
      refine hI.noDecl (c := .weight t) rfl rfl j1 (i2.trans j2) (by rw [e1]; exact hI.support) ?_ (by rw [e3]; exact hI.queries)
      exact ⟨t, v, by rw [e2, hwp]; rfl, s3, i5⟩
    · cases h
  | query t =>
    have e1 : asserts (pre ++ [.query t]) = asserts pre := by simp [asserts, List.filterMap_append]
    have e2 : weights (pre ++ [.query t]) = weights pre := by simp [weights, List.filterMap_append]
    have e3 : queriesOf (pre ++ [.query t]) = queriesOf pre ++ [t] := by simp [queriesOf, List.filterMap_append]
    simp only [sCmd] at h
    split at h
    · cases h
    rename_i r T hr
    split at h
    · cases h
    rename_i e he
    obtain ⟨i1, i2, v, i3, i4, i5⟩ := sTerm_entry hI.table (har t rfl) hr he
    split at h
    · rename_i hty
      cases h
      refine hI.noDecl (c := .query t) rfl rfl i1 i2 (by rw [e1]; exact hI.support) (by rw [e2]; exact hI.weight) ?_
      rw [e3]
      exact List.rel_append hI.queries (.cons ⟨_, v, i4.isBool hty, i5⟩ .nil)
    · rename_i hty
      split at h
      · cases h
      rename_i p hp
      cases h
      obtain ⟨t', s1, s2⟩ := i4
      have s3 := (pToReal_stands s1 hp).2
      obtain ⟨j1, j2, _⟩ := put_ok i1 i3 (e := ⟨p, .int⟩) ⟨.real, s3, .inr ⟨rfl, rfl⟩⟩
      refine hI.noDecl (c := .query t) rfl rfl j1 (i2.trans j2) (by rw [e1]; exact hI.support) (by rw [e2]; exact hI.weight) ?_
      rw [e3]
      exact List.rel_append hI.queries (.cons ⟨_, v, s3, i5⟩ .nil)
    · cases h

theorem sScript_ok {A X : List String} : ∀ (post pre : List SCmd) {S S' : SState},
    (∀ c ∈ post, ∀ t, c.term = some t → arityS t = true) → ScriptInv K A X (declKind A X (pre ++ post)) pre S →
    sScript S post = .ok S' → ScriptInv K A X (declKind A X (pre ++ post)) (pre ++ post) S'
  | [], pre, S, S', _, hI, h => by
    cases h
    simpa using hI
  | c :: cs, pre, S, S', har, hI, h => by
    simp only [sScript] at h
    split at h
    · cases h
    rename_i S1 h1
    have := sCmd_ok (har c List.mem_cons_self) hI h1
    have e : pre ++ c :: cs = (pre ++ [c]) ++ cs := by simp
    rw [e] at this ⊢
    exact sScript_ok cs (pre ++ [c]) (fun c' hc' => har c' (List.mem_cons_of_mem _ hc')) this h

theorem init_ok (A X : List String) (cs : List SCmd) : ScriptInv K A X (declKind A X cs) [] (.init A X) := by
  have hA : ∀ (x : String) (l : STable), STable.get ((A.map fun a => (a, ⟨.sym a .bool, .bool⟩)) ++ l) x =
      if x ∈ A then some ⟨.sym x .bool, .bool⟩ else STable.get l x := by
    intro x l
    unfold STable.get
    induction A with
    | nil => simp
    | cons a A ih =>
      rw [List.map_cons, List.cons_append, List.find?_cons]
      by_cases ha : a = x
      · simp [ha]
      · have : ¬ x = a := fun h => ha h.symm
        simp only [ha, decide_false, List.mem_cons, this, false_or]
        exact ih
  have hX : ∀ (x : String), STable.get (X.map fun a => (a, ⟨.sym a .real, .real⟩)) x =
      if x ∈ X then some ⟨.sym x .real, .real⟩ else none := by
    intro x
    unfold STable.get
    induction X with
    | nil => simp
    | cons a X ih =>
      rw [List.map_cons, List.find?_cons]
      by_cases ha : a = x
      · simp [ha]
      · have : ¬ x = a := fun h => ha h.symm
        simp only [ha, decide_false, List.mem_cons, this, false_or]
        exact ih
  refine ⟨?_, ?_, by simp [SState.init, decls], by simp [SState.init, decls], by simp [decls], by simp [decls], by simp [decls],
    .nil, rfl, .nil, by simp⟩
  · intro x e he
    simp only [SState.init, hA, hX] at he
    split at he
    · rename_i hx
      cases he
      exact ⟨true, by simp [declKind, hx], .bool, stands_sym x .bool, .inl rfl⟩
    · rename_i hx
      split at he
      · rename_i hx'
        cases he
        exact ⟨false, by simp [declKind, hx, hx'], .real, stands_sym x .real, .inl rfl⟩
      · cases he
  · intro x
    simp only [SState.init, hA, hX, decls, List.filterMap_nil, List.map_nil, List.not_mem_nil, or_false]
    by_cases hx : x ∈ A <;> by_cases hx' : x ∈ X <;> simp [hx, hx']

theorem pAnd_stands {ts : List STerm} {ps : List Pt} {kind : String → Option Bool}
    (h : List.Forall₂ (fun t p => ∃ v, Stands (K := K) p .bool v ∧ ∀ σ, sVal kind σ t = some (v σ)) ts ps) {f : Pt}
    (hf : pAnd ps = .ok f) :
    f.ty = some .bool ∧ ∀ σ : Env K, (∀ t ∈ ts, ∃ b, sVal kind σ t = some (.b b)) ∧
      (Pt.den σ f = .b true ↔ ∀ t ∈ ts, sVal kind σ t = some (.b true)) := by
  have hall : ∀ σ : Env K, (∀ t ∈ ts, ∃ b, sVal kind σ t = some (.b b)) ∧
      ((∀ p ∈ ps, (Pt.den σ p).toB = true) ↔ ∀ t ∈ ts, sVal kind σ t = some (.b true)) := by
    intro σ
    clear hf
    induction h with
    | nil => simp
    | cons h _ ih =>
      obtain ⟨v, h1, h2⟩ := h
      have hv := h1.toBool σ
      refine ⟨?_, ?_⟩
      · intro t ht
        rcases List.mem_cons.mp ht with rfl | ht
        · exact ⟨_, by rw [h2, hv]⟩
        · exact ih.1 t ht
      · rw [List.forall_mem_cons, List.forall_mem_cons, ih.2, h1.den, h2]
        have : ((v σ).toB = true) ↔ some (v σ) = some (PVal.b true) := by
          rw [hv]; simp [PVal.toB]
        rw [this]
  have hty : ∀ p ∈ ps, p.ty = some .bool := by
    clear hf hall
    induction h with
    | nil => simp
    | cons h _ ih =>
      obtain ⟨v, h1, _⟩ := h
      exact List.forall_mem_cons.mpr ⟨h1.ty, ih⟩
  unfold pAnd at hf
  split at hf
  · cases hf
    exact ⟨rfl, fun σ => ⟨(hall σ).1, by rw [← (hall σ).2]; simp [Pt.den]⟩⟩
  · cases hf
    refine ⟨hty _ (by simp), fun σ => ⟨(hall σ).1, ?_⟩⟩
    rw [← (hall σ).2]
    have := PVal.eq_b (Pt.den_kind (K := K) _ (hty _ List.mem_cons_self) σ)
    rw [this]
    simp [PVal.toB, ← this]
  · obtain ⟨rfl, hs⟩ := pNode_ok hf
    refine ⟨by simp only [Pt.ty]; rw [if_pos ((Pt.tyAll_iff _ _).mpr hty)], fun σ => ⟨(hall σ).1, ?_⟩⟩
    rw [← (hall σ).2]
    simp only [Pt.den, Pt.dens_eq, PVal.b.injEq, List.all_eq_true, List.mem_map, forall_exists_index, and_imp,
      forall_apply_eq_imp_iff₂]

/-- A correct simplifier: it keeps the type and the value of a term. -/
def KeepsMeaning (K : Type) [Field K] [LinearOrder K] (simp : Pt → Pt) : Prop :=
  ∀ p t, p.ty = some t → (simp p).ty = some t ∧ ∀ σ : Env K, Pt.den σ (simp p) = Pt.den σ p

/-- C69: whatever file is read, what comes out is what SMT-LIB says it means: the support is true exactly where all asserted terms
are, the weight is the value of the only `weight` command (or one), the queries have their values, in order, and the variables are
those given and those declared, each once.  Nothing is skipped: every command is a declaration or one of the three. -/
theorem smtlib_meaning {simp : Pt → Pt} (hs : KeepsMeaning K simp) {A X : List String} {cs : List SCmd} {R : SResult}
    (har : ∀ c ∈ cs, ∀ t, c.term = some t → arityS t = true) (h : parseSmtlib simp A X cs = .ok R) :
    (R.support.ty = some .bool ∧ ∀ σ : Env K, (∀ t ∈ asserts cs, ∃ b, sVal (declKind A X cs) σ t = some (.b b)) ∧
      (Pt.den σ R.support = .b true ↔ ∀ t ∈ asserts cs, sVal (declKind A X cs) σ t = some (.b true))) ∧
    (R.weight.ty = some .real ∧ ((weights cs = [] ∧ ∀ σ : Env K, Pt.den σ R.weight = .n 1) ∨
      ∃ t, weights cs = [t] ∧ ∀ σ : Env K, sVal (declKind A X cs) σ t = some (Pt.den σ R.weight))) ∧
    List.Forall₂ (fun t p => p.ty.isSome ∧ ∀ σ : Env K, sVal (declKind A X cs) σ t = some (Pt.den σ p)) (queriesOf cs) R.queries ∧
    R.bools = A ++ ((decls cs).filter fun p => p.2 = "Bool").map Prod.fst ∧
    R.reals = (X.map fun x => (x, PTy.real)) ++
      ((decls cs).filter fun p => ¬ p.2 = "Bool").map (fun p => (p.1, if p.2 = "Int" then PTy.int else PTy.real)) ∧
    (∀ p ∈ decls cs, p.2 ∈ ["Bool", "Int", "Real"]) ∧ ((decls cs).map Prod.fst).Nodup ∧
    (∀ x ∈ (decls cs).map Prod.fst, x ∉ A ∧ x ∉ X) ∧ ∀ c ∈ cs, c.decl.isSome ∨ c.term.isSome := by
  unfold parseSmtlib at h
  split at h
  · cases h
  rename_i S hS
  split at h
  · cases h
  rename_i f hf
  cases h
  have hI : ScriptInv K A X (declKind A X cs) cs S := by
    simpa using sScript_ok (K := K) cs [] har (by simpa using init_ok A X cs) hS
  obtain ⟨f1, f2⟩ := pAnd_stands hI.support hf
  obtain ⟨g1, g2⟩ := hs f _ f1
  refine ⟨⟨g1, fun σ => ⟨(f2 σ).1, by rw [g2]; exact (f2 σ).2⟩⟩, ?_, ?_, hI.bools, hI.reals, hI.sorts, hI.nodup, hI.fresh, hI.known⟩
  · have hw := hI.weight
    dsimp only
    cases hq : S.weight with
    | none =>
      rw [hq] at hw
      obtain ⟨w1, w2⟩ := hs (.realC 1) .real rfl
      exact ⟨w1, .inl ⟨hw, fun σ => by rw [Option.getD_none, w2]; simp [Pt.den]⟩⟩
    | some p =>
      rw [hq] at hw
      obtain ⟨t, v, h1, h2, h3⟩ := hw
      obtain ⟨w1, w2⟩ := hs p .real h2.ty
      exact ⟨w1, .inr ⟨t, h1, fun σ => by rw [h3, Option.getD_some, w2, h2.den]⟩⟩
  · refine hI.queries.imp fun t p h => ?_
    obtain ⟨ty, v, h1, h2⟩ := h
    exact ⟨by rw [h1.ty]; rfl, fun σ => by rw [h2, h1.den]⟩
end

end Pywmi