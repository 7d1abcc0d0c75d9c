import Verif.Props.Smtlib

set_option linter.unusedSectionVars false
set_option linter.unusedSimpArgs false

/-!
# C70: which SMT-LIB files are read
-/

namespace Pywmi

/-! ### Specification: sorts -/

/-- SPEC: the sort of a result of arithmetic on two numbers: an integer only if both are. -/
def joinSort : PTy → PTy → Option PTy
  | .int, .int => some .int
  | .real, .int => some .real
  | .int, .real => some .real
  | .real, .real => some .real
  | _, _ => none

/-- SPEC: the sort of a sum or product: at least two numbers, all of the same sort, or a real among the first two. -/
def sumSort : List PTy → Option PTy
  | a :: b :: ts => (joinSort a b).bind fun t => if ts.all (fun u => u = t ∨ (t = .real ∧ u = .int)) then some t else none
  | _ => none

/-- SPEC: the sorts of the operators. -/
def opSort (op : String) (ts : List PTy) : Option PTy :=
  if op = "=" then match ts with
    | [.bool, .bool] => some .bool
    | [a, b] => (joinSort a b).map fun _ => .bool
    | _ => none
  else if op ∈ [">", ">=", "<", "<="] then match ts with
    | [a, b] => (joinSort a b).map fun _ => .bool
    | _ => none
  else if op = "=>" then if ts = [.bool, .bool] then some .bool else none
  else if op ∈ ["+", "*"] then sumSort ts
  else if op = "-" then match ts with
    | [.int] => some .int
    | [.real] => some .real
    | [a, b] => joinSort a b
    | _ => none
  else if op = "/" then match ts with
    | [a, b] => (joinSort a b).map fun _ => .real
    | _ => none
  else if op ∈ ["and", "or"] then if 2 ≤ ts.length ∧ ∀ t ∈ ts, t = .bool then some .bool else none
  else if op = "not" then if ts = [.bool] then some .bool else none
  else if op = "ite" then match ts with
    | [.bool, .bool, .bool] => some .bool
    | [.bool, a, b] => joinSort a b
    | _ => none
  else none

/-- SPEC: the literal zero. -/
def zeroLit : STerm → Bool
  | .numeral n => n = 0
  | .decimal q => q = 0
  | .hex n => n = 0
  | .bin n => n = 0
  | _ => false

mutual
/-- SPEC: the sort of a term whose variables are Booleans and reals; a division by the literal zero has none. -/
def sSort (D : String → Option Bool) : STerm → Option PTy
  | .numeral _ => some .int
  | .decimal _ => some .real
  | .hex _ => some .int
  | .bin _ => some .int
  | .ident (.name x) => (D x).map fun k => if k then .bool else .real
  | .ident (.predef s) => if s = "true" ∨ s = "false" then some .bool else none
  | .app (.name op) ts => if op = "/" ∧ ts.getLast?.any zeroLit then none else (sSorts D ts).bind (opSort op)
  | .app (.predef op) ts => if op = "not" then (sSorts D ts).bind (opSort op) else none
  | _ => none
/-- SPEC: the sorts of a list of terms. -/
def sSorts (D : String → Option Bool) : List STerm → Option (List PTy)
  | [] => some []
  | t :: ts => (sSort D t).bind fun v => (sSorts D ts).map (v :: ·)
end

/-- SPEC: what a list of declarations says about a name. -/
def lookupDecl (D : List (String × Bool)) (x : String) : Option Bool := (D.find? fun p => p.1 = x).map Prod.snd

/-- SPEC: the two sorts of variables of a model for WMI. -/
def wmiSort : SSort → Option Bool
  | .ident (.predef s) => if s = "Bool" then some true else none
  | .ident (.name s) => if s = "Bool" then some true else if s = "Real" then some false else none
  | _ => none

/-- SPEC: well-formed scripts: every name is declared once and before its use, asserted terms and queries are Boolean, there is at
most one weight, and it is a number. -/
def scriptOk (D : List (String × Bool)) (w : Bool) : List SCmd → Prop
  | [] => True
  | .assert t :: cs => sSort (lookupDecl D) t = some .bool ∧ scriptOk D w cs
  | .query t :: cs => sSort (lookupDecl D) t = some .bool ∧ scriptOk D w cs
  | .weight t :: cs => w = false ∧ (sSort (lookupDecl D) t = some .real ∨ sSort (lookupDecl D) t = some .int) ∧ scriptOk D true cs
  | .declareConst (.name x) s :: cs => lookupDecl D x = none ∧ ∃ k, wmiSort s = some k ∧ scriptOk (D ++ [(x, k)]) w cs
  | .declareFun (.name x) [] s :: cs => lookupDecl D x = none ∧ ∃ k, wmiSort s = some k ∧ scriptOk (D ++ [(x, k)]) w cs
  | _ => False

/-! ### Terms -/

/-- The terms that are not the constant zero. -/
def NotZero (p : Pt) : Prop := p ≠ .realC 0 ∧ p ≠ .intC 0

/-- The table agrees with the declarations, and there are no integers in it. -/
def TableT (D : String → Option Bool) (T : STable) : Prop :=
  ∀ x, match D x with
    | none => T.get x = none
    | some k => T.get x = some ⟨.sym x (if k then .bool else .real), if k then .bool else .real⟩

/-- A result of a sort. -/
def Typed (T : STable) (τ : PTy) (r : SRes) : Prop := ∃ e, r.get T = .ok e ∧ e.ty = τ ∧ e.value.ty = some τ

theorem TableT.put {D : String → Option Bool} {T : STable} (h : TableT D T) {r : SRes} {e : SEntry} (he : r.get T = .ok e) :
    TableT D (r.put T e).1 := by
  cases r with
  | own e' => exact h
  | symb s => exact h
  | var x =>
    intro y
    have hy := h y
    simp only [SRes.put]
    rw [get_put]
    have hx : T.get x = some e := by
      simp only [SRes.get] at he
      split at he
      · cases he; assumption
      · cases he
    by_cases hxy : y = x
    · subst hxy
      simp only [hx, Option.isSome_some, and_self, if_true] at hy ⊢
      exact hy
    · simp only [hxy, false_and, if_false]
      exact hy

/-- Two tables with the same entries. -/
def SameGet (T T' : STable) : Prop := ∀ x, T'.get x = T.get x

theorem TableT.same {D : String → Option Bool} {T T' : STable} (h : TableT D T) (h' : TableT D T') : SameGet T T' := by
  intro x
  have h1 := h x
  have h2 := h' x
  cases hd : D x with
  | none => rw [hd] at h1 h2; rw [h1, h2]
  | some k => rw [hd] at h1 h2; rw [h1, h2]

theorem Typed.mono {T T' : STable} {τ : PTy} {r : SRes} (h : Typed T τ r) (hs : SameGet T T') : Typed T' τ r := by
  obtain ⟨e, h1, h2⟩ := h
  refine ⟨e, ?_, h2⟩
  cases r with
  | var x => simpa [SRes.get, hs x] using h1
  | own e => exact h1
  | symb s => exact h1

theorem get_mono {T T' : STable} {r : SRes} (hs : SameGet T T') : r.get T' = r.get T := by
  cases r with
  | var x => simp [SRes.get, hs x]
  | own e => rfl
  | symb s => rfl

/-- An integer is never an entry of the table. -/
theorem Typed.own {D : String → Option Bool} {T : STable} (hT : TableT D T) {r : SRes} (h : Typed T .int r) : ∃ e, r = .own e := by
  obtain ⟨e, h1, h2, h3⟩ := h
  cases r with
  | own e' => exact ⟨e', rfl⟩
  | symb s => cases h1
  | var x =>
    exfalso
    have hx := hT x
    simp only [SRes.get] at h1
    split at h1
    · rename_i e' he'
      cases h1
      cases hd : D x with
      | none => rw [hd] at hx; rw [hx] at he'; cases he'
      | some k =>
        rw [hd] at hx
        simp only at hx
        rw [hx] at he'
        cases he'
        cases k <;> cases h2
    · cases h1

theorem pToReal_real {p : Pt} (h : p.ty = some .real) : pToReal p = .ok p := by unfold pToReal; rw [h]

theorem pToReal_nz {p q : Pt} (h : pToReal p = .ok q) (hp : NotZero p) : NotZero q := by
  unfold pToReal at h
  split at h
  · cases h; exact hp
  · split at h
    · cases h
      rename_i z _ _
      refine ⟨?_, by simp⟩
      intro h
      simp only [Pt.realC.injEq, Int.cast_eq_zero] at h
      exact hp.2 (by rw [h])
    · obtain ⟨rfl, _⟩ := pNode_ok h
      exact ⟨by simp, by simp⟩
  · cases h

/-- `_cast` on two terms of which one sort is the other or becomes it. -/
theorem castS_accepts {D : String → Option Bool} {T : STable} (hT : TableT D T) {a b : SRes} {ta tb τ : PTy} (ha : Typed T ta a) (hb : Typed T tb b)
    (hj : (ta = tb ∧ τ = ta) ∨ joinSort ta tb = some τ) :
    ∃ T' a' b', castS T a b = .ok (some (T', a', b')) ∧ TableT D T' ∧ Typed T' τ a' ∧ Typed T' τ b' ∧
      ((∀ e, b.get T = .ok e → NotZero e.value) → ∀ e, b'.get T' = .ok e → NotZero e.value) := by
  obtain ⟨ea, a1, a2, a3⟩ := ha
  obtain ⟨eb, b1, b2, b3⟩ := hb
  unfold castS
  simp only [a1, b1]
  by_cases he : ea.ty = eb.ty
  · rw [if_pos he]
    have : τ = ta := by
      rcases hj with ⟨_, h⟩ | h
      · exact h
      · rw [← a2, ← b2, ← he] at h
        rw [← a2]
        generalize ea.ty = x at h
        cases x <;> simp [joinSort] at h <;> exact h.symm
    refine ⟨T, a, b, rfl, hT, ⟨ea, a1, by rw [a2, this], by rw [a3, this]⟩, ⟨eb, b1, by rw [← he, a2, this], ?_⟩, fun h e h' => h e (by rw [← b1, h'])⟩
    rw [b3, ← b2, ← he, a2, this]
  · rw [if_neg he]
    have hne : ta ≠ tb := by rw [← a2, ← b2]; exact he
    have hj' : joinSort ta tb = some τ := by
      rcases hj with ⟨h, _⟩ | h
      · exact absurd h hne
      · exact h
    have hcase : (ta = .real ∧ tb = .int ∧ τ = .real) ∨ (ta = .int ∧ tb = .real ∧ τ = .real) := by
      cases ta <;> cases tb <;> simp_all [joinSort]
    rcases hcase with ⟨rfl, rfl, rfl⟩ | ⟨rfl, rfl, rfl⟩
    · rw [if_pos (.inl ⟨a2, b2⟩)]
      obtain ⟨q, hq, hqt⟩ := pToReal_ok (by simp) b3
      simp only [pToReal_real a3, hq]
      obtain ⟨b0, rfl⟩ := Typed.own hT ⟨eb, b1, b2, b3⟩
      have hea : (⟨ea.value, .real⟩ : SEntry) = ea := by rw [← a2]
      have hT' : TableT D (a.put T ⟨ea.value, .real⟩).1 := by rw [hea]; exact hT.put a1
      refine ⟨_, _, _, rfl, hT', ?_, ⟨_, rfl, rfl, hqt⟩, ?_⟩
      · cases a with
        | own e' => exact ⟨_, rfl, rfl, a3⟩
        | symb s => cases a1
        | var x => exact Typed.mono (r := .var x) ⟨ea, a1, a2, a3⟩ (hT.same hT')
      · intro h e he'
        cases he'
        exact pToReal_nz hq (h eb rfl)
    · rw [if_pos (.inr ⟨a2, b2⟩)]
      obtain ⟨q, hq, hqt⟩ := pToReal_ok (by simp) a3
      simp only [pToReal_real b3, hq]
      obtain ⟨a0, rfl⟩ := Typed.own hT ⟨ea, a1, a2, a3⟩
      have heb : (⟨eb.value, .real⟩ : SEntry) = eb := by rw [← b2]
      have hT' : TableT D (b.put T ⟨eb.value, .real⟩).1 := by rw [heb]; exact hT.put b1
      refine ⟨_, _, _, rfl, hT', ⟨_, rfl, rfl, hqt⟩, ?_, ?_⟩
      · cases b with
        | own e' => exact ⟨_, rfl, rfl, b3⟩
        | symb s => cases b1
        | var x => exact Typed.mono (r := .var x) ⟨eb, b1, b2, b3⟩ (hT.same hT')
      · intro h e he'
        have hnz := h eb rfl
        cases b with
        | own e' => cases he'; exact hnz
        | symb s => cases b1
        | var x =>
          have hsame := get_mono (r := .var x) (hT.same hT')
          rw [b1] at hsame
          have : (Except.ok eb : Except PyErr SEntry) = .ok e := hsame.symm.trans he'
          cases this
          exact hnz

/-- What is to be shown of a term. -/
def Accepted (D : String → Option Bool) (t : STerm) : Prop :=
  ∀ T τ, TableT D T → sSort D t = some τ → ∃ r T', sTerm T t = .ok (r, T') ∧ TableT D T' ∧ Typed T' τ r ∧
    (zeroLit t = false → ∀ e, r.get T' = .ok e → NotZero e.value)

theorem Typed.notSymb {T : STable} {τ : PTy} {r : SRes} (h : Typed T τ r) (s : String) : r ≠ .symb s := by
  rintro rfl
  obtain ⟨e, h, _⟩ := h
  cases h

/-- One step of the loop over the children. -/
theorem sTerms_cons {T T1 : STable} {op : String} {acc : List SRes} {t : STerm} {ts : List STerm} {r : SRes}
    (h : sTerm T t = .ok (r, T1)) (hr : ∀ s, r ≠ .symb s) :
    sTerms T op acc (t :: ts) = match acc with
      | [] => sTerms T1 op [r] ts
      | l :: acc' =>
        if op ∈ sameTypeOps then
          match castS T1 l r with
          | .error e => .error e
          | .ok none => .error .parseError
          | .ok (some (T2, l', r')) => sTerms T2 op (r' :: l' :: acc') ts
        else sTerms T1 op (r :: l :: acc') ts := by
  cases r with
  | symb s => exact absurd rfl (hr s)
  | var x => simp only [sTerms, h]; cases acc <;> rfl
  | own e => simp only [sTerms, h]; cases acc <;> rfl

/-- The loop, once the sort is settled. -/
theorem loop_same {D : String → Option Bool} {op : String} (hop : op ∈ sameTypeOps) {τ : PTy} :
    ∀ (ts : List STerm) (acc : List SRes) (T : STable), (∀ t ∈ ts, Accepted D t) → TableT D T → acc ≠ [] → (∀ r ∈ acc, Typed T τ r) →
      (∀ t ∈ ts, ∃ u, sSort D t = some u ∧ (u = τ ∨ (τ = .real ∧ u = .int))) →
      ∃ rs T', sTerms T op acc ts = .ok (rs, T') ∧ TableT D T' ∧ (∀ r ∈ rs, Typed T' τ r) ∧ rs.length = acc.length + ts.length
  | [], acc, T, _, hT, _, ha, _ => ⟨acc.reverse, T, rfl, hT, fun r hr => ha r (by simpa using hr), by simp⟩
  | t :: ts, acc, T, hacc, hT, hne, ha, hs => by
    obtain ⟨u, hu, hc⟩ := hs t List.mem_cons_self
    obtain ⟨r, T1, h1, h2, h3, _⟩ := hacc t List.mem_cons_self T u hT hu
    rw [sTerms_cons h1 h3.notSymb]
    cases acc with
    | nil => exact absurd rfl hne
    | cons l acc' =>
      dsimp only
      rw [if_pos hop]
      have ha1 : ∀ r ∈ l :: acc', Typed T1 τ r := fun r hr => (ha r hr).mono (hT.same h2)
      obtain ⟨T2, l', r', k1, k2, k3, k4, _⟩ := castS_accepts (τ := τ) h2 (ha1 l List.mem_cons_self) h3 (by
        rcases hc with rfl | ⟨rfl, rfl⟩
        · exact .inl ⟨rfl, rfl⟩
        · exact .inr rfl)
      rw [k1]
      dsimp only
      obtain ⟨rs, T', j1, j2, j3, j4⟩ := loop_same hop ts (r' :: l' :: acc') T2 (fun t ht => hacc t (List.mem_cons_of_mem _ ht)) k2 (by simp)
        (by
          intro x hx
          rcases List.mem_cons.mp hx with rfl | hx
          · exact k4
          · rcases List.mem_cons.mp hx with rfl | hx
            · exact k3
            · exact (ha1 x (List.mem_cons_of_mem _ hx)).mono (h2.same k2))
        (fun t ht => hs t (List.mem_cons_of_mem _ ht))
      exact ⟨rs, T', j1, j2, j3, by rw [j4]; simp; omega⟩

theorem sSorts_cons {D : String → Option Bool} {ts : List STerm} {τ : PTy} {τs : List PTy} (h : sSorts D ts = some (τ :: τs)) :
    ∃ t ts', ts = t :: ts' ∧ sSort D t = some τ ∧ sSorts D ts' = some τs := by
  cases ts with
  | nil => cases h
  | cons t ts =>
    refine ⟨t, ts, rfl, ?_⟩
    simp only [sSorts] at h
    cases h1 : sSort D t with
    | none => rw [h1] at h; cases h
    | some v =>
      cases h2 : sSorts D ts with
      | none => rw [h1, h2] at h; cases h
      | some vs => rw [h1, h2] at h; cases h; exact ⟨rfl, rfl⟩

theorem sSorts_nil {D : String → Option Bool} {ts : List STerm} (h : sSorts D ts = some []) : ts = [] := by
  cases ts with
  | nil => rfl
  | cons t ts =>
    simp only [sSorts] at h
    cases h1 : sSort D t with
    | none => rw [h1] at h; cases h
    | some v =>
      cases h2 : sSorts D ts with
      | none => rw [h1, h2] at h; cases h
      | some vs => rw [h1, h2] at h; cases h

theorem sSorts_mem {D : String → Option Bool} : ∀ {ts : List STerm} {τs : List PTy}, sSorts D ts = some τs →
    ts.length = τs.length ∧ ∀ t ∈ ts, ∃ u ∈ τs, sSort D t = some u
  | [], τs, h => by cases h; simp
  | t :: ts, τs, h => by
    simp only [sSorts] at h
    cases h1 : sSort D t with
    | none => rw [h1] at h; cases h
    | some v =>
      cases h2 : sSorts D ts with
      | none => rw [h1, h2] at h; cases h
      | some vs =>
        rw [h1, h2] at h; cases h
        obtain ⟨i1, i2⟩ := sSorts_mem h2
        refine ⟨by simp [i1], fun t' ht' => ?_⟩
        rcases List.mem_cons.mp ht' with rfl | ht'
        · exact ⟨v, by simp, h1⟩
        · obtain ⟨u, hu, h⟩ := i2 t' ht'
          exact ⟨u, by simp [hu], h⟩

/-- Two or more children of an operator that unifies sorts. -/
theorem loop_many {D : String → Option Bool} {op : String} (hop : op ∈ sameTypeOps) {τ τa τb : PTy} {ta tb : STerm} {ts : List STerm}
    {T : STable} (hacc : ∀ t ∈ ta :: tb :: ts, Accepted D t) (hT : TableT D T) (ha : sSort D ta = some τa) (hb : sSort D tb = some τb)
    (hj : (τa = τb ∧ τ = τa) ∨ joinSort τa τb = some τ)
    (hs : ∀ t ∈ ts, ∃ u, sSort D t = some u ∧ (u = τ ∨ (τ = .real ∧ u = .int))) :
    ∃ rs T', sTerms T op [] (ta :: tb :: ts) = .ok (rs, T') ∧ TableT D T' ∧ (∀ r ∈ rs, Typed T' τ r) ∧ rs.length = 2 + ts.length ∧
      (ts = [] → zeroLit tb = false → ∀ r ∈ rs.getLast?, ∀ e, r.get T' = .ok e → NotZero e.value) := by
  obtain ⟨ra, T1, a1, a2, a3, _⟩ := hacc ta (by simp) T τa hT ha
  obtain ⟨rb, T2, b1, b2, b3, b4⟩ := hacc tb (by simp) T1 τb a2 hb
  rw [sTerms_cons a1 a3.notSymb]
  dsimp only
  rw [sTerms_cons b1 b3.notSymb]
  dsimp only
  rw [if_pos hop]
  obtain ⟨T3, ra', rb', k1, k2, k3, k4, k5⟩ := castS_accepts b2 (a3.mono (a2.same b2)) b3 hj
  rw [k1]
  dsimp only
  obtain ⟨rs, T', j1, j2, j3, j4⟩ := loop_same hop ts [rb', ra'] T3 (fun t ht => hacc t (by simp [ht])) k2 (by simp)
    (by simp [k3, k4]) hs
  refine ⟨rs, T', j1, j2, j3, by rw [j4]; simp, ?_⟩
  rintro rfl hz r hr e he
  cases j1
  simp at hr
  subst hr
  exact k5 (b4 hz) e he

theorem getAll_typed {T : STable} {τ : PTy} : ∀ {rs : List SRes}, (∀ r ∈ rs, Typed T τ r) → ∃ es, getAll T rs = .ok es ∧
    es.length = rs.length ∧ (∀ e ∈ es, e.ty = τ ∧ e.value.ty = some τ) ∧
    ∀ e ∈ es.getLast?, ∃ r ∈ rs.getLast?, r.get T = .ok e
  | [], _ => ⟨[], rfl, rfl, by simp, by simp⟩
  | r :: rs, h => by
    obtain ⟨e, h1, h2, h3⟩ := h r (by simp)
    obtain ⟨es, i1, i2, i3, i4⟩ := getAll_typed (rs := rs) fun r hr => h r (by simp [hr])
    refine ⟨e :: es, by simp [getAll, h1, i1], by simp [i2], ?_, ?_⟩
    · intro x hx
      rcases List.mem_cons.mp hx with rfl | hx
      · exact ⟨h2, h3⟩
      · exact i3 x hx
    · intro x hx
      cases es with
      | nil =>
        have : rs = [] := by simpa using i2.symm
        subst this
        simp at hx
        subst hx
        exact ⟨r, by simp, h1⟩
      | cons y ys =>
        cases rs with
        | nil => simp at i2
        | cons q qs =>
          rw [List.getLast?_cons_cons] at hx ⊢
          exact i4 x hx

theorem pNode_some {p : Pt} {t : PTy} (h : p.ty = some t) : pNode p = .ok p := by simp [pNode, h]

theorem ownRes_some {T : STable} {p : Pt} {t : PTy} : ownRes T t (.ok p) = .ok (.own ⟨p, t⟩, T) := rfl

/-- Results that are new dictionaries. -/
theorem typed_own {D : String → Option Bool} {T : STable} {q : Except PyErr Pt} {p : Pt} {t : PTy} (hT : TableT D T) (hq : q = .ok p) (ht : p.ty = some t)
    (hz : NotZero p) : ∃ r T', ownRes T t q = .ok (r, T') ∧ TableT D T' ∧ Typed T' t r ∧ ∀ e, r.get T' = .ok e → NotZero e.value := by
  subst hq
  exact ⟨_, _, rfl, hT, ⟨_, rfl, rfl, ht⟩, by rintro e he; cases he; exact hz⟩

/-- `Plus` and `Times` of at least two terms of a sort. -/
theorem pPlus_typed {ps : List Pt} {t : PTy} (ht : t ≠ .bool) (hl : 2 ≤ ps.length) (h : ∀ p ∈ ps, p.ty = some t) :
    pPlus ps = .ok (.plus ps) ∧ (Pt.plus ps).ty = some t ∧ pTimes ps = .ok (.times ps) ∧ (Pt.times ps).ty = some t := by
  match ps, hl with
  | a :: b :: ps, _ =>
    have h1 : ∀ u, (Pt.tyAll u (a :: b :: ps) = true) ↔ u = t := by
      intro u
      rw [Pt.tyAll_iff]
      constructor
      · intro hu
        have := hu a (by simp)
        rw [h a (by simp)] at this
        cases this; rfl
      · rintro rfl; exact h
    have h2 : (Pt.plus (a :: b :: ps)).ty = some t := by
      simp only [Pt.ty, h1]
      cases t <;> simp_all
    have h3 : (Pt.times (a :: b :: ps)).ty = some t := by
      simp only [Pt.ty, h1]
      cases t <;> simp_all
    exact ⟨pNode_some h2, h2, pNode_some h3, h3⟩

/-- `And` and `Or` of at least two Booleans. -/
theorem pAnd_typed {ps : List Pt} (hl : 2 ≤ ps.length) (h : ∀ p ∈ ps, p.ty = some .bool) :
    pAnd ps = .ok (.and ps) ∧ (Pt.and ps).ty = some .bool ∧ pOr ps = .ok (.or ps) ∧ (Pt.or ps).ty = some .bool := by
  match ps, hl with
  | a :: b :: ps, _ =>
    have h1 := (Pt.tyAll_iff .bool _).mpr h
    have h2 : (Pt.and (a :: b :: ps)).ty = some .bool := by simp only [Pt.ty, h1, if_true]
    have h3 : (Pt.or (a :: b :: ps)).ty = some .bool := by simp only [Pt.ty, h1, if_true]
    exact ⟨pNode_some h2, h2, pNode_some h3, h3⟩

theorem join_ne {a b t : PTy} (h : joinSort a b = some t) : t ≠ .bool := by
  cases a <;> cases b <;> simp [joinSort] at h <;> subst h <;> simp

theorem notZero_of {p : Pt} {t : PTy} (h : p.ty = some t) (hr : t = .bool) : NotZero p := by
  subst hr
  constructor <;> rintro rfl <;> cases h

/-- An application whose head is a name. -/
theorem sTerm_app {T T' : STable} {s : SSym} {op : String} {ts : List STerm} {rs : List SRes} {es : List SEntry}
    (hs : symVal s = .ok (.inr op)) (h : sTerms T op [] ts = .ok (rs, T')) (he : getAll T' rs = .ok es) :
    sTerm T (.app s ts) = applyS T' op rs es := by
  simp only [sTerm, hs, h, he]

/-- The operators that unify sorts, applied to two or more children. -/
theorem app_same {D : String → Option Bool} {op : String} (hop : op ∈ sameTypeOps) {s : SSym} (hs : symVal s = .ok (.inr op)) {τa τb τ : PTy}
    {ta tb : STerm} {ts : List STerm} {T : STable} (hacc : ∀ t ∈ ta :: tb :: ts, Accepted D t) (hT : TableT D T)
    (ha : sSort D ta = some τa) (hb : sSort D tb = some τb) (hj : (τa = τb ∧ τ = τa) ∨ joinSort τa τb = some τ)
    (hts : ∀ t ∈ ts, ∃ u, sSort D t = some u ∧ (u = τ ∨ (τ = .real ∧ u = .int))) :
    ∃ rs es T', sTerm T (.app s (ta :: tb :: ts)) = applyS T' op rs es ∧ TableT D T' ∧ es.length = 2 + ts.length ∧
      (∀ e ∈ es, e.ty = τ ∧ e.value.ty = some τ) ∧ (ts = [] → zeroLit tb = false → ∀ e ∈ es.getLast?, NotZero e.value) := by
  obtain ⟨rs, T', h1, h2, h3, h4, h5⟩ := loop_many hop hacc hT ha hb hj hts
  obtain ⟨es, i1, i2, i3, i4⟩ := getAll_typed h3
  refine ⟨rs, es, T', sTerm_app hs h1 i1, h2, by rw [i2, h4], i3, ?_⟩
  intro hn hz e he
  obtain ⟨r, hr, hre⟩ := i4 e he
  exact h5 hn hz r hr e hre

theorem two_of {es : List SEntry} (h : es.length = 2 + ([] : List STerm).length) : ∃ a b, es = [a, b] := by
  match es, h with
  | [a, b], _ => exact ⟨a, b, rfl⟩

theorem app_two {D : String → Option Bool} {op : String} (hop : op ∈ sameTypeOps) {s : SSym} (hs : symVal s = .ok (.inr op)) {τa τb τ : PTy}
    {ta tb : STerm} {T : STable} (hacc : ∀ t ∈ [ta, tb], Accepted D t) (hT : TableT D T)
    (ha : sSort D ta = some τa) (hb : sSort D tb = some τb) (hj : (τa = τb ∧ τ = τa) ∨ joinSort τa τb = some τ) :
    ∃ rs a b T', sTerm T (.app s [ta, tb]) = applyS T' op rs [a, b] ∧ TableT D T' ∧ a.ty = τ ∧ b.ty = τ ∧
      a.value.ty = some τ ∧ b.value.ty = some τ ∧ (zeroLit tb = false → NotZero b.value) := by
  obtain ⟨rs, es, T', h1, h2, h3, h4, h5⟩ := app_same hop hs (ts := []) hacc hT ha hb hj (by simp)
  obtain ⟨a, b, rfl⟩ := two_of h3
  exact ⟨rs, a, b, T', h1, h2, (h4 a (by simp)).1, (h4 b (by simp)).1, (h4 a (by simp)).2, (h4 b (by simp)).2,
    fun hz => h5 rfl hz b (by simp)⟩

/-- A single child. -/
theorem app_one {D : String → Option Bool} {op : String} {s : SSym} (hs : symVal s = .ok (.inr op)) {τ : PTy} {t : STerm} {T : STable}
    (hacc : Accepted D t) (hT : TableT D T) (ht : sSort D t = some τ) :
    ∃ rs a T', sTerm T (.app s [t]) = applyS T' op rs [a] ∧ TableT D T' ∧ a.ty = τ ∧ a.value.ty = some τ := by
  obtain ⟨r, T1, h1, h2, h3, _⟩ := hacc T τ hT ht
  have : sTerms T op [] [t] = .ok ([r], T1) := by
    rw [sTerms_cons h1 h3.notSymb]
    rfl
  obtain ⟨e, k1, k2, k3⟩ := h3
  exact ⟨[r], e, T1, sTerm_app hs this (by simp [getAll, k1]), h2, k2, k3⟩

theorem sorts_two {D : String → Option Bool} {ts : List STerm} {a b : PTy} (h : sSorts D ts = some [a, b]) :
    ∃ ta tb, ts = [ta, tb] ∧ sSort D ta = some a ∧ sSort D tb = some b := by
  obtain ⟨ta, ts1, rfl, ha, h⟩ := sSorts_cons h
  obtain ⟨tb, ts2, rfl, hb, h⟩ := sSorts_cons h
  obtain rfl := sSorts_nil h
  exact ⟨ta, tb, rfl, ha, hb⟩

theorem sorts_one {D : String → Option Bool} {ts : List STerm} {a : PTy} (h : sSorts D ts = some [a]) :
    ∃ ta, ts = [ta] ∧ sSort D ta = some a := by
  obtain ⟨ta, ts1, rfl, ha, h⟩ := sSorts_cons h
  obtain rfl := sSorts_nil h
  exact ⟨ta, rfl, ha⟩

theorem rel_ty {l r : Pt} {t : PTy} (ht : t ≠ .bool) (hl : l.ty = some t) (hr : r.ty = some t) :
    (Pt.equals l r).ty = some .bool ∧ (Pt.le l r).ty = some .bool ∧ (Pt.lt l r).ty = some .bool := by
  cases t with
  | bool => exact absurd rfl ht
  | int => simp [Pt.ty, hl, hr]
  | real => simp [Pt.ty, hl, hr]

/-- Applications of operators to terms of the right sorts are read. -/
theorem app_accepts {D : String → Option Bool} {s : SSym} {op : String} {ts : List STerm} {τs : List PTy} {τ : PTy} {T : STable}
    (hs : symVal s = .ok (.inr op)) (hacc : ∀ t ∈ ts, Accepted D t) (hT : TableT D T) (hτs : sSorts D ts = some τs)
    (hop : opSort op τs = some τ) (hz : op = "/" → ts.getLast?.any zeroLit = false) :
    ∃ r T', sTerm T (.app s ts) = .ok (r, T') ∧ TableT D T' ∧ Typed T' τ r ∧ ∀ e, r.get T' = .ok e → NotZero e.value := by
  unfold opSort at hop
  by_cases h : op = "="
  · rw [if_pos h] at hop; subst h
    split at hop
    · cases hop
      obtain ⟨ta, tb, rfl, ha, hb⟩ := sorts_two hτs
      obtain ⟨rs, a, b, T', e1, e2, _, _, e3, e4, _⟩ := app_two (by simp [sameTypeOps]) hs hacc hT ha hb (.inl ⟨rfl, rfl⟩)
      rw [e1]
      have : (Pt.iff a.value b.value).ty = some .bool := by simp [Pt.ty, e3, e4]
      unfold applyS
      simp only [if_true]
      exact typed_own e2 (by simp [pEqualsOrIff, e3, pNode_some this]) this (notZero_of this rfl)
    · rename_i a b _
      obtain ⟨ta, tb, rfl, ha, hb⟩ := sorts_two hτs
      obtain ⟨t, hj, rfl⟩ := Option.map_eq_some_iff.mp hop
      obtain ⟨rs, a, b, T', e1, e2, _, _, e3, e4, _⟩ := app_two (by simp [sameTypeOps]) hs hacc hT ha hb (.inr hj)
      rw [e1]
      have := (rel_ty (join_ne hj) e3 e4).1
      unfold applyS
      simp only [if_true]
      refine typed_own e2 ?_ this (notZero_of this rfl)
      have hb : ¬ a.value.ty = some .bool := by rw [e3]; simpa using join_ne hj
      simp [pEqualsOrIff, hb, pNode_some this]
    · cases hop
  rw [if_neg h] at hop; clear h
  by_cases h : op ∈ [">", ">=", "<", "<="]
  · rw [if_pos h] at hop
    split at hop
    · obtain ⟨ta, tb, rfl, ha, hb⟩ := sorts_two hτs
      obtain ⟨t, hj, rfl⟩ := Option.map_eq_some_iff.mp hop
      have hsame : op ∈ sameTypeOps := by
        simp only [List.mem_cons, List.not_mem_nil, or_false] at h
        rcases h with rfl | rfl | rfl | rfl <;> simp [sameTypeOps]
      obtain ⟨rs, a, b, T', e1, e2, _, _, e3, e4, _⟩ := app_two hsame hs hacc hT ha hb (.inr hj)
      rw [e1]
      have h1 := rel_ty (join_ne hj) e3 e4
      have h2 := rel_ty (join_ne hj) e4 e3
      simp only [List.mem_cons, List.not_mem_nil, or_false] at h
      rcases h with rfl | rfl | rfl | rfl
      · unfold applyS; simpa using typed_own e2 (pNode_some h2.2.2) h2.2.2 (notZero_of h2.2.2 rfl)
      · unfold applyS; simpa using typed_own e2 (pNode_some h2.2.1) h2.2.1 (notZero_of h2.2.1 rfl)
      · unfold applyS; simpa using typed_own e2 (pNode_some h1.2.2) h1.2.2 (notZero_of h1.2.2 rfl)
      · unfold applyS; simpa using typed_own e2 (pNode_some h1.2.1) h1.2.1 (notZero_of h1.2.1 rfl)
    · cases hop
  rw [if_neg h] at hop; clear h
  by_cases h : op = "=>"
  · rw [if_pos h] at hop; subst h
    split at hop
    · rename_i hl; subst hl
      cases hop
      obtain ⟨ta, tb, rfl, ha, hb⟩ := sorts_two hτs
      obtain ⟨rs, a, b, T', e1, e2, _, _, e3, e4, _⟩ := app_two (by simp [sameTypeOps]) hs hacc hT ha hb (.inl ⟨rfl, rfl⟩)
      rw [e1]
      have : (Pt.implies a.value b.value).ty = some .bool := by simp [Pt.ty, e3, e4]
      unfold applyS; simpa using typed_own e2 (pNode_some this) this (notZero_of this rfl)
    · cases hop
  rw [if_neg h] at hop; clear h
  by_cases h : op ∈ ["+", "*"]
  · rw [if_pos h] at hop
    match τs, hτs, hop with
    | a :: b :: τs, hτs, hop =>
      simp only [sumSort] at hop
      obtain ⟨t, hj, hop⟩ := Option.bind_eq_some_iff.mp hop
      split at hop
      · rename_i hall
        cases hop
        obtain ⟨ta, ts1, rfl, ha, hτs⟩ := sSorts_cons hτs
        obtain ⟨tb, ts2, rfl, hb, hτs⟩ := sSorts_cons hτs
        have hts : ∀ t ∈ ts2, ∃ u, sSort D t = some u ∧ (u = τ ∨ (τ = .real ∧ u = .int)) := by
          intro t' ht'
          obtain ⟨u, hu, h'⟩ := (sSorts_mem hτs).2 t' ht'
          exact ⟨u, h', by simpa using List.all_eq_true.mp hall u hu⟩
        have hsame : op ∈ sameTypeOps := by
          simp only [List.mem_cons, List.not_mem_nil, or_false] at h
          rcases h with rfl | rfl <;> simp [sameTypeOps]
        obtain ⟨rs, es, T', e1, e2, e3, e4, _⟩ := app_same hsame hs hacc hT ha hb (.inr hj) hts
        rw [e1]
        match es, e3, e4 with
        | [], e3, _ => exact absurd e3 (by simp; omega)
        | x :: es, e3, e4 =>
          obtain ⟨p1, p2, p3, p4⟩ := pPlus_typed (ps := (x :: es).map SEntry.value) (t := τ) (join_ne hj) (by simp at e3 ⊢; omega)
            (by intro p hp; obtain ⟨e, he, rfl⟩ := List.mem_map.mp hp; exact (e4 e he).2)
          have hx : x.ty = τ := (e4 x (by simp)).1
          simp only [List.mem_cons, List.not_mem_nil, or_false] at h
          rcases h with rfl | rfl
          · have := typed_own e2 p1 p2 ⟨by simp, by simp⟩
            unfold applyS; simpa [hx] using this
          · have := typed_own e2 p3 p4 ⟨by simp, by simp⟩
            unfold applyS; simpa [hx] using this
      · cases hop
    | [], _, hop => cases hop
    | [_], _, hop => cases hop
  rw [if_neg h] at hop; clear h
  by_cases h : op = "-"
  · rw [if_pos h] at hop; subst h
    split at hop
    · cases hop
      obtain ⟨ta, rfl, ha⟩ := sorts_one hτs
      obtain ⟨rs, a, T', e1, e2, e3, e4⟩ := app_one hs (hacc ta (by simp)) hT ha
      rw [e1]
      obtain ⟨_, _, p3, p4⟩ := pPlus_typed (ps := [a.value, .intC (-1)]) (t := .int) (by simp) (by simp) (by simp [e4, Pt.ty])
      unfold applyS; simpa [e3] using typed_own e2 p3 p4 ⟨by simp, by simp⟩
    · cases hop
      obtain ⟨ta, rfl, ha⟩ := sorts_one hτs
      obtain ⟨rs, a, T', e1, e2, e3, e4⟩ := app_one hs (hacc ta (by simp)) hT ha
      rw [e1]
      obtain ⟨_, _, p3, p4⟩ := pPlus_typed (ps := [a.value, .realC (-1)]) (t := .real) (by simp) (by simp) (by simp [e4, Pt.ty])
      unfold applyS; simpa [e3] using typed_own e2 p3 p4 ⟨by simp, by simp⟩
    · obtain ⟨ta, tb, rfl, ha, hb⟩ := sorts_two hτs
      obtain ⟨rs, a, b, T', e1, e2, e5, _, e3, e4, _⟩ := app_two (by simp [sameTypeOps]) hs hacc hT ha hb (.inr hop)
      rw [e1]
      have hty : (Pt.minus a.value b.value).ty = some τ := by
        have := join_ne hop
        cases τ <;> simp_all [Pt.ty]
      unfold applyS; simpa [e5] using typed_own e2 (pNode_some hty) hty ⟨by simp, by simp⟩
    · cases hop
  rw [if_neg h] at hop; clear h
  by_cases h : op = "/"
  · rw [if_pos h] at hop; subst h
    split at hop
    · obtain ⟨ta, tb, rfl, ha, hb⟩ := sorts_two hτs
      obtain ⟨t, hj, rfl⟩ := Option.map_eq_some_iff.mp hop
      obtain ⟨rs, a, b, T', e1, e2, _, _, e3, e4, e5⟩ := app_two (by simp [sameTypeOps]) hs hacc hT ha hb (.inr hj)
      rw [e1]
      have hnz := e5 (by simpa using hz rfl)
      obtain ⟨va, h1, h2⟩ := pToReal_ok (join_ne hj) e3
      obtain ⟨vb, h3, h4⟩ := pToReal_ok (join_ne hj) e4
      have h5 := pToReal_nz h3 hnz
      have hdiv : ∃ p, pDiv va vb = .ok p ∧ p.ty = some .real ∧ NotZero p := by
        unfold pDiv
        split
        · rename_i q
          have hq : q ≠ 0 := by rintro rfl; exact h5.1 rfl
          rw [if_neg hq]
          obtain ⟨_, _, p3, p4⟩ := pPlus_typed (ps := [va, .realC q⁻¹]) (t := .real) (by simp) (by simp) (by simp [h2, Pt.ty])
          exact ⟨_, p3, p4, ⟨by simp, by simp⟩⟩
        · have : (Pt.div va vb).ty = some .real := by simp [Pt.ty, h2, h4]
          exact ⟨_, pNode_some this, this, ⟨by simp, by simp⟩⟩
      obtain ⟨p, p1, p2, p3⟩ := hdiv
      unfold applyS; simpa [h1, h3] using typed_own e2 p1 p2 p3
    · cases hop
  rw [if_neg h] at hop; clear h
  by_cases h : op ∈ ["and", "or"]
  · rw [if_pos h] at hop
    split at hop
    · rename_i hl
      cases hop
      obtain ⟨hlen, hmem⟩ := sSorts_mem hτs
      have hall : ∀ t ∈ ts, sSort D t = some .bool := by
        intro t ht
        obtain ⟨u, hu, h'⟩ := hmem t ht
        rw [h', hl.2 u hu]
      match ts, hlen, hall, hacc with
      | [], hlen, _, _ => simp at hlen; omega
      | [_], hlen, _, _ => simp at hlen; omega
      | ta :: tb :: ts, hlen, hall, hacc =>
        have hsame : op ∈ sameTypeOps := by
          simp only [List.mem_cons, List.not_mem_nil, or_false] at h
          rcases h with rfl | rfl <;> simp [sameTypeOps]
        obtain ⟨rs, es, T', e1, e2, e3, e4, _⟩ := app_same hsame hs hacc hT (hall ta (by simp)) (hall tb (by simp)) (.inl ⟨rfl, rfl⟩)
          (fun t ht => ⟨.bool, hall t (by simp [ht]), .inl rfl⟩)
        rw [e1]
        obtain ⟨p1, p2, p3, p4⟩ := pAnd_typed (ps := es.map SEntry.value) (by simp at e3 ⊢; omega)
          (by intro p hp; obtain ⟨e, he, rfl⟩ := List.mem_map.mp hp; exact (e4 e he).2)
        simp only [List.mem_cons, List.not_mem_nil, or_false] at h
        rcases h with rfl | rfl
        · unfold applyS; simpa using typed_own e2 p1 p2 ⟨by simp, by simp⟩
        · unfold applyS; simpa using typed_own e2 p3 p4 ⟨by simp, by simp⟩
    · cases hop
  rw [if_neg h] at hop; clear h
  by_cases h : op = "not"
  · rw [if_pos h] at hop; subst h
    split at hop
    · rename_i hl; subst hl
      cases hop
      obtain ⟨ta, rfl, ha⟩ := sorts_one hτs
      obtain ⟨rs, a, T', e1, e2, e3, e4⟩ := app_one hs (hacc ta (by simp)) hT ha
      rw [e1]
      have : ∃ p, pNot a.value = .ok p ∧ p.ty = some .bool := by
        unfold pNot
        split
        · rename_i q hq
          rw [hq] at e4
          simp only [Pt.ty] at e4
          split at e4
          · exact ⟨_, rfl, by assumption⟩
          · cases e4
        · have : (Pt.not a.value).ty = some .bool := by simp [Pt.ty, e4]
          exact ⟨_, pNode_some this, this⟩
      obtain ⟨p, p1, p2⟩ := this
      unfold applyS; simpa using typed_own e2 p1 p2 (notZero_of p2 rfl)
    · cases hop
  rw [if_neg h] at hop; clear h
  by_cases h : op = "ite"
  · rw [if_pos h] at hop; subst h
    have key : ∃ a b, τs = [.bool, a, b] ∧ ((a = b ∧ τ = a) ∨ joinSort a b = some τ) := by
      split at hop
      · cases hop; exact ⟨_, _, rfl, .inl ⟨rfl, rfl⟩⟩
      · exact ⟨_, _, rfl, .inr hop⟩
      · cases hop
    obtain ⟨a, b, rfl, hj⟩ := key
    obtain ⟨tc, ts1, rfl, hc, h1⟩ := sSorts_cons hτs
    obtain ⟨ta, tb, rfl, ha, hb⟩ := sorts_two h1
    obtain ⟨rc, T1, c1, c2, c3, _⟩ := hacc tc (by simp) T _ hT hc
    obtain ⟨ra, T2, a1, a2, a3, _⟩ := hacc ta (by simp) T1 _ c2 ha
    obtain ⟨rb, T3, b1, b2, b3, _⟩ := hacc tb (by simp) T2 _ a2 hb
    have c4 := c3.mono (c2.same b2)
    have a4 := a3.mono (a2.same b2)
    have hloop : sTerms T "ite" [] [tc, ta, tb] = .ok ([rc, ra, rb], T3) := by
      rw [sTerms_cons c1 c3.notSymb]
      dsimp only
      rw [sTerms_cons a1 a3.notSymb]
      dsimp only
      rw [if_neg (by simp [sameTypeOps]), sTerms_cons b1 b3.notSymb]
      dsimp only
      rw [if_neg (by simp [sameTypeOps])]
      rfl
    obtain ⟨ec, g1, g2, g3⟩ := c4
    obtain ⟨ea, g4, g5, g6⟩ := a4
    obtain ⟨eb, g7, g8, g9⟩ := b3
    rw [sTerm_app (es := [ec, ea, eb]) hs hloop (by simp [getAll, g1, g4, g7])]
    obtain ⟨T', ra', rb', k1, k2, k3, k4, _⟩ := castS_accepts b2 ⟨ea, g4, g5, g6⟩ ⟨eb, g7, g8, g9⟩ hj
    obtain ⟨fc, q1, q2, q3⟩ := Typed.mono (r := rc) ⟨ec, g1, g2, g3⟩ (b2.same k2)
    obtain ⟨fa, q4, q5, q6⟩ := k3
    obtain ⟨fb, q7, q8, q9⟩ := k4
    have hty : (Pt.ite fc.value fa.value fb.value).ty = some τ := by simp [Pt.ty, q3, q6, q9]
    unfold applyS; simpa [g2, k1, q1, q4, q7, q5] using typed_own k2 (pNode_some hty) hty ⟨by simp, by simp⟩
  rw [if_neg h] at hop
  cases hop

mutual
/-- Terms of a sort are read. -/
theorem accepted (D : String → Option Bool) : ∀ t, Accepted D t
  | .numeral n => fun T τ hT h => by
    simp only [sSort] at h; cases h
    refine ⟨_, _, rfl, hT, ⟨_, rfl, rfl, rfl⟩, fun hz e he => ?_⟩
    cases he
    exact ⟨by simp, by simpa [zeroLit] using hz⟩
  | .hex n => fun T τ hT h => by
    simp only [sSort] at h; cases h
    refine ⟨_, _, rfl, hT, ⟨_, rfl, rfl, rfl⟩, fun hz e he => ?_⟩
    cases he
    exact ⟨by simp, by simpa [zeroLit] using hz⟩
  | .bin n => fun T τ hT h => by
    simp only [sSort] at h; cases h
    refine ⟨_, _, rfl, hT, ⟨_, rfl, rfl, rfl⟩, fun hz e he => ?_⟩
    cases he
    exact ⟨by simp, by simpa [zeroLit] using hz⟩
  | .decimal n => fun T τ hT h => by
    simp only [sSort] at h; cases h
    refine ⟨_, _, rfl, hT, ⟨_, rfl, rfl, rfl⟩, fun hz e he => ?_⟩
    cases he
    exact ⟨by simpa [zeroLit] using hz, by simp⟩
  | .ident (.name x) => fun T τ hT h => by
    simp only [sSort] at h
    obtain ⟨k, hk, rfl⟩ := Option.map_eq_some_iff.mp h
    have hx := hT x
    rw [hk] at hx
    dsimp only at hx
    have hg : (SRes.var x).get T = .ok ⟨.sym x (if k then .bool else .real), if k then .bool else .real⟩ := by simp [SRes.get, hx]
    refine ⟨.var x, T, by simp [sTerm, symVal, hx], hT, ⟨_, hg, rfl, rfl⟩, fun _ e he => ?_⟩
    rw [hg] at he
    cases he
    exact ⟨by simp, by simp⟩
  | .ident (.predef s) => fun T τ hT h => by
    simp only [sSort] at h
    split at h
    · rename_i hs
      cases h
      rcases hs with rfl | rfl
      · exact ⟨.own ⟨.boolC true, .bool⟩, T, rfl, hT, ⟨_, rfl, rfl, rfl⟩, fun _ e he => by cases he; exact ⟨by simp, by simp⟩⟩
      · exact ⟨.own ⟨.boolC false, .bool⟩, T, rfl, hT, ⟨_, rfl, rfl, rfl⟩, fun _ e he => by cases he; exact ⟨by simp, by simp⟩⟩
    · cases h
  | .app (.name op) ts => fun T τ hT h => by
    simp only [sSort] at h
    split at h
    · cases h
    rename_i hz
    obtain ⟨τs, h1, h2⟩ := Option.bind_eq_some_iff.mp h
    obtain ⟨r, T', i1, i2, i3, i4⟩ := app_accepts (s := .name op) rfl (acceptedAll D ts) hT h1 h2
      (fun ho => by simpa using fun h => hz ⟨ho, h⟩)
    exact ⟨r, T', i1, i2, i3, fun _ => i4⟩
  | .app (.predef op) ts => fun T τ hT h => by
    simp only [sSort] at h
    split at h
    · rename_i ho
      subst ho
      obtain ⟨τs, h1, h2⟩ := Option.bind_eq_some_iff.mp h
      obtain ⟨r, T', i1, i2, i3, i4⟩ := app_accepts (s := .predef "not") rfl (acceptedAll D ts) hT h1 h2 (by simp)
      exact ⟨r, T', i1, i2, i3, fun _ => i4⟩
    · cases h
  | .ident (.quoted s) => fun T τ hT h => by simp [sSort] at h
  | .app (.quoted s) ts => fun T τ hT h => by simp [sSort] at h
  | .str => fun T τ hT h => by simp [sSort] at h
  | .indexed => fun T τ hT h => by simp [sSort] at h
  | .appIndexed => fun T τ hT h => by simp [sSort] at h
  | .binder => fun T τ hT h => by simp [sSort] at h
/-- Lists of terms. -/
theorem acceptedAll (D : String → Option Bool) : ∀ ts : List STerm, ∀ t ∈ ts, Accepted D t
  | [] => by simp
  | t :: ts => List.forall_mem_cons.mpr ⟨accepted D t, acceptedAll D ts⟩
end

/-! ### Scripts -/

theorem lookupDecl_snoc (D : List (String × Bool)) (x y : String) (k : Bool) (h : lookupDecl D x = none) :
    lookupDecl (D ++ [(x, k)]) y = if y = x then some k else lookupDecl D y := by
  unfold lookupDecl at *
  rw [List.find?_append]
  by_cases hy : y = x
  · subst hy
    rw [Option.map_eq_none_iff] at h
    simp [h]
  · have : ¬ x = y := fun h => hy h.symm
    simp [this, hy]

theorem TableT.snoc {D : List (String × Bool)} {T : STable} {x : String} {k : Bool} (hT : TableT (lookupDecl D) T)
    (hx : lookupDecl D x = none) :
    TableT (lookupDecl (D ++ [(x, k)])) (T ++ [(x, ⟨.sym x (if k then .bool else .real), if k then .bool else .real⟩)]) := by
  have hn : T.get x = none := by have := hT x; rwa [hx] at this
  intro y
  rw [lookupDecl_snoc _ _ _ _ hx, get_snoc _ _ _ _ (by rw [hn]; rfl)]
  by_cases hy : y = x
  · simp [hy]
  · simp only [hy, if_false]
    exact hT y

theorem sortVal_wmi {s : SSort} {k : Bool} (h : wmiSort s = some k) : sortVal s = .ok (if k then .bool else .real) := by
  cases s with
  | indexed => cases h
  | param => cases h
  | ident s =>
    cases s with
    | quoted s => cases h
    | predef s =>
      simp only [wmiSort] at h
      split at h
      · rename_i hs; subst hs; cases h; rfl
      · cases h
    | name s =>
      simp only [wmiSort] at h
      split at h
      · rename_i hs; subst hs; cases h; rfl
      · split at h
        · rename_i hs; subst hs; cases h; rfl
        · cases h

theorem declare_accepts {D : List (String × Bool)} {S : SState} {x : String} {sort : SSort} {k : Bool}
    (hT : TableT (lookupDecl D) S.table) (hx : lookupDecl D x = none) (hk : wmiSort sort = some k) :
    ∃ S', declareS S (.name x) [] sort = .ok S' ∧ TableT (lookupDecl (D ++ [(x, k)])) S'.table ∧ S'.support = S.support ∧
      S'.weight = S.weight := by
  have hn : S.table.get x = none := by have := hT x; rwa [hx] at this
  unfold declareS
  simp only [symVal, hn, Option.isSome_none, Bool.false_eq_true, if_false, ne_eq, not_true, sortVal_wmi hk]
  cases k
  · exact ⟨_, rfl, hT.snoc hx, rfl, rfl⟩
  · exact ⟨_, rfl, hT.snoc hx, rfl, rfl⟩

theorem script_accepts : ∀ (cs : List SCmd) (D : List (String × Bool)) (S : SState), TableT (lookupDecl D) S.table →
    (∀ p ∈ S.support, p.ty = some .bool) → scriptOk D S.weight.isSome cs →
    ∃ S', sScript S cs = .ok S' ∧ ∀ p ∈ S'.support, p.ty = some .bool
  | [], D, S, _, hs, _ => ⟨S, rfl, hs⟩
  | .assert t :: cs, D, S, hT, hs, h => by
    simp only [scriptOk] at h
    obtain ⟨r, T', h1, h2, ⟨e, h3, h4, h5⟩, _⟩ := accepted _ t S.table .bool hT h.1
    obtain ⟨S', i1, i2⟩ := script_accepts cs D { S with table := T', support := S.support ++ [e.value] } h2
      (by
        intro p hp
        rcases List.mem_append.mp hp with hp | hp
        · exact hs p hp
        · rw [List.mem_singleton.mp hp]; exact h5) h.2
    exact ⟨S', by simp [sScript, sCmd, h1, h3, h4, i1], i2⟩
  | .query t :: cs, D, S, hT, hs, h => by
    simp only [scriptOk] at h
    obtain ⟨r, T', h1, h2, ⟨e, h3, h4, h5⟩, _⟩ := accepted _ t S.table .bool hT h.1
    obtain ⟨S', i1, i2⟩ := script_accepts cs D { S with table := T', queries := S.queries ++ [e.value] } h2 hs h.2
    exact ⟨S', by simp [sScript, sCmd, h1, h3, h4, i1], i2⟩
  | .weight t :: cs, D, S, hT, hs, h => by
    simp only [scriptOk] at h
    obtain ⟨hw, hτ, hcs⟩ := h
    rcases hτ with hτ | hτ
    · obtain ⟨r, T', h1, h2, ⟨e, h3, h4, h5⟩, _⟩ := accepted _ t S.table .real hT hτ
      obtain ⟨S', i1, i2⟩ := script_accepts cs D { S with table := T', weight := some e.value } h2 hs hcs
      exact ⟨S', by simp [sScript, sCmd, h1, h3, h4, i1, hw], i2⟩
    · obtain ⟨r, T', h1, h2, h6, _⟩ := accepted _ t S.table .int hT hτ
      obtain ⟨e', rfl⟩ := h6.own h2
      obtain ⟨e, h3, h4, h5⟩ := h6
      obtain ⟨q, q1, q2⟩ := pToReal_ok (by simp) h5
      obtain ⟨S', i1, i2⟩ := script_accepts cs D { S with table := T', weight := some q } h2 hs hcs
      exact ⟨S', by simp [sScript, sCmd, h1, h3, h4, i1, hw, q1, SRes.put], i2⟩
  | .declareConst (.name x) s :: cs, D, S, hT, hs, h => by
    simp only [scriptOk] at h
    obtain ⟨hx, k, hk, hcs⟩ := h
    obtain ⟨S1, j1, j2, j3, j4⟩ := declare_accepts hT hx hk
    obtain ⟨S', i1, i2⟩ := script_accepts cs _ S1 j2 (by rw [j3]; exact hs) (by rw [j4]; exact hcs)
    exact ⟨S', by simp [sScript, sCmd, j1, i1], i2⟩
  | .declareFun (.name x) [] s :: cs, D, S, hT, hs, h => by
    simp only [scriptOk] at h
    obtain ⟨hx, k, hk, hcs⟩ := h
    obtain ⟨S1, j1, j2, j3, j4⟩ := declare_accepts hT hx hk
    obtain ⟨S', i1, i2⟩ := script_accepts cs _ S1 j2 (by rw [j3]; exact hs) (by rw [j4]; exact hcs)
    exact ⟨S', by simp [sScript, sCmd, j1, i1], i2⟩
  | .declareFun (.name x) (_ :: _) s :: cs, D, S, hT, hs, h => by simp [scriptOk] at h
  | .declareConst (.predef x) s :: cs, D, S, hT, hs, h => by simp [scriptOk] at h
  | .declareConst (.quoted x) s :: cs, D, S, hT, hs, h => by simp [scriptOk] at h
  | .declareFun (.predef x) _ s :: cs, D, S, hT, hs, h => by simp [scriptOk] at h
  | .declareFun (.quoted x) _ s :: cs, D, S, hT, hs, h => by simp [scriptOk] at h
  | .other :: cs, D, S, hT, hs, h => by simp [scriptOk] at h

theorem init_typed (A X : List String) :
    TableT (lookupDecl (A.map (fun a => (a, true)) ++ X.map fun x => (x, false))) (SState.init A X).table := by
  intro x
  simp only [SState.init]
  have hX : ∀ x, (match lookupDecl (X.map fun x => (x, false)) x with
      | none => STable.get (X.map fun x => (x, ⟨.sym x .real, .real⟩)) x = none
      | some k => STable.get (X.map fun x => (x, ⟨.sym x .real, .real⟩)) x =
          some ⟨.sym x (if k then .bool else .real), if k then .bool else .real⟩) := by
    intro x
    unfold lookupDecl STable.get
    induction X with
    | nil => simp
    | cons a X ih =>
      rw [List.map_cons, List.map_cons, List.find?_cons, List.find?_cons]
      by_cases ha : a = x
      · simp [ha]
      · simp only [ha, decide_false]
        exact ih
  unfold lookupDecl STable.get
  induction A with
  | nil => simpa [lookupDecl, STable.get] using hX x
  | cons a A ih =>
    rw [List.map_cons, List.map_cons, List.cons_append, List.cons_append, List.find?_cons, List.find?_cons]
    by_cases ha : a = x
    · simp [ha]
    · simp only [ha, decide_false]
      exact ih

/-- C70: every well-formed script over Booleans and reals is read; `smtlib_meaning` says that what comes out is its meaning. -/
theorem smtlib_accepts {simp : Pt → Pt} {A X : List String} {cs : List SCmd}
    (h : scriptOk (A.map (fun a => (a, true)) ++ X.map fun x => (x, false)) false cs) : ∃ R, parseSmtlib simp A X cs = .ok R := by
  obtain ⟨S, h1, h2⟩ := script_accepts cs _ (.init A X) (init_typed A X) (by simp [SState.init]) h
  have : ∃ f, pAnd S.support = .ok f := by
    unfold pAnd
    split
    · exact ⟨_, rfl⟩
    · exact ⟨_, rfl⟩
    · refine ⟨.and S.support, pNode_some (t := .bool) ?_⟩
      simp only [Pt.ty, (Pt.tyAll_iff .bool _).mpr h2, if_true]
  obtain ⟨f, hf⟩ := this
  unfold parseSmtlib
  rw [h1]
  dsimp only
  rw [hf]
  exact ⟨_, rfl⟩

mutual
theorem arity_of_sort {D : String → Option Bool} : ∀ (t : STerm) {τ : PTy}, sSort D t = some τ → arityS t = true
  | .numeral _, _, _ | .hex _, _, _ | .bin _, _, _ | .decimal _, _, _ | .str, _, _ | .indexed, _, _ | .appIndexed, _, _
  | .binder, _, _ | .ident _, _, _ => by simp [arityS]
  | .app (.quoted s) ts, τ, h => by simp [sSort] at h
  | .app (.predef op) ts, τ, h => by
    simp only [sSort] at h
    split at h
    · rename_i ho
      subst ho
      obtain ⟨τs, h1, _⟩ := Option.bind_eq_some_iff.mp h
      simp only [arityS, SSym.text, arity_of_sorts ts h1, Bool.and_true]
      simp
    · cases h
  | .app (.name op) ts, τ, h => by
    simp only [sSort] at h
    split at h
    · cases h
    obtain ⟨τs, h1, h2⟩ := Option.bind_eq_some_iff.mp h
    simp only [arityS, SSym.text, arity_of_sorts ts h1, Bool.and_true, Bool.or_eq_true, decide_eq_true_eq]
    by_cases hop : op ∈ ["+", "*", "and", "or"]
    · right
      rw [(sSorts_mem h1).1]
      simp only [List.mem_cons, List.not_mem_nil, or_false] at hop
      rcases hop with rfl | rfl | rfl | rfl
      · rw [show opSort "+" τs = sumSort τs from rfl] at h2
        match τs, h2 with
        | _ :: _ :: _, _ => simp
        | [], h2 => cases h2
        | [_], h2 => cases h2
      · rw [show opSort "*" τs = sumSort τs from rfl] at h2
        match τs, h2 with
        | _ :: _ :: _, _ => simp
        | [], h2 => cases h2
        | [_], h2 => cases h2
      · rw [show opSort "and" τs = if 2 ≤ τs.length ∧ ∀ t ∈ τs, t = .bool then some .bool else none from rfl] at h2
        split at h2
        · rename_i h3; exact h3.1
        · cases h2
      · rw [show opSort "or" τs = if 2 ≤ τs.length ∧ ∀ t ∈ τs, t = .bool then some .bool else none from rfl] at h2
        split at h2
        · rename_i h3; exact h3.1
        · cases h2
    · left; exact decide_eq_true hop
theorem arity_of_sorts {D : String → Option Bool} : ∀ (ts : List STerm) {τs : List PTy}, sSorts D ts = some τs → arityAll ts = true
  | [], _, _ => rfl
  | t :: ts, τs, h => by
    simp only [sSorts] at h
    obtain ⟨v, h1, h⟩ := Option.bind_eq_some_iff.mp h
    obtain ⟨vs, h2, _⟩ := Option.map_eq_some_iff.mp h
    simp only [arityAll, arity_of_sort t h1, arity_of_sorts ts h2, Bool.and_self]
end

theorem arity_of_script : ∀ (cs : List SCmd) (D : List (String × Bool)) (w : Bool), scriptOk D w cs →
    ∀ c ∈ cs, ∀ t, c.term = some t → arityS t = true
  | [], _, _, _ => by simp
  | .assert t :: cs, D, w, h => by
    simp only [scriptOk] at h
    exact List.forall_mem_cons.mpr ⟨fun t' ht' => by cases ht'; exact arity_of_sort _ h.1, arity_of_script cs D w h.2⟩
  | .query t :: cs, D, w, h => by
    simp only [scriptOk] at h
    exact List.forall_mem_cons.mpr ⟨fun t' ht' => by cases ht'; exact arity_of_sort _ h.1, arity_of_script cs D w h.2⟩
  | .weight t :: cs, D, w, h => by
    simp only [scriptOk] at h
    refine List.forall_mem_cons.mpr ⟨fun t' ht' => ?_, arity_of_script cs D true h.2.2⟩
    cases ht'
    rcases h.2.1 with h | h <;> exact arity_of_sort _ h
  | .declareConst (.name x) s :: cs, D, w, h => by
    simp only [scriptOk] at h
    obtain ⟨_, k, _, h⟩ := h
    exact List.forall_mem_cons.mpr ⟨fun t' ht' => (by cases ht'), arity_of_script cs _ w h⟩
  | .declareFun (.name x) [] s :: cs, D, w, h => by
    simp only [scriptOk] at h
    obtain ⟨_, k, _, h⟩ := h
    exact List.forall_mem_cons.mpr ⟨fun t' ht' => (by cases ht'), arity_of_script cs _ w h⟩
  | .declareFun (.name x) (_ :: _) s :: cs, D, w, h => by simp [scriptOk] at h
  | .declareConst (.predef x) s :: cs, D, w, h => by simp [scriptOk] at h
  | .declareConst (.quoted x) s :: cs, D, w, h => by simp [scriptOk] at h
  | .declareFun (.predef x) _ s :: cs, D, w, h => by simp [scriptOk] at h
  | .declareFun (.quoted x) _ s :: cs, D, w, h => by simp [scriptOk] at h
  | .other :: cs, D, w, h => by simp [scriptOk] at h

section
variable {K : Type} [Field K] [LinearOrder K] [IsStrictOrderedRing K]

/-- C70, with the meaning: a well-formed script is read, its support is true exactly where the asserted terms are, and its weight
is the value of the term given (or one). -/
theorem smtlib_correct {simp : Pt → Pt} (hs : KeepsMeaning K simp) {A X : List String} {cs : List SCmd}
    (h : scriptOk (A.map (fun a => (a, true)) ++ X.map fun x => (x, false)) false cs) :
    ∃ R, parseSmtlib simp A X cs = .ok R ∧
      (∀ σ : Env K, Pt.den σ R.support = .b true ↔ ∀ t ∈ asserts cs, sVal (declKind A X cs) σ t = some (.b true)) ∧
      ((weights cs = [] ∧ ∀ σ : Env K, Pt.den σ R.weight = .n 1) ∨
        ∃ t, weights cs = [t] ∧ ∀ σ : Env K, sVal (declKind A X cs) σ t = some (Pt.den σ R.weight)) ∧
      List.Forall₂ (fun t p => ∀ σ : Env K, sVal (declKind A X cs) σ t = some (Pt.den σ p)) (queriesOf cs) R.queries := by
  obtain ⟨R, hR⟩ := smtlib_accepts (simp := simp) h
  obtain ⟨h1, h2, h3, _⟩ := smtlib_meaning hs (arity_of_script _ _ _ h) hR
  exact ⟨R, hR, fun σ => (h1.2 σ).2, h2.2, h3.imp fun _ _ h => h.2⟩
end

/-! ### A concrete script -/

/-- `(declare-fun x () Real) (declare-const a Bool) (assert (=> a (< (+ x 1) 2.5))) (assert (not (= a (>= 3 x))))
(weight (ite a (* x x 2) 1)) (query (or a (<= x 0)))`. -/
def exampleScript : List SCmd :=
  [.declareFun (.name "x") [] (.ident (.name "Real")), .declareConst (.name "a") (.ident (.predef "Bool")),
   .assert (.app (.name "=>") [.ident (.name "a"), .app (.name "<") [.app (.name "+") [.ident (.name "x"), .numeral 1], .decimal (5 / 2)]]),
   .assert (.app (.predef "not") [.app (.name "=") [.ident (.name "a"), .app (.name ">=") [.numeral 3, .ident (.name "x")]]]),
   .weight (.app (.name "ite") [.ident (.name "a"), .app (.name "*") [.ident (.name "x"), .ident (.name "x"), .numeral 2], .numeral 1]),
   .query (.app (.name "or") [.ident (.name "a"), .app (.name "<=") [.ident (.name "x"), .numeral 0]])]

/-- The identity keeps meanings: the hypothesis on the simplifier can be met. -/
theorem keepsMeaning_id : KeepsMeaning ℚ id := fun _ _ h => ⟨h, fun _ => rfl⟩

theorem exampleScript_ok : scriptOk [] false exampleScript := by
  refine ⟨rfl, false, rfl, rfl, true, rfl, rfl, rfl, rfl, .inl rfl, rfl, trivial⟩

example : ∃ R, parseSmtlib id [] [] exampleScript = .ok R ∧ R.bools = ["a"] ∧ R.reals = [("x", .real)] ∧ R.queries.length = 1 :=
  ⟨_, rfl, rfl, rfl, rfl⟩

example : ∃ R, parseSmtlib id [] [] exampleScript = .ok R ∧
    (Pt.den (K := ℚ) ⟨fun _ => false, fun _ => 4⟩ R.support = .b false ↔
      ¬ ∀ t ∈ asserts exampleScript, sVal (declKind [] [] exampleScript) (⟨fun _ => false, fun _ => 4⟩ : Env ℚ) t = some (.b true)) := by
  obtain ⟨R, h1, h2, _⟩ := smtlib_correct keepsMeaning_id (A := []) (X := []) exampleScript_ok
  refine ⟨R, h1, ?_⟩
  rw [← h2]
  obtain ⟨⟨hty, _⟩, _⟩ := smtlib_meaning keepsMeaning_id (arity_of_script _ _ _ exampleScript_ok) h1
  have := PVal.eq_b (Pt.den_kind (K := ℚ) R.support hty ⟨fun _ => false, fun _ => 4⟩)
  rw [this]
  cases (Pt.den (K := ℚ) ⟨fun _ => false, fun _ => 4⟩ R.support).toB <;> simp

/-! ### Findings -/

/-- A real variable for the findings. -/
def declX : SCmd := .declareConst (.name "x") (.ident (.name "Real"))
/-- An integer variable for the findings. -/
def declI : SCmd := .declareConst (.name "i") (.ident (.name "Int"))
/-- `(< i 5/2)`. -/
def iLess : STerm := .app (.name "<") [.ident (.name "i"), .decimal (5 / 2)]
/-- `(< (+ i 1 5/2) 0)`. -/
def iSum : STerm := .app (.name "<") [.app (.name "+") [.ident (.name "i"), .numeral 1, .decimal (5 / 2)], .decimal 0]

/-- `(and x)` with a real `x` is accepted, and the support is no formula: without the hypothesis on the number of arguments the
meaning theorem fails. -/
theorem smtlib_and_one : ∃ R, parseSmtlib id [] [] [declX, .assert (.app (.name "and") [.ident (.name "x")])] = .ok R ∧
    R.support.ty = some .real := ⟨_, rfl, rfl⟩

/-- An asserted name that is not declared is a KeyError, not the reader's own error, which it is inside a term. -/
theorem smtlib_undeclared : (∀ x, parseSmtlib id [] [] [.assert (.ident (.name x))] = .error .keyError) ∧
    parseSmtlib id [] [] [.assert (.app (.name "and") [.ident (.name "x"), .ident (.name "y")])] = .error .parseError :=
  ⟨fun _ => rfl, rfl⟩

/-- Quoted names cannot be used at all. -/
theorem smtlib_quoted (A X : List String) (x : String) (s : SSort) (cs : List SCmd) :
    parseSmtlib id A X (.declareConst (.quoted x) s :: cs) = .error .typeError ∧
    parseSmtlib id A X (.assert (.ident (.quoted x)) :: cs) = .error .typeError := ⟨rfl, rfl⟩

/-- A Boolean weight and a real query end in an AttributeError instead of a message. -/
theorem smtlib_wrong_type : parseSmtlib id ["a"] ["x"] [.weight (.ident (.name "a"))] = .error .attributeError ∧
    parseSmtlib id ["a"] ["x"] [.query (.ident (.name "x"))] = .error .attributeError := ⟨rfl, rfl⟩

/-- A number as query is accepted if it is an integer. -/
theorem smtlib_int_query (n : ℕ) : ∃ R, parseSmtlib id [] [] [.query (.numeral n)] = .ok R ∧ R.queries = [.realC n] :=
  ⟨_, rfl, rfl⟩

/-- Reading depends on the past: a term with an integer variable is rejected, but accepted after an unrelated comparison has turned
the variable into a real. -/
theorem smtlib_history : parseSmtlib id [] [] [declI, .assert iSum] = .error .other ∧
    ∃ R, parseSmtlib id [] [] [declI, .assert iLess, .assert iSum] = .ok R := ⟨rfl, _, rfl⟩

/-- After `(weight i)` the integer variable can no longer be compared with an integer. -/
theorem smtlib_weight_int : (∃ R, parseSmtlib id [] [] [declI, .assert (.app (.name "<") [.ident (.name "i"), .numeral 3])] = .ok R) ∧
    parseSmtlib id [] [] [declI, .weight (.ident (.name "i")), .assert (.app (.name "<") [.ident (.name "i"), .numeral 3])] =
      .error .other := ⟨⟨_, rfl⟩, rfl⟩

end Pywmi
