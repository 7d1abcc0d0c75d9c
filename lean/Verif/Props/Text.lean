import Verif.Algebra.Text
import Verif.Props.Algebra

set_option linter.unusedSectionVars false
set_option linter.unusedSimpArgs false

/-!
# Texts of the string back-ends (C88)
-/

namespace Pywmi

/-! ### Specification: readers -/

/-- SPEC: what a reader understands. -/
inductive TExp where
  | num (q : ℚ)
  | sym (x : String)
  | neg (a : TExp)
  | sub (a b : TExp)
  | mul (a b : TExp)
  | add (a b : TExp)
  | lt (a b : TExp)
  | le (a b : TExp)
  | ite (strict : Bool) (a b t e : TExp)
  | int (e : TExp) (vs : List String)
deriving DecidableEq, Repr

/-- SPEC: the names up to the first other token. -/
def readNames : TText → List String × TText
  | .name x :: ts => let r := readNames ts; (x :: r.1, r.2)
  | ts => ([], ts)

mutual
/-- SPEC: sums of products, read from the left. -/
def readTSum : ℕ → TText → Option (TExp × TText)
  | 0, _ => none
  | k + 1, ts =>
    match readTProd k ts with
    | none => none
    | some (a, ts') => readTSumRest k a ts'
/-- SPEC: further summands. -/
def readTSumRest : ℕ → TExp → TText → Option (TExp × TText)
  | k + 1, a, .plus :: ts =>
    match readTProd k ts with
    | none => none
    | some (b, ts') => readTSumRest k (.add a b) ts'
  | _, a, ts => some (a, ts)
/-- SPEC: products of factors, read from the left. -/
def readTProd : ℕ → TText → Option (TExp × TText)
  | 0, _ => none
  | k + 1, ts =>
    match readTFactor k ts with
    | none => none
    | some (a, ts') => readTProdRest k a ts'
/-- SPEC: further factors. -/
def readTProdRest : ℕ → TExp → TText → Option (TExp × TText)
  | k + 1, a, .star :: ts =>
    match readTFactor k ts with
    | none => none
    | some (b, ts') => readTProdRest k (.mul a b) ts'
  | _, a, ts => some (a, ts)
/-- SPEC: a factor: a number, a name, a negated factor, a sum in parentheses, a comparison in brackets, an integral. -/
def readTFactor : ℕ → TText → Option (TExp × TText)
  | _, .num q :: ts => some (.num q, ts)
  | _, .name x :: ts => some (.sym x, ts)
  | k + 1, .minus :: ts =>
    match readTFactor k ts with
    | none => none
    | some (a, ts') => some (.neg a, ts')
  | k + 1, .lp :: ts =>
    match readTSum k ts with
    | some (a, .rp :: ts') => some (a, ts')
    | _ => none
  | k + 1, .lb :: ts =>
    match readTSum k ts with
    | some (a, .lt :: ts') =>
      match readTSum k ts' with
      | some (b, .rb :: ts'') => some (.lt a b, ts'')
      | _ => none
    | some (a, .le :: ts') =>
      match readTSum k ts' with
      | some (b, .rb :: ts'') => some (.le a b, ts'')
      | _ => none
    | _ => none
  | k + 1, .openI :: ts =>
    match readTSum k ts with
    | some (a, .openD :: ts') =>
      match readNames ts' with
      | (vs, .closeI :: ts'') => some (.int a vs, ts'')
      | _ => none
    | _ => none
  | _, _ => none
end

/-- SPEC: a reader with the usual precedences: the whole text is a sum. -/
def readText (ts : TText) : Option TExp :=
  match readTSum (4 * ts.length + 4) ts with
  | some (a, []) => some a
  | _ => none

section
variable {K : Type} [Field K] [LinearOrder K] [IsStrictOrderedRing K]

/-- SPEC: the value of what was read; `I` is integration of a function over variables. -/
def TExp.value (I : ((String → K) → K) → List String → (String → K) → K) : TExp → (String → K) → K
  | .num q, _ => (q : K)
  | .sym x, ρ => ρ x
  | .neg a, ρ => -a.value I ρ
  | .sub a b, ρ => a.value I ρ - b.value I ρ
  | .mul a b, ρ => a.value I ρ * b.value I ρ
  | .add a b, ρ => a.value I ρ + b.value I ρ
  | .lt a b, ρ => if a.value I ρ < b.value I ρ then 1 else 0
  | .le a b, ρ => if a.value I ρ ≤ b.value I ρ then 1 else 0
  | .ite true a b t e, ρ => if a.value I ρ < b.value I ρ then t.value I ρ else e.value I ρ
  | .ite false a b t e, ρ => if a.value I ρ ≤ b.value I ρ then t.value I ρ else e.value I ρ
  | .int e vs, ρ => I (fun τ => e.value I τ) vs ρ

/-! ### Texts that are products of factors -/

mutual
/-- Texts of factors. -/
inductive Fac : TText → TExp → Prop where
  | num (q : ℚ) : Fac [.num q] (.num q)
  | name (x : String) : Fac [.name x] (.sym x)
  | neg {t a} : Fac t a → Fac (.minus :: t) (.neg a)
  | add {t a u b} : Prd t a → Prd u b → Fac (.lp :: t ++ .plus :: u ++ [.rp]) (.add a b)
  | lt {t a u b} : Prd t a → Prd u b → Fac (.lb :: t ++ .lt :: u ++ [.rb]) (.lt a b)
  | le {t a u b} : Prd t a → Prd u b → Fac (.lb :: t ++ .le :: u ++ [.rb]) (.le a b)
  | int {t a} (vs : List String) : Prd t a → Fac (.openI :: t ++ .openD :: vs.map .name ++ [.closeI]) (.int a vs)
/-- Texts of products. -/
inductive Prd : TText → TExp → Prop where
  | one {t a} : Fac t a → Prd t a
  | mul {t a u b} : Prd t a → Fac u b → Prd (t ++ .star :: u) (.mul a b)
end

/-- The text does not go on with a further factor. -/
def NoTimes (ts : TText) : Prop := ∀ ts', ts ≠ .star :: ts'

/-- The text does not go on with a further summand. -/
def NoPlus (ts : TText) : Prop := ∀ ts', ts ≠ .plus :: ts'

theorem readProdRest_stop {k : ℕ} {a : TExp} {ts : TText} (h : NoTimes ts) : readTProdRest k a ts = some (a, ts) := by
  cases k with
  | zero => simp [readTProdRest]
  | succ k =>
    cases ts with
    | nil => simp [readTProdRest]
    | cons t ts =>
      cases t <;> simp_all [readTProdRest, NoTimes]

theorem readSumRest_stop {k : ℕ} {a : TExp} {ts : TText} (h : NoPlus ts) : readTSumRest k a ts = some (a, ts) := by
  cases k with
  | zero => simp [readTSumRest]
  | succ k =>
    cases ts with
    | nil => simp [readTSumRest]
    | cons t ts =>
      cases t <;> simp_all [readTSumRest, NoPlus]

theorem readNames_map (vs : List String) (ts : TText) (h : ∀ x ts', ts ≠ .name x :: ts') : readNames (vs.map .name ++ ts) = (vs, ts) := by
  induction vs with
  | nil =>
    cases ts with
    | nil => simp [readNames]
    | cons t ts => cases t <;> simp_all [readNames]
  | cons v vs ih => simp [readNames, ih]

theorem Fac.pos {t : TText} {a : TExp} (h : Fac t a) : 1 ≤ t.length := by
  cases h <;> simp

theorem Prd.pos {t : TText} {a : TExp} (h : Prd t a) : 1 ≤ t.length := by
  cases h with
  | one h => exact h.pos
  | mul h1 h2 => simp; omega

/-- A sum of one product. -/
theorem readSum_one {k : ℕ} {ts rest : TText} {a : TExp} (h : readTProd k ts = some (a, rest)) (hr : NoPlus rest) :
    readTSum (k + 1) ts = some (a, rest) := by
  rw [readTSum, h]
  exact readSumRest_stop hr

mutual
theorem readFactor_ok {t : TText} {a : TExp} : Fac t a → ∀ (k : ℕ) (rest : TText), 4 * t.length ≤ k → readTFactor k (t ++ rest) = some (a, rest)
  | .num q, k, rest, hk => by cases k <;> simp [readTFactor]
  | .name x, k, rest, hk => by cases k <;> simp [readTFactor]
  | .neg (t := t) h, k, rest, hk => by
    obtain ⟨k, rfl⟩ : ∃ j, k = j + 1 := ⟨k - 1, by simp at hk; omega⟩
    have := readFactor_ok h k rest (by simp at hk; omega)
    simp [readTFactor, this]
  | .add (t := t) (a := a) (u := u) (b := b) h1 h2, k, rest, hk => by
    obtain ⟨k, rfl⟩ : ∃ j, k = j + 3 := ⟨k - 3, by simp at hk; omega⟩
    have hl : 4 * (t.length + u.length + 2) + 1 ≤ k := by simp at hk; omega
    obtain ⟨j1, hj1, e1⟩ := readProd_ok h1 (k + 1) (.plus :: (u ++ .rp :: rest)) (by omega)
    have e1' := e1.trans (readProdRest_stop (by intro _ h; cases h))
    obtain ⟨j2, hj2, e2⟩ := readProd_ok h2 k (.rp :: rest) (by omega)
    have e2' := e2.trans (readProdRest_stop (by intro _ h; cases h))
    have e3 : readTSum (k + 2) (t ++ .plus :: (u ++ .rp :: rest)) = some (.add a b, .rp :: rest) := by
      rw [readTSum, e1']
      simp only
      rw [readTSumRest, e2']
      exact readSumRest_stop (by intro _ h; cases h)
    simp [readTFactor, e3]
  | .lt (t := t) (a := a) (u := u) (b := b) h1 h2, k, rest, hk => by
    obtain ⟨k, rfl⟩ : ∃ j, k = j + 2 := ⟨k - 2, by simp at hk; omega⟩
    have hl : 4 * (t.length + u.length + 2) + 1 ≤ k := by simp at hk; omega
    obtain ⟨j1, hj1, e1⟩ := readProd_ok h1 k (.lt :: (u ++ .rb :: rest)) (by omega)
    have e1' := readSum_one (e1.trans (readProdRest_stop (by intro _ h; cases h))) (by intro _ h; cases h)
    obtain ⟨j2, hj2, e2⟩ := readProd_ok h2 k (.rb :: rest) (by omega)
    have e2' := readSum_one (e2.trans (readProdRest_stop (by intro _ h; cases h))) (by intro _ h; cases h)
    simp [readTFactor, e1', e2']
  | .le (t := t) (a := a) (u := u) (b := b) h1 h2, k, rest, hk => by
    obtain ⟨k, rfl⟩ : ∃ j, k = j + 2 := ⟨k - 2, by simp at hk; omega⟩
    have hl : 4 * (t.length + u.length + 2) + 1 ≤ k := by simp at hk; omega
    obtain ⟨j1, hj1, e1⟩ := readProd_ok h1 k (.le :: (u ++ .rb :: rest)) (by omega)
    have e1' := readSum_one (e1.trans (readProdRest_stop (by intro _ h; cases h))) (by intro _ h; cases h)
    obtain ⟨j2, hj2, e2⟩ := readProd_ok h2 k (.rb :: rest) (by omega)
    have e2' := readSum_one (e2.trans (readProdRest_stop (by intro _ h; cases h))) (by intro _ h; cases h)
    simp [readTFactor, e1', e2']
  | .int (t := t) (a := a) vs h1, k, rest, hk => by
    obtain ⟨k, rfl⟩ : ∃ j, k = j + 2 := ⟨k - 2, by simp at hk; omega⟩
    obtain ⟨j1, hj1, e1⟩ := readProd_ok h1 k (.openD :: (vs.map .name ++ .closeI :: rest)) (by simp at hk; omega)
    have e1' := readSum_one (e1.trans (readProdRest_stop (by intro _ h; cases h))) (by intro _ h; cases h)
    have e2 := readNames_map vs (.closeI :: rest) (by intro _ _ h; cases h)
    simp [readTFactor, e1', e2]
theorem readProd_ok {t : TText} {a : TExp} : Prd t a → ∀ (k : ℕ) (rest : TText), 4 * t.length + 1 ≤ k →
    ∃ j, k ≤ j + t.length ∧ readTProd k (t ++ rest) = readTProdRest j a rest
  | .one h, k, rest, hk => by
    obtain ⟨k, rfl⟩ : ∃ j, k = j + 1 := ⟨k - 1, by omega⟩
    have h1 := readFactor_ok h k rest (by omega)
    have := h.pos
    exact ⟨k, by omega, by rw [readTProd, h1]⟩
  | .mul (t := t) (a := a) (u := u) (b := b) h1 h2, k, rest, hk => by
    simp only [List.length_append, List.length_cons] at hk
    obtain ⟨j, hj, e⟩ := readProd_ok h1 k (.star :: (u ++ rest)) (by omega)
    obtain ⟨j, rfl⟩ : ∃ i, j = i + 1 := ⟨j - 1, by omega⟩
    have h3 := readFactor_ok h2 j rest (by omega)
    refine ⟨j, by simp; omega, ?_⟩
    rw [List.append_assoc, List.cons_append, e, readTProdRest, h3]
end

/-- The reader understands texts of products. -/
theorem readText_ok {t : TText} {a : TExp} (h : Prd t a) : readText t = some a := by
  obtain ⟨j, hj, e⟩ := readProd_ok h (4 * t.length + 3) [] (by omega)
  rw [List.append_nil] at e
  have := readSum_one (e.trans (readProdRest_stop (by intro _ h; cases h))) (by intro _ h; cases h)
  simp [readText, this]

theorem Prd.unique {t : TText} {a b : TExp} (h : Prd t a) (h' : Prd t b) : a = b := by
  have := (readText_ok h).symm.trans (readText_ok h')
  simpa using this

theorem Prd.times {t u : TText} {a b : TExp} (h : Prd t a) (h' : Prd u b) :
    ∃ c, Prd (t ++ .star :: u) c ∧ ∀ (I : ((String → K) → K) → List String → (String → K) → K) ρ, c.value I ρ = a.value I ρ * b.value I ρ :=
  match h' with
  | .one h' => ⟨_, .mul h h', fun I ρ => rfl⟩
  | .mul (t := t') (a := a') (u := u') (b := b') h1 h2 => by
    obtain ⟨c, hc, hv⟩ := Prd.times h h1
    refine ⟨.mul c b', ?_, fun I ρ => ?_⟩
    · have := Prd.mul hc h2
      simpa using this
    · simp only [TExp.value, hv, mul_assoc]

theorem Prd.negate {t : TText} {a : TExp} (h : Prd t a) :
    ∃ c, Prd (.minus :: t) c ∧ ∀ (I : ((String → K) → K) → List String → (String → K) → K) ρ, c.value I ρ = -a.value I ρ :=
  match h with
  | .one h => ⟨_, .one (.neg h), fun I ρ => rfl⟩
  | .mul (t := t') (a := a') (u := u') (b := b') h1 h2 => by
    obtain ⟨c, hc, hv⟩ := Prd.negate h1
    refine ⟨.mul c b', ?_, fun I ρ => ?_⟩
    · exact Prd.mul hc h2
    · simp only [TExp.value, hv, neg_mul]

theorem numText_ok (q : ℚ) : ∃ a, Prd (numText q) a ∧ ∀ (I : ((String → K) → K) → List String → (String → K) → K) ρ, a.value I ρ = (q : K) := by
  unfold numText
  split
  · exact ⟨_, .one (.neg (.num _)), fun I ρ => by simp [TExp.value]⟩
  · exact ⟨_, .one (.num _), fun I ρ => rfl⟩

/-- SPEC: expressions written with the methods of a back-end. -/
inductive ACall where
  | real (q : ℚ)
  | symbol (x : String)
  | times (a b : ACall)
  | plus (a b : ACall)
  | negate (a : ACall)
  | lessThan (a b : ACall)
  | lessThanEqual (a b : ACall)
  | integrate (a : ACall) (vs : List String)

/-- SPEC: the result of the calls. -/
def ACall.run {E : Type} (A : Algebra E) (integ : E → List String → E) : ACall → E
  | .real q => A.real q
  | .symbol x => A.symbol x
  | .times a b => A.times (a.run A integ) (b.run A integ)
  | .plus a b => A.plus (a.run A integ) (b.run A integ)
  | .negate a => A.negate (a.run A integ)
  | .lessThan a b => A.lessThan (a.run A integ) (b.run A integ)
  | .lessThanEqual a b => A.lessThanEqual (a.run A integ) (b.run A integ)
  | .integrate a vs => integ (a.run A integ) vs

/-- SPEC: the mathematical value of the expression; no variables stand for `reals`. -/
def ACall.value (I : ((String → K) → K) → List String → (String → K) → K) (reals : List String) : ACall → (String → K) → K
  | .real q, _ => (q : K)
  | .symbol x, ρ => ρ x
  | .times a b, ρ => a.value I reals ρ * b.value I reals ρ
  | .plus a b, ρ => a.value I reals ρ + b.value I reals ρ
  | .negate a, ρ => -a.value I reals ρ
  | .lessThan a b, ρ => if a.value I reals ρ < b.value I reals ρ then 1 else 0
  | .lessThanEqual a b, ρ => if a.value I reals ρ ≤ b.value I reals ρ then 1 else 0
  | .integrate a vs, ρ => I (fun τ => a.value I reals τ) (if vs = [] then reals else vs) ρ

/-- A text that reads as a function. -/
def Means (P : TText → TExp → Prop) (t : TText) (f : (((String → K) → K) → List String → (String → K) → K) → (String → K) → K) : Prop :=
  ∃ a, P t a ∧ ∀ I ρ, a.value I ρ = f I ρ

section string
variable {t u : TText} {f g : (((String → K) → K) → List String → (String → K) → K) → (String → K) → K}

theorem means_real (q : ℚ) : Means (K := K) Prd (stringAlgebra.real q) fun _ _ => (q : K) := numText_ok q

theorem means_symbol (x : String) : Means (K := K) Prd (stringAlgebra.symbol x) fun _ ρ => ρ x := ⟨_, .one (.name x), fun _ _ => rfl⟩

theorem means_const {q : ℚ} (h : Means Prd (numText q) f) : ∀ I ρ, f I ρ = (q : K) := by
  obtain ⟨a, ha, hf⟩ := h
  obtain ⟨b, hb, hq⟩ := numText_ok (K := K) q
  intro I ρ
  rw [← hf, ha.unique hb, hq]

theorem means_times (h : Means Prd t f) (h' : Means Prd u g) : Means Prd (stringAlgebra.times t u) fun I ρ => f I ρ * g I ρ := by
  simp only [stringAlgebra]
  split
  · rename_i e
    subst e
    obtain ⟨b, hb, hg⟩ := h'
    exact ⟨b, hb, fun I ρ => by simp [hg, means_const h]⟩
  · split
    · rename_i e
      subst e
      obtain ⟨b, hb, hg⟩ := h
      exact ⟨b, hb, fun I ρ => by simp [hg, means_const h']⟩
    · split
      · rename_i e
        obtain ⟨c, hc, hv⟩ := numText_ok (K := K) 0
        refine ⟨c, hc, fun I ρ => ?_⟩
        rcases e with e | e
        · subst e; simp [hv, means_const h]
        · subst e; simp [hv, means_const h']
      · obtain ⟨a, ha, hf⟩ := h
        obtain ⟨b, hb, hg⟩ := h'
        obtain ⟨c, hc, hv⟩ := Prd.times (K := K) ha hb
        exact ⟨c, hc, fun I ρ => by rw [hv, hf, hg]⟩

theorem means_plus (h : Means Prd t f) (h' : Means Prd u g) : Means Prd (stringAlgebra.plus t u) fun I ρ => f I ρ + g I ρ := by
  simp only [stringAlgebra]
  split
  · rename_i e
    subst e
    obtain ⟨b, hb, hg⟩ := h'
    exact ⟨b, hb, fun I ρ => by simp [hg, means_const h]⟩
  · split
    · rename_i e
      subst e
      obtain ⟨b, hb, hg⟩ := h
      exact ⟨b, hb, fun I ρ => by simp [hg, means_const h']⟩
    · obtain ⟨a, ha, hf⟩ := h
      obtain ⟨b, hb, hg⟩ := h'
      exact ⟨_, .one (.add ha hb), fun I ρ => by simp only [TExp.value, hf, hg]⟩

theorem means_negate (h : Means Prd t f) : Means Prd (stringAlgebra.negate t) fun I ρ => -f I ρ := by
  obtain ⟨a, ha, hf⟩ := h
  obtain ⟨c, hc, hv⟩ := Prd.negate (K := K) ha
  exact ⟨c, hc, fun I ρ => by rw [hv, hf]⟩

theorem means_lessThan (h : Means Prd t f) (h' : Means Prd u g) :
    Means Prd (stringAlgebra.lessThan t u) fun I ρ => if f I ρ < g I ρ then 1 else 0 := by
  obtain ⟨a, ha, hf⟩ := h
  obtain ⟨b, hb, hg⟩ := h'
  exact ⟨_, .one (.lt ha hb), fun I ρ => by simp only [TExp.value, hf, hg]⟩

theorem means_lessThanEqual (h : Means Prd t f) (h' : Means Prd u g) :
    Means Prd (stringAlgebra.lessThanEqual t u) fun I ρ => if f I ρ ≤ g I ρ then 1 else 0 := by
  obtain ⟨a, ha, hf⟩ := h
  obtain ⟨b, hb, hg⟩ := h'
  exact ⟨_, .one (.le ha hb), fun I ρ => by simp only [TExp.value, hf, hg]⟩

theorem means_integrate (reals vs : List String) (h : Means Prd t f) :
    Means Prd (stringIntegrate reals t vs) fun I ρ => I (fun τ => f I τ) (if vs = [] then reals else vs) ρ := by
  obtain ⟨a, ha, hf⟩ := h
  exact ⟨_, .one (.int _ ha), fun I ρ => by simp only [TExp.value, hf]⟩

end string

/-! ### The reader of s-expressions -/

/-- SPEC: expressions in the notation of the XADD programs: prefix operators in parentheses. -/
def readXadd : ℕ → TText → Option (TExp × TText)
  | 0, _ => none
  | k + 1, .lp :: ts =>
    match ts with
    | .star :: ts =>
      match readXadd k ts with
      | none => none
      | some (a, ts) =>
        match readXadd k ts with
        | some (b, .rp :: ts) => some (.mul a b, ts)
        | _ => none
    | .plus :: ts =>
      match readXadd k ts with
      | none => none
      | some (a, ts) =>
        match readXadd k ts with
        | some (b, .rp :: ts) => some (.add a b, ts)
        | _ => none
    | .minus :: ts =>
      match readXadd k ts with
      | none => none
      | some (a, ts) =>
        match readXadd k ts with
        | some (b, .rp :: ts) => some (.sub a b, ts)
        | _ => none
    | .word "const" :: .word "real" :: .num q :: .rp :: ts => some (.num q, ts)
    | .word "const" :: .word "real" :: .minus :: .num q :: .rp :: ts => some (.num (-q), ts)
    | .word "var" :: .word "real" :: .name x :: .rp :: ts => some (.sym x, ts)
    | .word "ite" :: .lp :: op :: ts =>
      match readXadd k ts with
      | none => none
      | some (a, ts) =>
        match readXadd k ts with
        | some (b, .rp :: ts) =>
          match readXadd k ts with
          | none => none
          | some (t, ts) =>
            match readXadd k ts with
            | some (e, .rp :: ts) =>
              match op with
              | .lt => some (.ite true a b t e, ts)
              | .le => some (.ite false a b t e, ts)
              | _ => none
            | _ => none
        | _ => none
    | .word "int" :: ts =>
      match readXadd k ts with
      | some (a, .lp :: .word "list" :: ts) =>
        match readNames ts with
        | (vs, .rp :: .rp :: ts) => some (.int a vs, ts)
        | _ => none
      | _ => none
    | _ => none
  | _ + 1, _ => none

/-- SPEC: the whole text is an expression. -/
def readXaddText (ts : TText) : Option TExp :=
  match readXadd ts.length ts with
  | some (a, []) => some a
  | _ => none

/-- Texts that the reader understands, also as parts of other texts. -/
def XText (t : TText) (a : TExp) : Prop := 1 ≤ t.length ∧ ∀ k rest, t.length ≤ k → readXadd k (t ++ rest) = some (a, rest)

theorem XText.read {t : TText} {a : TExp} (h : XText t a) : readXaddText t = some a := by
  have := h.2 t.length [] le_rfl
  rw [List.append_nil] at this
  simp [readXaddText, this]

theorem XText.unique {t : TText} {a b : TExp} (h : XText t a) (h' : XText t b) : a = b := by
  have := h.read.symm.trans h'.read
  simpa using this

theorem XText.const (q : ℚ) : ∃ a, XText (constText q) a ∧ a = .num q := by
  refine ⟨_, ⟨by simp [constText], fun k rest hk => ?_⟩, rfl⟩
  unfold constText numText at *
  obtain ⟨k, rfl⟩ : ∃ j, k = j + 1 := ⟨k - 1, by simp at hk; omega⟩
  split
  · simp [readXadd]
  · simp [readXadd]

theorem XText.sym (x : String) : XText (xaddText.symbol x) (.sym x) := by
  refine ⟨by simp [xaddText], fun k rest hk => ?_⟩
  obtain ⟨k, rfl⟩ : ∃ j, k = j + 1 := ⟨k - 1, by simp [xaddText] at hk; omega⟩
  simp [xaddText, readXadd]

section
variable {t u v w : TText} {a b c d : TExp}

theorem XText.mul (h : XText t a) (h' : XText u b) : XText (.lp :: .star :: t ++ u ++ [.rp]) (.mul a b) := by
  refine ⟨by simp, fun k rest hk => ?_⟩
  obtain ⟨k, rfl⟩ : ∃ j, k = j + 1 := ⟨k - 1, by simp at hk; omega⟩
  have h1 := h.2 k (u ++ .rp :: rest) (by simp at hk; omega)
  have h2 := h'.2 k (.rp :: rest) (by simp at hk; omega)
  simp [readXadd, h1, h2]

theorem XText.add (h : XText t a) (h' : XText u b) : XText (.lp :: .plus :: t ++ u ++ [.rp]) (.add a b) := by
  refine ⟨by simp, fun k rest hk => ?_⟩
  obtain ⟨k, rfl⟩ : ∃ j, k = j + 1 := ⟨k - 1, by simp at hk; omega⟩
  have h1 := h.2 k (u ++ .rp :: rest) (by simp at hk; omega)
  have h2 := h'.2 k (.rp :: rest) (by simp at hk; omega)
  simp [readXadd, h1, h2]

theorem XText.sub (h : XText t a) (h' : XText u b) : XText (.lp :: .minus :: t ++ u ++ [.rp]) (.sub a b) := by
  refine ⟨by simp, fun k rest hk => ?_⟩
  obtain ⟨k, rfl⟩ : ∃ j, k = j + 1 := ⟨k - 1, by simp at hk; omega⟩
  have h1 := h.2 k (u ++ .rp :: rest) (by simp at hk; omega)
  have h2 := h'.2 k (.rp :: rest) (by simp at hk; omega)
  simp [readXadd, h1, h2]

theorem XText.iteLt (h1 : XText t a) (h2 : XText u b) (h3 : XText v c) (h4 : XText w d) :
    XText (.lp :: .word "ite" :: .lp :: .lt :: t ++ u ++ .rp :: v ++ w ++ [.rp]) (.ite true a b c d) := by
  refine ⟨by simp, fun k rest hk => ?_⟩
  obtain ⟨k, rfl⟩ : ∃ j, k = j + 1 := ⟨k - 1, by simp at hk; omega⟩
  have e1 := h1.2 k (u ++ .rp :: (v ++ (w ++ .rp :: rest))) (by simp at hk; omega)
  have e2 := h2.2 k (.rp :: (v ++ (w ++ .rp :: rest))) (by simp at hk; omega)
  have e3 := h3.2 k (w ++ .rp :: rest) (by simp at hk; omega)
  have e4 := h4.2 k (.rp :: rest) (by simp at hk; omega)
  simp [readXadd, e1, e2, e3, e4]

theorem XText.iteLe (h1 : XText t a) (h2 : XText u b) (h3 : XText v c) (h4 : XText w d) :
    XText (.lp :: .word "ite" :: .lp :: .le :: t ++ u ++ .rp :: v ++ w ++ [.rp]) (.ite false a b c d) := by
  refine ⟨by simp, fun k rest hk => ?_⟩
  obtain ⟨k, rfl⟩ : ∃ j, k = j + 1 := ⟨k - 1, by simp at hk; omega⟩
  have e1 := h1.2 k (u ++ .rp :: (v ++ (w ++ .rp :: rest))) (by simp at hk; omega)
  have e2 := h2.2 k (.rp :: (v ++ (w ++ .rp :: rest))) (by simp at hk; omega)
  have e3 := h3.2 k (w ++ .rp :: rest) (by simp at hk; omega)
  have e4 := h4.2 k (.rp :: rest) (by simp at hk; omega)
  simp [readXadd, e1, e2, e3, e4]

theorem XText.int (vs : List String) (h : XText t a) :
    XText (.lp :: .word "int" :: t ++ .lp :: .word "list" :: vs.map .name ++ [.rp, .rp]) (.int a vs) := by
  refine ⟨by simp, fun k rest hk => ?_⟩
  obtain ⟨k, rfl⟩ : ∃ j, k = j + 1 := ⟨k - 1, by simp at hk; omega⟩
  have e1 := h.2 k (.lp :: .word "list" :: (vs.map .name ++ .rp :: .rp :: rest)) (by simp at hk; omega)
  have e2 := readNames_map vs (.rp :: .rp :: rest) (by intro _ _ h; cases h)
  simp [readXadd, e1, e2]

end

section xadd
variable {t u : TText} {f g : (((String → K) → K) → List String → (String → K) → K) → (String → K) → K}

theorem xmeans_real (q : ℚ) : Means (K := K) XText (xaddText.real q) fun _ _ => (q : K) := by
  obtain ⟨a, ha, rfl⟩ := XText.const q
  exact ⟨_, ha, fun _ _ => rfl⟩

theorem xmeans_const {q : ℚ} (h : Means XText (constText q) f) : ∀ I ρ, f I ρ = (q : K) := by
  obtain ⟨a, ha, hf⟩ := h
  obtain ⟨b, hb, rfl⟩ := XText.const q
  intro I ρ
  rw [← hf, ha.unique hb]
  rfl

theorem xmeans_times (h : Means XText t f) (h' : Means XText u g) : Means XText (xaddText.times t u) fun I ρ => f I ρ * g I ρ := by
  simp only [xaddText]
  split
  · rename_i e
    subst e
    obtain ⟨b, hb, hg⟩ := h'
    exact ⟨b, hb, fun I ρ => by simp [hg, xmeans_const h]⟩
  · split
    · rename_i e
      subst e
      obtain ⟨b, hb, hg⟩ := h
      exact ⟨b, hb, fun I ρ => by simp [hg, xmeans_const h']⟩
    · split
      · rename_i e
        obtain ⟨c, hc, hv⟩ := xmeans_real (K := K) 0
        refine ⟨c, hc, fun I ρ => ?_⟩
        rcases e with e | e
        · subst e; simp [hv, xmeans_const h]
        · subst e; simp [hv, xmeans_const h']
      · obtain ⟨a, ha, hf⟩ := h
        obtain ⟨b, hb, hg⟩ := h'
        exact ⟨_, ha.mul hb, fun I ρ => by simp only [TExp.value, hf, hg]⟩

theorem xmeans_plus (h : Means XText t f) (h' : Means XText u g) : Means XText (xaddText.plus t u) fun I ρ => f I ρ + g I ρ := by
  simp only [xaddText]
  split
  · rename_i e
    subst e
    obtain ⟨b, hb, hg⟩ := h'
    exact ⟨b, hb, fun I ρ => by simp [hg, xmeans_const h]⟩
  · split
    · rename_i e
      subst e
      obtain ⟨b, hb, hg⟩ := h
      exact ⟨b, hb, fun I ρ => by simp [hg, xmeans_const h']⟩
    · obtain ⟨a, ha, hf⟩ := h
      obtain ⟨b, hb, hg⟩ := h'
      exact ⟨_, ha.add hb, fun I ρ => by simp only [TExp.value, hf, hg]⟩

theorem xmeans_negate (h : Means XText t f) : Means XText (xaddText.negate t) fun I ρ => -f I ρ := by
  obtain ⟨a, ha, hf⟩ := h
  obtain ⟨z, hz, rfl⟩ := XText.const 0
  exact ⟨_, hz.sub ha, fun I ρ => by simp only [TExp.value, hf]; simp⟩

theorem xmeans_lessThan (h : Means XText t f) (h' : Means XText u g) :
    Means XText (xaddText.lessThan t u) fun I ρ => if f I ρ < g I ρ then 1 else 0 := by
  obtain ⟨a, ha, hf⟩ := h
  obtain ⟨b, hb, hg⟩ := h'
  obtain ⟨z, hz, rfl⟩ := XText.const 0
  obtain ⟨o, ho, rfl⟩ := XText.const 1
  exact ⟨_, ha.iteLt hb ho hz, fun I ρ => by simp [TExp.value, hf, hg]⟩

theorem xmeans_lessThanEqual (h : Means XText t f) (h' : Means XText u g) :
    Means XText (xaddText.lessThanEqual t u) fun I ρ => if f I ρ ≤ g I ρ then 1 else 0 := by
  obtain ⟨a, ha, hf⟩ := h
  obtain ⟨b, hb, hg⟩ := h'
  obtain ⟨z, hz, rfl⟩ := XText.const 0
  obtain ⟨o, ho, rfl⟩ := XText.const 1
  exact ⟨_, ha.iteLe hb ho hz, fun I ρ => by simp [TExp.value, hf, hg]⟩

theorem xmeans_integrate (reals vs : List String) (h : Means XText t f) :
    Means XText (xaddIntegrate reals t vs) fun I ρ => I (fun τ => f I τ) (if vs = [] then reals else vs) ρ := by
  obtain ⟨a, ha, hf⟩ := h
  exact ⟨_, ha.int _, fun I ρ => by simp only [TExp.value, hf]⟩

end xadd

/-! ### C88 -/

theorem string_means (reals : List String) (c : ACall) :
    Means (K := K) Prd (c.run stringAlgebra (stringIntegrate reals)) fun I ρ => c.value I reals ρ := by
  induction c with
  | real q => exact means_real q
  | symbol x => exact means_symbol x
  | times a b iha ihb => exact means_times iha ihb
  | plus a b iha ihb => exact means_plus iha ihb
  | negate a ih => exact means_negate ih
  | lessThan a b iha ihb => exact means_lessThan iha ihb
  | lessThanEqual a b iha ihb => exact means_lessThanEqual iha ihb
  | integrate a vs ih => exact means_integrate reals vs ih

theorem xadd_means (reals : List String) (c : ACall) :
    Means (K := K) XText (c.run xaddText (xaddIntegrate reals)) fun I ρ => c.value I reals ρ := by
  induction c with
  | real q => exact xmeans_real q
  | symbol x => exact ⟨_, XText.sym x, fun _ _ => rfl⟩
  | times a b iha ihb => exact xmeans_times iha ihb
  | plus a b iha ihb => exact xmeans_plus iha ihb
  | negate a ih => exact xmeans_negate ih
  | lessThan a b iha ihb => exact xmeans_lessThan iha ihb
  | lessThanEqual a b iha ihb => exact xmeans_lessThanEqual iha ihb
  | integrate a vs ih => exact xmeans_integrate reals vs ih

/-- C88: the text of every expression built with `StringAlgebra` is read, with the usual precedences, as an expression with the mathematical
value of the calls. -/
theorem string_text_exact (reals : List String) (c : ACall) : ∃ a, readText (c.run stringAlgebra (stringIntegrate reals)) = some a ∧
    ∀ (I : ((String → K) → K) → List String → (String → K) → K) ρ, a.value I ρ = c.value I reals ρ := by
  obtain ⟨a, ha, hv⟩ := string_means (K := K) reals c
  exact ⟨a, readText_ok ha, hv⟩

/-- C88: the text of every expression built with `XaddAlgebra` is an s-expression with the mathematical value of the calls. -/
theorem xadd_text_exact (reals : List String) (c : ACall) : ∃ a, readXaddText (c.run xaddText (xaddIntegrate reals)) = some a ∧
    ∀ (I : ((String → K) → K) → List String → (String → K) → K) ρ, a.value I ρ = c.value I reals ρ := by
  obtain ⟨a, ha, hv⟩ := xadd_means (K := K) reals c
  exact ⟨a, ha.read, hv⟩

/-- The back-end that records the calls. -/
def callAlgebra : Algebra ACall where
  real := .real
  symbol := .symbol
  times := .times
  plus := .plus
  negate := .negate
  lessThan := .lessThan
  lessThanEqual := .lessThanEqual

theorem callAlgebra_sound (I : ((String → K) → K) → List String → (String → K) → K) (reals : List String) :
    callAlgebra.Sound fun c ρ => c.value I reals ρ :=
  ⟨fun _ _ => rfl, fun _ _ => rfl, fun _ _ _ => rfl, fun _ _ _ => rfl, fun _ _ => rfl, fun _ _ _ => rfl, fun _ _ _ => rfl⟩

theorem run_mono {E : Type} (A : Algebra E) (integ : E → List String → E) (k : Mono) : (monoExpr callAlgebra k).run A integ = monoExpr A k := by
  unfold monoExpr
  have : A.one = (callAlgebra.one).run A integ := rfl
  rw [this]
  exact (List.foldl_hom (fun c : ACall => c.run A integ) (fun _ _ => rfl)).symm

theorem run_poly {E : Type} (A : Algebra E) (integ : E → List String → E) (d : Dict) : (polyToExpr callAlgebra d).run A integ = polyToExpr A d := by
  unfold polyToExpr
  have : A.zero = (callAlgebra.zero).run A integ := rfl
  rw [this]
  refine (List.foldl_hom (fun c : ACall => c.run A integ) (fun c p => ?_)).symm
  rw [← run_mono A integ p.1]
  rfl

/-- C88: polynomials and linear inequalities exported into the string back-ends are read as the polynomial and as the indicator of the half-space. -/
theorem text_poly (I : ((String → K) → K) → List String → (String → K) → K) (d : Dict) :
    (∃ a, readText (polyToExpr stringAlgebra d) = some a ∧ ∀ ρ, a.value I ρ = polyEval ρ d) ∧
    (∃ a, readXaddText (polyToExpr xaddText d) = some a ∧ ∀ ρ, a.value I ρ = polyEval ρ d) := by
  have hs := callAlgebra_sound I []
  constructor
  · obtain ⟨a, h1, h2⟩ := string_text_exact (K := K) [] (polyToExpr callAlgebra d)
    rw [run_poly] at h1
    exact ⟨a, h1, fun ρ => by rw [h2]; exact polyToExpr_correct hs d ρ⟩
  · obtain ⟨a, h1, h2⟩ := xadd_text_exact (K := K) [] (polyToExpr callAlgebra d)
    rw [run_poly] at h1
    exact ⟨a, h1, fun ρ => by rw [h2]; exact polyToExpr_correct hs d ρ⟩

theorem text_linear (I : ((String → K) → K) → List String → (String → K) → K) {d : Dict} (hd : WFLin d) :
    (∃ a, readText (linToExpr stringAlgebra d) = some a ∧ ∀ ρ, a.value I ρ = if polyEval ρ d ≤ 0 then 1 else 0) ∧
    (∃ a, readXaddText (linToExpr xaddText d) = some a ∧ ∀ ρ, a.value I ρ = if polyEval ρ d ≤ 0 then 1 else 0) := by
  have hs := callAlgebra_sound I []
  have hl : ∀ {E : Type} (A : Algebra E) (integ : E → List String → E), (linToExpr callAlgebra d).run A integ = linToExpr A d := by
    intro E A integ
    unfold linToExpr
    rw [← run_poly A integ]
    rfl
  constructor
  · obtain ⟨a, h1, h2⟩ := string_text_exact (K := K) [] (linToExpr callAlgebra d)
    rw [hl] at h1
    exact ⟨a, h1, fun ρ => by rw [h2]; exact linToExpr_correct hs hd ρ⟩
  · obtain ⟨a, h1, h2⟩ := xadd_text_exact (K := K) [] (linToExpr callAlgebra d)
    rw [hl] at h1
    exact ⟨a, h1, fun ρ => by rw [h2]; exact linToExpr_correct hs hd ρ⟩

/-! ### Examples -/

/-- `-x * y` is read as `(-x) * y`. -/
theorem string_negate_example :
    (ACall.negate (.times (.symbol "x") (.symbol "y"))).run stringAlgebra (stringIntegrate []) = [.minus, .name "x", .star, .name "y"] ∧
    readText [.minus, .name "x", .star, .name "y"] = some (.mul (.neg (.sym "x")) (.sym "y")) := by
  constructor <;> decide +kernel

/-- An integral of a product with a comparison, in both notations. -/
theorem text_integral_example :
    readText ((ACall.integrate (.times (.lessThan (.real (-1)) (.symbol "x")) (.plus (.symbol "x") (.real 2))) []).run stringAlgebra
      (stringIntegrate ["x", "y"])) =
      some (.int (.mul (.lt (.neg (.num 1)) (.sym "x")) (.add (.sym "x") (.num 2))) ["x", "y"]) ∧
    readXaddText ((ACall.integrate (.times (.lessThan (.real (-1)) (.symbol "x")) (.plus (.symbol "x") (.real 2))) ["y"]).run xaddText
      (xaddIntegrate ["x", "y"])) =
      some (.int (.mul (.ite true (.num (-1)) (.sym "x") (.num 1) (.num 0)) (.add (.sym "x") (.num 2))) ["y"]) := by
  constructor <;> decide +kernel

end
end Pywmi
