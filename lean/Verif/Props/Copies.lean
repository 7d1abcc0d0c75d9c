import Verif.Engine.Copies

set_option linter.unusedSectionVars false
set_option linter.unusedSimpArgs false

/-!
# C91: engines made from engines
-/

namespace Pywmi

section
variable {S : Type}

/-! ### Specification -/

/-- SPEC: the classes of engines. -/
inductive EngineCls where
  | pa | mpwmi | rej | adapt | xadd | praise | pyxadd | xsdd | fxsdd
deriving DecidableEq

/-- SPEC: the class whose constructor is called. -/
def EngineArgs.cls : EngineArgs → EngineCls
  | .pa _ _ => .pa
  | .mpwmi _ => .mpwmi
  | .rej _ _ => .rej
  | .adapt _ _ _ _ _ => .adapt
  | .xadd _ _ => .xadd
  | .praise => .praise
  | .pyxadd _ _ _ => .pyxadd
  | .xsdd _ _ _ _ _ _ => .xsdd
  | .fxsdd _ _ _ _ _ => .fxsdd

/-- SPEC: the class of an object. -/
def Settings.cls : Settings → EngineCls
  | .pa _ _ => .pa
  | .mpwmi _ => .mpwmi
  | .rej _ _ => .rej
  | .adapt _ _ _ _ _ => .adapt
  | .xadd _ _ => .xadd
  | .praise => .praise
  | .pyxadd _ _ => .pyxadd
  | .xsdd _ _ _ _ _ _ => .xsdd
  | .fxsdd _ _ _ _ _ => .fxsdd

/-- SPEC: the number of samples for building a tree is missing, or not a fraction between -1 and 1. -/
def EngineArgs.whole : EngineArgs → Prop
  | .adapt _ (some b) _ _ _ => b = 0 ∨ 1 ≤ b ∨ b ≤ -1
  | _ => True

/-- SPEC: the installation checks depend on the class only. -/
def Around.byClass (A : Around) : Prop := ∀ a b, a.cls = b.cls → A.missing a = A.missing b

/-- SPEC: what a history does to domain, support and weight. -/
def objRun (simp : Formula → Formula) : EngineObj → List (EngineOp S) → Except PyErr EngineObj
  | o, [] => .ok o
  | o, .constraint c :: ops => objRun simp (o.withConstraint c) ops
  | o, .copyWith d s w :: ops => objRun simp (o.copyWith d s w) ops
  | o, .draw _ :: ops => objRun simp o ops
  | o, .evidence subs :: ops =>
    match o.withEvidence simp subs with
    | .error e => .error e
    | .ok o => objRun simp o ops

/-- SPEC: a call that makes a new engine. -/
def EngineOp.copies : EngineOp S → Bool
  | .draw _ => false
  | _ => true

/-! ### Lemmas -/

theorem truncInt_int (n : ℤ) : truncInt (n : ℚ) = n := by simp [truncInt]

theorem truncInt_zero {q : ℚ} (h : truncInt q = 0) : -1 < q ∧ q < 1 := by
  have hd : (0 : ℚ) < q.den := by exact_mod_cast q.den_pos
  have hz : q.num.natAbs < q.den := by
    have h1 : (q.num.tdiv q.den).natAbs = q.num.natAbs / q.den := by
      rw [Int.natAbs_tdiv]; rfl
    rw [truncInt] at h
    rw [h] at h1
    simp only [Int.natAbs_zero] at h1
    have := q.den_pos
    rcases Nat.lt_or_ge q.num.natAbs q.den with h2 | h2
    · exact h2
    · have := Nat.div_pos h2 q.den_pos
      omega
  have e : q = q.num / q.den := (Rat.num_div_den q).symm
  have l1 : -(q.den : ℤ) < q.num := by omega
  have l2 : q.num < (q.den : ℤ) := by omega
  have l1' : -(q.den : ℚ) < q.num := by exact_mod_cast l1
  have l2' : (q.num : ℚ) < q.den := by exact_mod_cast l2
  constructor
  · rw [e, lt_div_iff₀ hd]; linarith
  · rw [e, div_lt_iff₀ hd]; linarith

theorem buildCount_again {n : ℤ} {b : Option ℚ} (h : ∀ q, b = some q → q = 0 ∨ 1 ≤ q ∨ q ≤ -1) :
    buildCount n (some (buildCount n b)) = buildCount n b := by
  unfold buildCount
  have key : ∀ q : ℚ, (truncInt q ≠ 0 ∨ truncInt q = truncInt (n / 10)) →
      (if (truncInt q : ℚ) = 0 then truncInt (n / 10 : ℚ) else truncInt (truncInt q : ℚ)) = truncInt q := by
    intro q hq
    split
    · rename_i h0
      have h0' : truncInt q = 0 := by exact_mod_cast h0
      rcases hq with hq | hq
      · exact absurd h0' hq
      · exact hq.symm
    · exact truncInt_int _
  cases b with
  | none => exact key _ (.inr rfl)
  | some q =>
    simp only
    by_cases h0 : q = 0
    · simp only [h0, if_true]; exact key _ (.inr rfl)
    · simp only [h0, if_false]
      refine key _ (.inl fun hz => ?_)
      have := truncInt_zero hz
      rcases h q rfl with h1 | h1 | h1
      · exact h0 h1
      · linarith [this.2]
      · linarith [this.1]

theorem settings_again (A : Around) {a : EngineArgs} (h : a.whole) : settingsOf A (copyArgs (settingsOf A a)) = settingsOf A a := by
  cases a with
  | adapt n b st sp s =>
    simp only [settingsOf, copyArgs, Option.getD_some]
    rw [buildCount_again]
    intro q hq
    subst hq
    exact h
  | _ => simp [settingsOf, copyArgs]

theorem cls_settings (A : Around) (a : EngineArgs) : (settingsOf A a).cls = a.cls := by cases a <;> rfl

theorem cls_copy (s : Settings) : (copyArgs s).cls = s.cls := by cases s <;> rfl

/-- What every object that was made by a constructor or a copy satisfies. -/
structure Stable (A : Around) (e : EngineInst S) : Prop where
  again : settingsOf A (copyArgs e.settings) = e.settings
  exact_eq : e.exact = exactOf A e.settings
  installed : A.missing (copyArgs e.settings) = none

theorem Stable.copy {A : Around} {start : Option ℤ → S} {e : EngineInst S} (h : Stable A e) (o : EngineObj) :
    e.copy A start o = .ok ⟨e.settings, e.exact, o, start e.settings.seed⟩ := by
  simp [EngineInst.copy, newEngine, h.installed, h.again, h.exact_eq]

theorem Stable.of_eq {A : Around} {e e' : EngineInst S} (h : Stable A e) (h1 : e'.settings = e.settings) (h2 : e'.exact = e.exact) : Stable A e' :=
  ⟨by rw [h1]; exact h.again, by rw [h1, h2]; exact h.exact_eq, by rw [h1]; exact h.installed⟩

theorem newEngine_stable {A : Around} (hA : A.byClass) {start : Option ℤ → S} {a : EngineArgs} (ha : a.whole) {o : EngineObj} {e : EngineInst S}
    (h : newEngine A start a o = .ok e) : Stable A e ∧ e.obj = o ∧ e.rng = start e.settings.seed := by
  unfold newEngine at h
  split at h
  · cases h
  · rename_i hm
    cases h
    refine ⟨⟨settings_again A ha, rfl, ?_⟩, rfl, rfl⟩
    rw [hA (copyArgs (settingsOf A a)) a (by rw [cls_copy, cls_settings]), hm]

/-- One step on a stable object. -/
theorem Stable.step {A : Around} {start : Option ℤ → S} {simp : Formula → Formula} {e : EngineInst S} (h : Stable A e) (op : EngineOp S) :
    (∃ e', e.step A start simp op = .ok e' ∧ objRun simp e.obj [op] = .ok e'.obj ∧ e'.settings = e.settings ∧ e'.exact = e.exact ∧
      (op.copies = true → e'.rng = start e.settings.seed)) ∨
    ∃ err, e.step A start simp op = .error err ∧ objRun simp e.obj [op] = .error err := by
  cases op with
  | constraint c => exact .inl ⟨_, h.copy _, rfl, rfl, rfl, fun _ => rfl⟩
  | copyWith d s w => exact .inl ⟨_, h.copy _, rfl, rfl, rfl, fun _ => rfl⟩
  | draw f => exact .inl ⟨_, rfl, rfl, rfl, rfl, by simp [EngineOp.copies]⟩
  | evidence subs =>
    simp only [EngineInst.step, objRun]
    cases e.obj.withEvidence simp subs with
    | error err => exact .inr ⟨err, rfl, rfl⟩
    | ok o => exact .inl ⟨_, h.copy _, rfl, rfl, rfl, fun _ => rfl⟩

theorem objRun_cons (simp : Formula → Formula) (o : EngineObj) (op : EngineOp S) (ops : List (EngineOp S)) :
    objRun simp o (op :: ops) = match objRun simp o [op] with | .error e => .error e | .ok o' => objRun simp o' ops := by
  cases op with
  | evidence subs =>
    simp only [objRun]
    cases o.withEvidence simp subs <;> rfl
  | _ => rfl

theorem Stable.run {A : Around} {start : Option ℤ → S} {simp : Formula → Formula} (ops : List (EngineOp S)) : ∀ {e : EngineInst S}, Stable A e →
    (∃ e', e.run A start simp ops = .ok e' ∧ objRun simp e.obj ops = .ok e'.obj ∧ e'.settings = e.settings ∧ e'.exact = e.exact) ∨
    ∃ err, e.run A start simp ops = .error err ∧ objRun simp e.obj ops = .error err := by
  induction ops with
  | nil => exact fun _ => .inl ⟨_, rfl, rfl, rfl, rfl⟩
  | cons op ops ih =>
    intro e h
    rw [objRun_cons]
    rcases h.step (start := start) (simp := simp) op with ⟨e1, h1, h2, h3, h4, -⟩ | ⟨err, h1, h2⟩
    · simp only [EngineInst.run, h1, h2]
      rcases ih (h.of_eq h3 h4) with ⟨e2, g1, g2, g3, g4⟩ | ⟨err, g1, g2⟩
      · exact .inl ⟨e2, g1, g2, g3.trans h3, g4.trans h4⟩
      · exact .inr ⟨err, g1, g2⟩
    · exact .inr ⟨err, by simp only [EngineInst.run, h1], by simp only [h2]⟩

/-! ### C91 -/

/-- C91: whatever is made from an engine by any history of constraints, evidence, copies and drawn samples is an engine of the same class
with the same settings and the same `exact`, for the domain, support and weight that the history gives; it fails only where the evidence
is refused. Missing: numbers of samples for building that are fractions between -1 and 1 (`build_count_lost`). -/
theorem copies_keep_partial {A : Around} (hA : A.byClass) {start : Option ℤ → S} {simp : Formula → Formula} {a : EngineArgs} (ha : a.whole) {o : EngineObj}
    {e : EngineInst S} (he : newEngine A start a o = .ok e) (ops : List (EngineOp S)) :
    (∃ e', e.run A start simp ops = .ok e' ∧ e'.settings = e.settings ∧ e'.settings.cls = a.cls ∧ e'.exact = e.exact ∧
      objRun simp o ops = .ok e'.obj) ∨
    ∃ err, e.run A start simp ops = .error err ∧ objRun simp o ops = .error err := by
  obtain ⟨hs, ho, -⟩ := newEngine_stable hA ha he
  have hc : e.settings.cls = a.cls := by
    unfold newEngine at he
    split at he
    · cases he
    · cases he; exact cls_settings A a
  rcases hs.run (start := start) (simp := simp) ops with ⟨e', h1, h2, h3, h4⟩ | ⟨err, h1, h2⟩
  · exact .inl ⟨e', h1, h3, by rw [h3, hc], h4, by rw [← ho]; exact h2⟩
  · exact .inr ⟨err, h1, by rw [← ho]; exact h2⟩

theorem EngineInst.run_append (A : Around) (start : Option ℤ → S) (simp : Formula → Formula) (xs ys : List (EngineOp S)) : ∀ e : EngineInst S,
    e.run A start simp (xs ++ ys) = match e.run A start simp xs with | .error err => .error err | .ok e' => e'.run A start simp ys := by
  induction xs with
  | nil => intro e; rfl
  | cons x xs ih =>
    intro e
    simp only [List.cons_append, EngineInst.run]
    cases e.step A start simp x with
    | error err => rfl
    | ok e' => exact ih e'

/-- C91: an engine made from another one draws the samples that a new engine with the seed draws, however many samples were drawn before. -/
theorem copies_restart {A : Around} (hA : A.byClass) {start : Option ℤ → S} {simp : Formula → Formula} {a : EngineArgs} (ha : a.whole) {o : EngineObj}
    {e : EngineInst S} (he : newEngine A start a o = .ok e) (ops : List (EngineOp S)) {op : EngineOp S} (hop : op.copies = true) {e' : EngineInst S}
    (hr : e.run A start simp (ops ++ [op]) = .ok e') : e'.rng = e.rng := by
  obtain ⟨hs, -, hrng⟩ := newEngine_stable hA ha he
  rw [EngineInst.run_append] at hr
  rcases hs.run (start := start) (simp := simp) ops with ⟨e1, h1, -, h3, h4⟩ | ⟨err, h1, -⟩
  · rw [h1] at hr
    have hs1 := hs.of_eq h3 h4
    rcases hs1.step (start := start) (simp := simp) op with ⟨e2, g1, -, -, -, g5⟩ | ⟨err, g1, -⟩
    · simp only [EngineInst.run, g1] at hr
      cases hr
      rw [g5 hop, h3, hrng]
    · simp only [EngineInst.run, g1] at hr
      cases hr
  · rw [h1] at hr; cases hr

/-- SPEC: an object is as its constructor was told: every argument that was given is stored, the others have their defaults, and numbers of
samples for building are cut to whole numbers, a tenth of the samples if none is given. -/
inductive EngineArgs.Told (A : Around) : EngineArgs → Settings → Prop
  | pa (d t) : Told A (.pa d t) (.pa d t)
  | mpwmi (c) : Told A (.mpwmi c) (.mpwmi c)
  | rej (n s) : Told A (.rej n s) (.rej n s)
  | adapt (n) (b : Option ℚ) (k : ℤ) (st sp : Option ℕ) (i j : ℕ) (s) (hst : ∀ x ∈ st, i = x) (hst' : st = none → i = A.stop)
      (hsp : ∀ x ∈ sp, j = x) (hsp' : sp = none → j = A.split) (hk : ∀ m : ℤ, b = some (m : ℚ) → m ≠ 0 → k = m)
      (hk' : ∀ m : ℤ, b = none → n = 10 * m → k = m) : Told A (.adapt n b st sp s) (.adapt n k i j s)
  | xadd (m t) : Told A (.xadd m t) (.xadd m t)
  | praise : Told A .praise .praise
  | pyxadd (p : Option ℕ) (i : ℕ) (r a) (hp : ∀ x ∈ p, i = x) (hp' : p = none → i = A.pool a) : Told A (.pyxadd p r a) (.pyxadd i r)
  | xsdd (a : Option ℕ) (i : ℕ) (b c o v m) (ha : ∀ x ∈ a, i = x) (ha' : a = none → i = A.algebra) :
      Told A (.xsdd a b c o v m) (.xsdd i b c o v m)
  | fxsdd (a : Option ℕ) (i : ℕ) (c o v m) (ha : ∀ x ∈ a, i = x) (ha' : a = none → i = A.falgebra) :
      Told A (.fxsdd a c o v m) (.fxsdd i c o v m)

/-- SPEC: the objects that claim to be exact: none that samples, XSDD engines if the back-end that integrates is, all others. -/
def Settings.exactClaim (A : Around) (s : Settings) : Prop :=
  s.cls ≠ .rej ∧ s.cls ≠ .adapt ∧ (∀ a b c o v m, s = .xsdd a (some b) c o v m → A.backExact b = true) ∧
    (∀ a c o v m, s = .xsdd a none c o v m → A.algExact a = true) ∧ ∀ a c o v m, s = .fxsdd a c o v m → A.algExact a = true

/-- C91: an engine has the settings its constructor was given, claims to be exact exactly if what integrates is, and has the generator of its
seed. -/
theorem engine_as_told {A : Around} {start : Option ℤ → S} {a : EngineArgs} {o : EngineObj} {e : EngineInst S} (he : newEngine A start a o = .ok e) :
    a.Told A e.settings ∧ (e.exact = true ↔ e.settings.exactClaim A) ∧ e.obj = o ∧
      (∀ n s, a = .rej n s → e.rng = start s) ∧ ∀ n b i j s, a = .adapt n b i j s → e.rng = start s := by
  unfold newEngine at he
  split at he
  · cases he
  cases he
  refine ⟨?_, ?_, rfl, fun n s h => by subst h; rfl, fun n b i j s h => by subst h; rfl⟩
  · cases a with
    | adapt n b st sp s =>
      refine .adapt n b _ st sp _ _ s (by rintro x hx; cases hx; rfl) (by rintro rfl; rfl) (by rintro x hx; cases hx; rfl) (by rintro rfl; rfl) ?_ ?_
      · rintro m rfl hm
        have : ¬((m : ℚ) = 0) := by exact_mod_cast hm
        simp only [buildCount, if_neg this, truncInt_int]
      · rintro m rfl rfl
        have : (((10 * m : ℤ) : ℚ) / 10) = ((m : ℤ) : ℚ) := by push_cast; ring
        simp only [buildCount, this, truncInt_int]
    | pyxadd p r a => exact .pyxadd p _ r a (by rintro x hx; cases hx; rfl) (by rintro rfl; rfl)
    | xsdd a b c o v m => exact .xsdd a _ b c o v m (by rintro x hx; cases hx; rfl) (by rintro rfl; rfl)
    | fxsdd a c o v m => exact .fxsdd a _ c o v m (by rintro x hx; cases hx; rfl) (by rintro rfl; rfl)
    | _ => constructor
  · cases a with
    | xsdd a b c o v m =>
      cases b with
      | none =>
        exact ⟨fun h => ⟨by simp [settingsOf, Settings.cls], by simp [settingsOf, Settings.cls], by simp [settingsOf],
          fun _ _ _ _ _ e => by cases e; exact h, by simp [settingsOf]⟩, fun h => h.2.2.2.1 _ _ _ _ _ rfl⟩
      | some b =>
        exact ⟨fun h => ⟨by simp [settingsOf, Settings.cls], by simp [settingsOf, Settings.cls], fun _ _ _ _ _ _ e => by cases e; exact h,
          by simp [settingsOf], by simp [settingsOf]⟩, fun h => h.2.2.1 _ _ _ _ _ _ rfl⟩
    | fxsdd a c o v m =>
      exact ⟨fun h => ⟨by simp [settingsOf, Settings.cls], by simp [settingsOf, Settings.cls], by simp [settingsOf], by simp [settingsOf],
        fun _ _ _ _ _ e => by cases e; exact h⟩, fun h => h.2.2.2.2 _ _ _ _ _ rfl⟩
    | _ => simp [settingsOf, exactOf, Settings.exactClaim, Settings.cls]

/-- SPEC: the state of a generator after a history: every call that makes a new engine starts the generator of the seed, drawing moves it. -/
def rngAfter (s0 : S) : S → List (EngineOp S) → S
  | s, [] => s
  | s, .draw f :: ops => rngAfter s0 (f s) ops
  | _, _ :: ops => rngAfter s0 s0 ops

/-- C91: the generator after any history. -/
theorem copies_generator {A : Around} (hA : A.byClass) {start : Option ℤ → S} {simp : Formula → Formula} {a : EngineArgs} (ha : a.whole) {o : EngineObj}
    {e : EngineInst S} (he : newEngine A start a o = .ok e) {ops : List (EngineOp S)} {e' : EngineInst S} (hr : e.run A start simp ops = .ok e') :
    e'.rng = rngAfter e.rng e.rng ops := by
  obtain ⟨hs, -, hrng⟩ := newEngine_stable hA ha he
  have key : ∀ (ops : List (EngineOp S)) (x x' : EngineInst S), Stable A x → x.settings = e.settings → x.run A start simp ops = .ok x' →
      x'.rng = rngAfter e.rng x.rng ops := by
    intro ops
    induction ops with
    | nil => intro x x' _ _ h; cases h; rfl
    | cons op ops ih =>
      intro x x' hx hset h
      rcases hx.step (start := start) (simp := simp) op with ⟨y, g1, -, g3, g4, g5⟩ | ⟨err, g1, -⟩
      · simp only [EngineInst.run, g1] at h
        have := ih y x' (hx.of_eq g3 g4) (g3.trans hset) h
        rw [this]
        cases op with
        | draw f => cases g1; rfl
        | _ => rw [g5 rfl, hset, ← hrng]; rfl
      · simp only [EngineInst.run, g1] at h
        cases h
  exact key ops e e' hs rfl hr

variable {K : Type} [Field K] [LinearOrder K]

/-- C91: the probabilities of an engine of a class that inherits `compute_probabilities` and is not adaptive are those of the model without objects (to which C23 to C25 apply), with the
settings fixed: the engines for the queries have the same settings. -/
theorem copies_probabilities_partial {A : Around} (hA : A.byClass) {start : Option ℤ → S} {simp : Formula → Formula} {a : EngineArgs} (ha : a.whole) {o : EngineObj}
    {e : EngineInst S} (he : newEngine A start a o = .ok e) (hc' : a.cls ∈ [EngineCls.pa, .xadd, .pyxadd, .xsdd, .fxsdd]) (vol : Settings → EngineObj → Bool → Except PyErr K)
    (queries : List Formula) (ab : Bool) :
    e.probabilities A start simp vol queries ab = o.computeProbabilities (vol e.settings) queries ab := by
  obtain ⟨hs, ho, -⟩ := newEngine_stable hA ha he
  have hc : a.cls ≠ .adapt := by rintro h; rw [h] at hc'; simp at hc'
  have hcls : e.settings.cls ≠ .adapt := by
    unfold newEngine at he
    split at he
    · cases he
    · cases he; rw [cls_settings]; exact hc
  have hv : ∀ e' : EngineInst S, e'.settings = e.settings → e'.volumeCall vol ab = vol e.settings e'.obj ab := by
    intro e' h
    unfold EngineInst.volumeCall
    rw [h]
    split
    · rename_i h'; rw [h'] at hcls; exact absurd rfl hcls
    · rfl
  subst ho
  unfold EngineInst.probabilities EngineObj.computeProbabilities
  rw [hv e rfl]
  cases vol e.settings e.obj ab with
  | error err => rfl
  | ok v =>
    simp only
    congr 1
    funext q
    have : e.step A start simp (.constraint q) = .ok ⟨e.settings, e.exact, e.obj.withConstraint q, start e.settings.seed⟩ := hs.copy _
    rw [this]
    simp only
    rw [hv ⟨e.settings, e.exact, e.obj.withConstraint q, start e.settings.seed⟩ rfl]
    split
    · cases vol e.settings (e.obj.withConstraint q) ab <;> rfl
    · rfl

/-- C91 is wrong for adaptive rejection: `compute_probabilities` always raises a TypeError. -/
theorem adaptive_probabilities_fail {A : Around} {start : Option ℤ → S} {simp : Formula → Formula} {a : EngineArgs} {o : EngineObj}
    {e : EngineInst S} (he : newEngine A start a o = .ok e) (hc : a.cls = .adapt) (vol : Settings → EngineObj → Bool → Except PyErr K)
    (queries : List Formula) (ab : Bool) : e.probabilities A start simp vol queries ab = .error .typeError := by
  cases a <;> simp [EngineArgs.cls] at hc
  unfold newEngine at he
  split at he
  · cases he
  · cases he
    simp [EngineInst.probabilities, EngineInst.volumeCall, settingsOf]

end

namespace CopiesExample

/-- EXAMPLE: everything is installed. -/
def around : Around := ⟨fun _ => none, 0, 1, fun _ => 7, 2, 3, fun _ => true, fun _ => false⟩
/-- EXAMPLE: an engine object without variables. -/
def prob : EngineObj := ⟨⟨["b"], [("b", .bool)], []⟩, .sym "b" .bool, some (.realC 1)⟩

theorem around_byClass : around.byClass := fun _ _ _ => rfl

/-- The hypotheses are met, with settings that are not the defaults: an adaptive engine after evidence and drawn samples. -/
example : ∃ e e' : EngineInst ℕ, newEngine around (fun s => (s.getD 0).toNat) (.adapt 1000 (some 50) none (some 9) (some 4)) prob = .ok e ∧
    e.run around (fun s => (s.getD 0).toNat) id [.draw (· + 3), .evidence [(.sym "b" .bool, .boolC true)], .constraint (.boolC true)] = .ok e' ∧
    e'.settings = .adapt 1000 50 0 9 (some 4) ∧ e'.exact = false ∧ e'.rng = 4 := ⟨_, _, rfl, rfl, rfl, rfl, rfl⟩

/-- An engine with a back-end that is not exact stays inexact. -/
example : ∃ e e' : EngineInst ℕ, newEngine around (fun _ => 0) (.xsdd none (some 5) true false (some 1) true) prob = .ok e ∧
    e.run around (fun _ => 0) id [.copyWith none none (some (.realC 2)), .constraint (.boolC true)] = .ok e' ∧
    e'.settings = .xsdd 2 (some 5) true false (some 1) true ∧ e'.exact = false := ⟨_, _, rfl, rfl, rfl, rfl⟩

end CopiesExample

open CopiesExample in
/-- C91 is wrong for a fraction as number of samples for building: 0.5 becomes 0, and 0 becomes the default in the first copy. -/
theorem build_count_lost : ∃ e e' : EngineInst ℕ, newEngine around (fun _ => 0) (.adapt 1000 (some (1 / 2)) none none none) prob = .ok e ∧
    e.step around (fun _ => 0) id (.constraint (.boolC true)) = .ok e' ∧ e.settings = .adapt 1000 0 0 1 none ∧
    e'.settings = .adapt 1000 100 0 1 none := ⟨_, _, rfl, rfl, by decide +kernel, by decide +kernel⟩

end Pywmi
