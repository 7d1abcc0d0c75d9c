import Verif.Xadd.Tree
import Verif.Smt.Congr

set_option linter.unusedSectionVars false
set_option linter.unusedSimpArgs false

/-!
# Invariant of a pool: tests and nodes
-/

namespace Pywmi
open Formula Prog Decision

/-! ### Tests -/

/-- SPEC: the tests that pyxadd makes decisions of: constants, Boolean literals, linear comparisons and their negations. -/
inductive TestForm : Formula → Prop
  | const (b : Bool) : TestForm (.boolC b)
  | sym (b : String) : TestForm (.sym b .bool)
  | notSym (b : String) : TestForm (.not (.sym b .bool))
  | le {l r : Formula} : linTerm l = true → linTerm r = true → TestForm (.le l r)
  | lt {l r : Formula} : linTerm l = true → linTerm r = true → TestForm (.lt l r)
  | notLe {l r : Formula} : linTerm l = true → linTerm r = true → TestForm (.not (.le l r))
  | notLt {l r : Formula} : linTerm l = true → linTerm r = true → TestForm (.not (.lt l r))

/-- Assumptions on pysmt's `simplify`: it keeps the meaning and introduces no symbols, leaves Boolean literals alone, evaluates
comparisons of constants, keeps linear terms linear, and turns other comparisons into a constant or the comparison of the
simplified sides. -/
structure SimpLaw (simp : Formula → Formula) : Prop where
  truth : ∀ f, wt .bool f = true → ∀ σ : Env ℝ, truth σ (simp f) = truth σ f
  value : ∀ f, wt .real f = true → ∀ σ : Env ℝ, value σ (simp f) = value σ f
  syms : ∀ f, ∀ p ∈ syms (simp f), p ∈ syms f
  sym : ∀ b, simp (.sym b .bool) = .sym b .bool
  notSym : ∀ b, simp (.not (.sym b .bool)) = .not (.sym b .bool)
  constLe : ∀ a b : ℚ, simp (.le (.realC a) (.realC b)) = .boolC (decide (a ≤ b))
  term : ∀ l, linTerm l = true → linTerm (simp l) = true
  cmp : ∀ l r, linTerm l = true → linTerm r = true → (∃ b, simp (.lt l r) = .boolC b) ∨ simp (.lt l r) = .lt (simp l) (simp r)

/-- How a pool reads a test: Boolean tests as they are, linear comparisons with `readDict`, that is without regard to
strictness. -/
noncomputable def readTest (σ : Env ℝ) : Formula → Bool
  | .boolC b => b
  | .sym n _ => σ.b n
  | .not (.sym n _) => !σ.b n
  | g => match linFromSmt g with
    | .ok q => readDict σ.r q
    | .error _ => false

/-- SPEC: the two sides of the comparison have the same value. -/
def onBoundary (σ : Env ℝ) : Formula → Prop
  | .le l r => value σ l = value σ r
  | .lt l r => value σ l = value σ r
  | .not g => onBoundary σ g
  | _ => False

/-- A decision as stored in nodes: canonical, with a Boolean symbol or a canonical inequality. -/
def DecOk (d : Decision) : Prop :=
  d.canonical = true ∧ ((∃ b, d.test = .sym b .bool) ∨ ∃ q, d.ineq = some q ∧ CanonLin q ∧ linToSmt q = .ok d.test)

theorem linToSmt_form {d : Dict} {g : Formula} (h : linToSmt d = .ok g) : (∃ l r, g = .le l r) ∨ ∃ l r, g = .lt l r := by
  unfold linToSmt at h
  split at h
  · exact Or.inl ⟨_, _, (by simpa using h.symm)⟩
  · split at h
    · exact Or.inl ⟨_, _, (by simpa using h.symm)⟩
    · split at h
      · split at h
        · exact Or.inr ⟨_, _, (by simpa using h.symm)⟩
        · cases h
      · cases h

section
variable {K : Type} [Field K] [LinearOrder K] [IsStrictOrderedRing K]

theorem polyEval_key (ρ : String → K) {d : Dict} (hn : KeysNodup d) (k : Mono) :
    polyEval ρ d = polyEval ρ (d.filter fun p => p.1 ≠ k) + (linCoef d k : K) * monoEval ρ k := by
  induction d with
  | nil => simp [linCoef]
  | cons p d ih =>
    obtain ⟨k', v⟩ := p
    simp only [KeysNodup, List.map_cons, List.nodup_cons] at hn
    by_cases hk : k' = k
    · subst hk
      have hno : d.filter (fun p => p.1 ≠ k') = d := by
        apply List.filter_eq_self.mpr
        intro q hq
        simp only [ne_eq, decide_eq_true_eq]
        intro h
        exact hn.1 (List.mem_map.mpr ⟨q, hq, h⟩)
      rw [List.filter_cons_of_neg (by simp), hno, polyEval_cons]
      simp [linCoef, List.lookup_cons]; ring
    · rw [List.filter_cons_of_pos (by simpa using hk), polyEval_cons, polyEval_cons, ih hn.2]
      have : linCoef ((k', v) :: d) k = linCoef d k := by
        unfold linCoef
        rw [List.lookup_cons]
        simp [beq_eq_false_iff_ne.mpr (Ne.symm hk)]
      rw [this]; ring

theorem polyEval_agree {ρ ρ' : String → K} {d : Dict} (h : ∀ p ∈ d, ∀ x ∈ p.1, ρ x = ρ' x) : polyEval ρ d = polyEval ρ' d := by
  unfold polyEval monoEval
  congr 1
  apply List.map_congr_left
  intro p hp
  congr 2
  exact List.map_congr_left fun x hx => h p hp x hx

/-- A linear form as a function of one of its variables. -/
theorem polyEval_var {d : Dict} (hn : KeysNodup d) (hl : ∀ p ∈ d, p.1.length ≤ 1) (x : String) (ρ : String → K) (t : K) :
    polyEval (fun y => if y = x then t else ρ y) d = polyEval ρ (d.filter fun p => p.1 ≠ [x]) + (linCoef d [x] : K) * t := by
  rw [polyEval_key _ hn [x], monoEval_single, if_pos rfl]
  congr 1
  apply polyEval_agree
  intro p hp y hy
  obtain ⟨hp, hpx⟩ := List.mem_filter.mp hp
  have := hl p hp
  rw [if_neg]
  rintro rfl
  match hp1 : p.1, this, hy with
  | [z], _, hy =>
    simp only [List.mem_singleton] at hy
    subst hy
    simp [hp1] at hpx

theorem CanonLin.coef {q : Dict} (h : CanonLin q) : ∃ x, linCoef q [x] ≠ 0 := by
  obtain ⟨p, hp, hne⟩ := h.var
  have := h.lin p hp
  match hp1 : p.1, this, hne with
  | [x], _, _ => exact ⟨x, linCoef_ne_zero h.nodup h.nz (List.mem_map.mpr ⟨p, hp, hp1⟩)⟩

/-- A canonical linear form takes both signs. -/
theorem CanonLin.both {q : Dict} (h : CanonLin q) : (∃ ρ : String → K, polyEval ρ q < 0) ∧ ∃ ρ : String → K, ¬polyEval ρ q < 0 := by
  obtain ⟨x, hx⟩ := h.coef
  have hx' : (linCoef q [x] : K) ≠ 0 := by exact_mod_cast hx
  refine ⟨⟨fun y => if y = x then (-1 - polyEval (fun _ => (0 : K)) (q.filter fun p => p.1 ≠ [x])) / linCoef q [x] else 0, ?_⟩,
    ⟨fun y => if y = x then -polyEval (fun _ => (0 : K)) (q.filter fun p => p.1 ≠ [x]) / linCoef q [x] else 0, ?_⟩⟩
  · rw [polyEval_var h.nodup h.lin, mul_div_cancel₀ _ hx']
    linarith
  · rw [polyEval_var h.nodup h.lin, mul_div_cancel₀ _ hx']
    linarith

end

theorem DecOk.truth_lin {q : Dict} (hq : CanonLin q) {g : Formula} (hg : linToSmt q = .ok g) :
    wt .bool g = true ∧ ∀ σ : Env ℝ, truth σ g = true ↔ polyEval σ.r q < 0 := by
  obtain ⟨g', hg', hw, ht⟩ := linToSmt_spec (K := ℝ) hq.nodup hq.nz hq.ne_nil
  rw [hg] at hg'
  simp only [Except.ok.injEq] at hg'
  subst hg'
  exact ⟨hw, ht⟩

theorem DecOk.wt {d : Decision} (h : DecOk d) : Formula.wt .bool d.test = true := by
  rcases h.2 with ⟨b, hb⟩ | ⟨q, -, hq, hg⟩
  · rw [hb]; rfl
  · exact (DecOk.truth_lin hq hg).1

/-- The tests of nodes have two valid branches. -/
theorem DecOk.branches {simp : Formula → Formula} (hs : SimpLaw simp) {d : Decision} (h : DecOk d) :
    d.validBranches simp = .ok [true, false] := by
  rcases h.2 with ⟨b, hb⟩ | ⟨q, hi, hq, hg⟩
  · simp [validBranches, simplified, hb, isBoolTest, hs.sym]
  · obtain ⟨hw, ht⟩ := DecOk.truth_lin hq hg
    have h1 : ¬(d.test = .boolC true ∨ d.test = .boolC false) := by
      rcases linToSmt_form hg with ⟨l, r, h⟩ | ⟨l, r, h⟩ <;> simp [h]
    have h2 : isBoolTest d.test = false := by
      rcases linToSmt_form hg with ⟨l, r, h⟩ | ⟨l, r, h⟩ <;> simp [h, isBoolTest]
    have h3 : ∀ b, simp d.test ≠ .boolC b := by
      intro b hb
      have hc : ∀ σ : Env ℝ, truth σ d.test = b := fun σ => by
        rw [← hs.truth _ hw, hb, truth]
      obtain ⟨⟨ρ, hρ⟩, ρ', hρ'⟩ := hq.both (K := ℝ)
      have e1 := (ht ⟨fun _ => false, ρ⟩).mpr hρ
      have e2 : truth (⟨fun _ => false, ρ'⟩ : Env ℝ) d.test ≠ true := fun h => hρ' ((ht _).mp h)
      rw [hc] at e1 e2
      exact e2 e1
    simp [validBranches, simplified, h1, h2, inequality, hi, hg, h3]

theorem DecOk.canon {simp : Formula → Formula} {d : Decision} (h : DecOk d) (t f : ℕ) : d.toCanonical simp t f = .ok (d, t, f) := by
  simp [toCanonical, h.1]

/-! ### Reading tests -/

theorem linFromSmt_not {g : Formula} {q : Dict} (hq : linFromSmt g = .ok q) :
    linFromSmt (.not g) = .ok (q.map fun p => (p.1, -p.2)) := by
  unfold linFromSmt at hq ⊢
  rw [mathDict_walk]
  show (match interp (mathDict true) (Prog.call g fun d => .done (dictNeg d)) with
    | .ok d => Except.ok (linMk d) | .error e => .error e) = _
  simp only [interp]
  cases hm : mathDict true g with
  | error e => rw [hm] at hq; cases hq
  | ok d =>
    rw [hm] at hq
    simp only [Except.ok.injEq] at hq
    subst hq
    simp only [interp, Except.ok.injEq, dictNeg, linMk, List.filter_map]
    congr 1
    apply List.filter_congr
    intro p _
    simp

/-- SPEC: the difference of the sides of a comparison, negated for negated comparisons. -/
noncomputable def gap (σ : Env ℝ) : Formula → ℝ
  | .le l r => value σ l - value σ r
  | .lt l r => value σ l - value σ r
  | .not g => -gap σ g
  | _ => 0

/-- What is known about the dictionary of a linear test. -/
structure LinRead (g : Formula) (q : Dict) : Prop where
  from' : linFromSmt g = .ok q
  notBool : isBoolTest g = false
  notConst : ∀ b, g ≠ .boolC b
  notSym : ∀ n t, g ≠ .sym n t
  nodup : KeysNodup q
  nz : ∀ p ∈ q, p.2 ≠ 0
  lin : ∀ p ∈ q, p.1.length ≤ 1
  scale : ∃ c : ℝ, 0 < c ∧ ∀ σ : Env ℝ, polyEval σ.r q = gap σ g * c
  vars : ∀ x, linCoef q [x] ≠ 0 → (x, Ty.real) ∈ syms g

theorem cmp_vars {l r : Formula} (hl : linTerm l = true) (hr : linTerm r = true) {q : Dict} (hn : KeysNodup q)
    (hlin : ∀ p ∈ q, p.1.length ≤ 1) {c : ℝ} (h : ∀ σ : Env ℝ, polyEval σ.r q = (value σ l - value σ r) * c) (x : String)
    (hx : linCoef q [x] ≠ 0) : (x, Ty.real) ∈ syms l ++ syms r := by
  by_contra hno
  have hag : ∀ s t : ℝ, ∀ p ∈ syms l ++ syms r,
      Agree (⟨fun _ => false, fun y => if y = x then s else 0⟩ : Env ℝ) ⟨fun _ => false, fun y => if y = x then t else 0⟩ p := by
    intro s t p hp
    obtain ⟨n, ty⟩ := p
    cases ty with
    | bool => rfl
    | real =>
      show (if n = x then s else 0) = if n = x then t else 0
      rw [if_neg, if_neg] <;> rintro rfl <;> exact hno hp
  have h1 := h ⟨fun _ => false, fun y => if y = x then 0 else 0⟩
  have h2 := h ⟨fun _ => false, fun y => if y = x then 1 else 0⟩
  rw [value_congr (lin_wt hl) fun p hp => hag 0 1 p (List.mem_append_left _ hp),
    value_congr (lin_wt hr) fun p hp => hag 0 1 p (List.mem_append_right _ hp), ← h2] at h1
  have e := polyEval_var hn hlin x (fun _ => (0 : ℝ))
  rw [e 0, e 1] at h1
  have hx' : (linCoef q [x] : ℝ) ≠ 0 := by exact_mod_cast hx
  apply hx'
  linarith

theorem linRead_cmp {l r g : Formula} (hl : linTerm l = true) (hr : linTerm r = true) (hg : g = .le l r ∨ g = .lt l r) :
    ∃ q, LinRead g q := by
  obtain ⟨q, hq⟩ := linFromSmt_ok hl hr hg
  obtain ⟨c, hc, he, hk, hn, hz⟩ := linFromSmt_cmp (K := ℝ) (lin_wt hl) (lin_wt hr) hg hq
  refine ⟨q, hq, ?_, ?_, ?_, hn, hz, hk, ⟨c, by exact_mod_cast hc, fun σ => ?_⟩, fun x hx => ?_⟩
  · rcases hg with rfl | rfl <;> rfl
  · rcases hg with rfl | rfl <;> simp
  · rcases hg with rfl | rfl <;> simp
  · rcases hg with rfl | rfl <;> exact he σ
  · have := cmp_vars hl hr hn hk he x hx
    rcases hg with rfl | rfl <;> exact this

theorem LinRead.not {g : Formula} {q : Dict} (h : LinRead g q) (hg : ∀ n t, g ≠ .sym n t) :
    LinRead (.not g) (q.map fun p => (p.1, -p.2)) := by
  obtain ⟨c, hc, hs⟩ := h.scale
  refine ⟨linFromSmt_not h.from', ?_, by simp, by simp, h.nodup.mapVal _, ?_, ?_, ⟨c, hc, fun σ => ?_⟩, fun x hx => ?_⟩
  · cases g <;> first | rfl | exact absurd rfl (hg _ _)
  · intro p hp; obtain ⟨r, hr, rfl⟩ := List.mem_map.mp hp; simpa using h.nz r hr
  · intro p hp; obtain ⟨r, hr, rfl⟩ := List.mem_map.mp hp; exact h.lin r hr
  · rw [polyEval_neg, hs σ, gap]; ring
  · rw [linCoef_mapVal q (g := fun v => -v) (by simp)] at hx
    exact h.vars x (by simpa using hx)

/-- The linear tests. -/
theorem TestForm.cases {g : Formula} (h : TestForm g) :
    (∃ b, g = .boolC b) ∨ (∃ b, g = .sym b .bool) ∨ (∃ b, g = .not (.sym b .bool)) ∨ ∃ q, LinRead g q := by
  cases h with
  | const b => exact Or.inl ⟨b, rfl⟩
  | sym b => exact Or.inr (Or.inl ⟨b, rfl⟩)
  | notSym b => exact Or.inr (Or.inr (Or.inl ⟨b, rfl⟩))
  | le hl hr => exact Or.inr (Or.inr (Or.inr (linRead_cmp hl hr (Or.inl rfl))))
  | lt hl hr => exact Or.inr (Or.inr (Or.inr (linRead_cmp hl hr (Or.inr rfl))))
  | notLe hl hr =>
    obtain ⟨q, h⟩ := linRead_cmp hl hr (Or.inl rfl)
    exact Or.inr (Or.inr (Or.inr ⟨_, h.not (by simp)⟩))
  | notLt hl hr =>
    obtain ⟨q, h⟩ := linRead_cmp hl hr (Or.inr rfl)
    exact Or.inr (Or.inr (Or.inr ⟨_, h.not (by simp)⟩))

theorem readTest_lin {g : Formula} {q : Dict} (h : LinRead g q) (σ : Env ℝ) : readTest σ g = readDict σ.r q := by
  have h1 := h.notConst
  have h2 := h.notBool
  have h3 := h.from'
  cases g with
  | boolC b => exact absurd rfl (h1 b)
  | sym n t => exact absurd rfl (h.notSym n t)
  | not a =>
    cases a with
    | sym n t => cases h2
    | _ => simp only [readTest, h3]
  | _ => simp only [readTest, h3]

/-- Where the sides differ the pool reads a comparison as it is. -/
theorem readTest_gap {g : Formula} {q : Dict} (h : LinRead g q) (σ : Env ℝ) :
    (readTest σ g = true → gap σ g ≤ 0) ∧ (readTest σ g = false → 0 ≤ gap σ g) := by
  obtain ⟨c, hc, hs⟩ := h.scale
  rw [readTest_lin h, readDict]
  have h1 : polyEval σ.r q ≤ 0 → gap σ g ≤ 0 := by
    rw [hs σ]; intro h; by_contra h'; push Not at h'; have := mul_pos h' hc; linarith
  have h2 : 0 ≤ polyEval σ.r q → 0 ≤ gap σ g := by
    rw [hs σ]; intro h; by_contra h'; push Not at h'; have := mul_neg_of_neg_of_pos h' hc; linarith
  split
  · simp only [decide_eq_true_eq, decide_eq_false_iff_not, not_lt]
    exact ⟨fun h => h1 h.le, h2⟩
  · simp only [decide_eq_true_eq, decide_eq_false_iff_not, not_le]
    exact ⟨h1, fun h => h2 h.le⟩

theorem readTest_truth {g : Formula} (h : TestForm g) (σ : Env ℝ) (hb : ¬onBoundary σ g) : readTest σ g = truth σ g := by
  have key : ∀ {l r : Formula} {g : Formula}, TestForm g → gap σ g ≠ 0 →
      (∃ q, LinRead g q) → (truth σ g = true ↔ gap σ g < 0) → readTest σ g = truth σ g := by
    intro l r g _ hne ⟨q, hq⟩ ht
    obtain ⟨h1, h2⟩ := readTest_gap hq σ
    cases hr : readTest σ g with
    | true => exact (ht.mpr (lt_of_le_of_ne (h1 hr) hne)).symm
    | false =>
      have := h2 hr
      cases htt : truth σ g with
      | true => exact absurd (ht.mp htt) (not_lt.mpr this)
      | false => rfl
  cases h with
  | const b => rfl
  | sym b => rfl
  | notSym b => simp [readTest, truth]
  | @le l r hl hr =>
    have hne : value σ l ≠ value σ r := hb
    refine key (l := l) (r := r) (.le hl hr) (sub_ne_zero.mpr hne) (linRead_cmp hl hr (Or.inl rfl)) ?_
    simp only [truth, gap, decide_eq_true_eq, sub_neg]
    exact ⟨fun h => lt_of_le_of_ne h hne, le_of_lt⟩
  | @lt l r hl hr =>
    have hne : value σ l ≠ value σ r := hb
    refine key (l := l) (r := r) (.lt hl hr) (sub_ne_zero.mpr hne) (linRead_cmp hl hr (Or.inr rfl)) ?_
    simp only [truth, gap, decide_eq_true_eq, sub_neg]
  | @notLe l r hl hr =>
    have hne : value σ l ≠ value σ r := hb
    obtain ⟨q, hq⟩ := linRead_cmp hl hr (Or.inl rfl)
    refine key (l := l) (r := r) (.notLe hl hr) (neg_ne_zero.mpr (sub_ne_zero.mpr hne)) ⟨_, hq.not (by simp)⟩ ?_
    simp only [truth, gap, Bool.not_eq_true', decide_eq_false_iff_not, not_le, neg_lt_zero, sub_pos]
  | @notLt l r hl hr =>
    have hne : value σ l ≠ value σ r := hb
    obtain ⟨q, hq⟩ := linRead_cmp hl hr (Or.inr rfl)
    refine key (l := l) (r := r) (.notLt hl hr) (neg_ne_zero.mpr (sub_ne_zero.mpr hne)) ⟨_, hq.not (by simp)⟩ ?_
    simp only [truth, gap, Bool.not_eq_true', decide_eq_false_iff_not, not_lt, neg_lt_zero, sub_pos]
    exact ⟨fun h => lt_of_le_of_ne h (Ne.symm hne), le_of_lt⟩

/-- The symbols of a test made of a dictionary are its variables. -/
theorem linToSmt_syms {q : Dict} {g : Formula} (h : linToSmt q = .ok g) : ∀ v ∈ syms g, ∃ p ∈ q, v.2 = .real ∧ v.1 ∈ p.1 := by
  have hterm : ∀ {p : Mono × ℚ} {t : Formula}, linTermSmt p = .ok t → ∀ v ∈ syms t, v.2 = .real ∧ v.1 ∈ p.1 := by
    intro p t ht v hv
    unfold linTermSmt at ht
    have hm : ∀ {as : List Formula} {t : Formula}, mkTimes as = .ok t → ∀ v ∈ syms t, ∃ a ∈ as, v ∈ syms a := by
      intro as t h v hv
      match as, h with
      | [a], h => simp only [mkTimes, Except.ok.injEq] at h; exact ⟨a, by simp, h ▸ hv⟩
      | a :: b :: as, h =>
        simp only [mkTimes, Except.ok.injEq] at h
        subst h
        exact mem_symsList.mp hv
    have hv' : ∀ {t : Formula}, mkTimes (p.1.map fun n => Formula.sym n .real) = .ok t → ∀ v ∈ syms t, v.2 = .real ∧ v.1 ∈ p.1 := by
      intro t h v hv
      obtain ⟨a, ha, hva⟩ := hm h v hv
      obtain ⟨n, hn, rfl⟩ := List.mem_map.mp ha
      simp only [syms, List.mem_singleton] at hva
      subst hva
      exact ⟨rfl, hn⟩
    split at ht
    · rename_i t' ht'
      simp only [Except.ok.injEq] at ht
      subst ht
      split at hv
      · simp only [syms, symsList, List.append_nil] at hv
        exact hv' ht' v hv
      · exact hv' ht' v hv
    · cases ht
  unfold linToSmt at h
  split at h
  · simp only [Except.ok.injEq] at h; subst h; intro v hv; simp [syms] at hv
  · split at h
    · simp only [Except.ok.injEq] at h; subst h; intro v hv; simp [syms] at hv
    · split at h
      · rename_i ts hts
        split at h
        · rename_i s hs
          simp only [Except.ok.injEq] at h
          subst h
          intro v hv
          simp only [syms, List.append_nil] at hv
          have hplus : ∃ a ∈ ts, v ∈ syms a := by
            match ts, hs with
            | [a], hs => simp only [mkPlus, Except.ok.injEq] at hs; exact ⟨a, by simp, hs ▸ hv⟩
            | a :: b :: as, hs =>
              simp only [mkPlus, Except.ok.injEq] at hs
              subst hs
              exact mem_symsList.mp hv
          obtain ⟨a, ha, hva⟩ := hplus
          obtain ⟨p, hp, hpa⟩ := forall₂_mem_right (mapE_inv hts) a ha
          exact ⟨p, (List.mem_filter.mp hp).1, hterm hpa v hva⟩
        · cases h
      · cases h

theorem DecOk.syms_lin {q : Dict} (hq : CanonLin q) {g : Formula} (hg : linToSmt q = .ok g) (v : String × Ty) :
    v ∈ syms g → v.2 = .real ∧ linCoef q [v.1] ≠ 0 := by
  intro hv
  obtain ⟨p, hp, h1, h2⟩ := linToSmt_syms hg v hv
  refine ⟨h1, linCoef_ne_zero hq.nodup hq.nz (List.mem_map.mpr ⟨p, hp, ?_⟩)⟩
  have := hq.lin p hp
  match hp1 : p.1, this, h2 with
  | [y], _, h2 => simp only [List.mem_singleton] at h2; rw [h2]

theorem DecOk.syms_mem {q : Dict} (hq : CanonLin q) {g : Formula} (hg : linToSmt q = .ok g) (x : String)
    (hx : linCoef q [x] ≠ 0) : (x, Ty.real) ∈ syms g := by
  obtain ⟨hw, ht⟩ := DecOk.truth_lin hq hg
  by_contra hno
  have hx' : (linCoef q [x] : ℝ) ≠ 0 := by exact_mod_cast hx
  have hag : ∀ s t : ℝ, truth (⟨fun _ => false, fun y => if y = x then s else 0⟩ : Env ℝ) g =
      truth (⟨fun _ => false, fun y => if y = x then t else 0⟩ : Env ℝ) g := by
    intro s t
    apply truth_congr hw
    intro p hp
    obtain ⟨n, ty⟩ := p
    cases ty with
    | bool => rfl
    | real =>
      show (if n = x then s else 0) = if n = x then t else 0
      rw [if_neg, if_neg] <;> rintro rfl <;> exact hno hp
  have e := polyEval_var (K := ℝ) hq.nodup hq.lin x (fun _ => (0 : ℝ))
  have h1 := (ht ⟨fun _ => false, fun y => if y = x then
    (-1 - polyEval (fun _ => (0 : ℝ)) (q.filter fun p => p.1 ≠ [x])) / linCoef q [x] else 0⟩).mpr
    (by rw [e, mul_div_cancel₀ _ hx']; linarith)
  rw [hag _ (-polyEval (fun _ => (0 : ℝ)) (q.filter fun p => p.1 ≠ [x]) / linCoef q [x])] at h1
  have h2 := (ht _).mp h1
  rw [e, mul_div_cancel₀ _ hx'] at h2
  linarith

/-! ### Nodes -/

section
variable {E : Type} [DecidableEq E]

/-- The invariant of the dictionaries of a pool. -/
structure Core (X : XCtx E) (p : Pool E) : Prop where
  zero : p.node p.zeroId = some (.leaf X.back.alg.zero)
  one : p.node p.oneId = some (.leaf X.back.alg.one)
  inner : ∀ {n d t f}, p.node n = some (.inner d t f) →
    t < n ∧ f < n ∧ t ≠ f ∧ (p.node t).isSome ∧ (p.node f).isSome ∧ DecOk d ∧ d.test ∈ p.tests
  exprs : ∀ e n, p.expressions.lookup e = some n ↔ p.node n = some (.leaf e)
  inners : ∀ i t f n, p.internalMap.lookup (i, t, f) = some n ↔
    ∃ d, p.node n = some (.inner d t f) ∧ p.tests.idxOf? d.test = some i
  nodup : p.tests.Nodup

/-- Every node of a pool stands for a tree. -/
theorem Core.den {X : XCtx E} {p : Pool E} (h : Core X p) : ∀ {n : ℕ}, (p.node n).isSome → ∃ T, Den p n T := by
  intro n
  induction n using Nat.strong_induction_on with
  | _ n ih =>
    intro hn
    obtain ⟨x, hx⟩ := Option.isSome_iff_exists.mp hn
    cases x with
    | leaf e => exact ⟨_, .leaf hx⟩
    | inner d t f =>
      obtain ⟨h1, h2, -, h3, h4, -⟩ := h.inner hx
      obtain ⟨A, hA⟩ := ih t h1 h3
      obtain ⟨B, hB⟩ := ih f h2 h4
      exact ⟨_, .node hx hA hB⟩

theorem Den.isSome {p : Pool E} {n : ℕ} {T : XTree E} (h : Den p n T) : (p.node n).isSome := by
  cases h with
  | leaf h => simp [h]
  | node h _ _ => simp [h]

/-- All decisions of the tree are those of nodes. -/
def XTree.AllDec (P : Decision → Prop) : XTree E → Prop
  | .leaf _ => True
  | .node d t f => P d ∧ t.AllDec P ∧ f.AllDec P

theorem Den.decs {X : XCtx E} {p : Pool E} (h : Core X p) {n : ℕ} {T : XTree E} (hT : Den p n T) :
    T.AllDec fun d => DecOk d ∧ d.test ∈ p.tests := by
  induction hT with
  | leaf _ => trivial
  | node hn _ _ ih1 ih2 =>
    obtain ⟨-, -, -, -, -, h1, h2⟩ := h.inner hn
    exact ⟨⟨h1, h2⟩, ih1, ih2⟩

theorem XTree.AllDec.tests {P : Decision → Prop} {Q : Formula → Prop} (hPQ : ∀ d, P d → Q d.test) :
    ∀ {T : XTree E}, T.AllDec P → ∀ g ∈ T.tests, Q g
  | .leaf _, _, g, hg => by cases hg
  | .node d t f, h, g, hg => by
    simp only [XTree.tests, List.mem_cons, List.mem_append] at hg
    rcases hg with rfl | hg | hg
    · exact hPQ d h.1
    · exact h.2.1.tests hPQ g hg
    · exact h.2.2.tests hPQ g hg

theorem Den.tests {X : XCtx E} {p : Pool E} (h : Core X p) {n : ℕ} {T : XTree E} (hT : Den p n T) : ∀ g ∈ T.tests, g ∈ p.tests :=
  XTree.AllDec.tests (fun _ h => h.2) (hT.decs h)

theorem Ext.ord {X : XCtx E} {p q : Pool E} (he : Ext p q) (h : Core X p) {n : ℕ} {T : XTree E} (hT : Den p n T) :
    T.Ord q.tests ↔ T.Ord p.tests := XTree.Ord.mono he.tests (hT.tests h)

/-- Leaves with the same expression have the same id. -/
theorem Core.leaf_inj {X : XCtx E} {p : Pool E} (h : Core X p) {n m : ℕ} {e : E} (hn : p.node n = some (.leaf e))
    (hm : p.node m = some (.leaf e)) : n = m := by
  rw [← h.exprs] at hn hm
  rw [hn] at hm
  simpa using hm

/-- Inner nodes with the same test and children have the same id. -/
theorem Core.inner_inj {X : XCtx E} {p : Pool E} (h : Core X p) {n m t f : ℕ} {d d' : Decision} (hn : p.node n = some (.inner d t f))
    (hm : p.node m = some (.inner d' t f)) (hd : d.test = d'.test) : n = m := by
  obtain ⟨-, -, -, -, -, -, h1⟩ := h.inner hn
  obtain ⟨i, hi⟩ : ∃ i, p.tests.idxOf? d.test = some i := by
    exact Option.isSome_iff_exists.mp (List.isSome_idxOf?.mpr h1)
  have e1 := (h.inners i t f n).mpr ⟨d, hn, hi⟩
  have e2 := (h.inners i t f m).mpr ⟨d', hm, hd ▸ hi⟩
  rw [e1] at e2
  simpa using e2

end
end Pywmi
