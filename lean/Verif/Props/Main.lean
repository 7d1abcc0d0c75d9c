import Mathlib.Tactic.Linarith
import Mathlib.Tactic.NormNum
import Mathlib.Algebra.Order.Field.Basic
import Verif.Cli.Main

set_option linter.unusedSectionVars false
set_option linter.unusedSimpArgs false

/-!
# C77: the comparison of engines and the other tasks of the command line
-/

namespace Pywmi
open Formula Prog

/-- SPEC: the engine claims to be exact and answered with the value. -/
def ExactAnswer (e : EngineRun) (v : ℚ) : Prop := e.exact = true ∧ e.answer = .ok (some v)

/-- SPEC: two values are the same up to a relative difference of 0.00001. -/
def Agree (a b : ℚ) : Prop := |a - b| ≤ 1 / 100000 * min |a| |b|

theorem disagree_iff (a b : ℚ) : disagree a b = true ↔ ¬ Agree a b := by
  simp only [disagree, Agree, gt_iff_lt, decide_eq_true_eq, not_le]
  norm_num

theorem compareRuns_ok : ∀ {es : List EngineRun} {rs : List (EngineRun × Option ℚ)}, compareRuns es = .ok rs →
    rs.map (·.1) = es ∧ ∀ p ∈ rs, p.1.answer = .ok p.2
  | [], rs, h => by simp only [compareRuns, Except.ok.injEq] at h; subst h; simp
  | e :: es, rs, h => by
    simp only [compareRuns] at h
    split at h
    · cases h
    rename_i v hv
    split at h
    · cases h
    rename_i rest hr
    cases h
    obtain ⟨h1, h2⟩ := compareRuns_ok hr
    refine ⟨by simp [h1], fun p hp => ?_⟩
    rcases List.mem_cons.mp hp with rfl | hp
    · exact hv
    · exact h2 p hp

theorem compareRuns_error : ∀ {es : List EngineRun} {err : PyErr}, compareRuns es = .error err →
    ∃ e ∈ es, e.answer = .error err
  | [], err, h => by simp [compareRuns] at h
  | e :: es, err, h => by
    simp only [compareRuns] at h
    split at h
    · rename_i e' he
      cases h
      exact ⟨e, by simp, he⟩
    split at h
    · rename_i e' hr
      cases h
      obtain ⟨x, hx, hx'⟩ := compareRuns_error hr
      exact ⟨x, by simp [hx], hx'⟩
    · cases h

/-- The exact answers, with their positions among the engines. -/
theorem exactAnswers_mem {rs : List (EngineRun × Option ℚ)} (h : ∀ p ∈ rs, p.1.answer = .ok p.2) (a : ℚ × ℚ) :
    a ∈ exactAnswers rs ↔ ∃ e ∈ rs.map (·.1), ExactAnswer e a.1 ∧ e.seconds = a.2 := by
  simp only [exactAnswers, List.mem_filterMap, List.mem_map]
  constructor
  · rintro ⟨p, hp, hpa⟩
    have := h p hp
    cases hv : p.2 with
    | none => simp [hv] at hpa
    | some v =>
      simp only [hv] at hpa
      split_ifs at hpa with hex
      cases hpa
      exact ⟨p.1, ⟨p, hp, rfl⟩, ⟨hex, by rw [this, hv]⟩, rfl⟩
  · rintro ⟨e, ⟨p, hp, rfl⟩, ⟨h1, h2⟩, h3⟩
    refine ⟨p, hp, ?_⟩
    have := h p hp
    rw [h2, Except.ok.injEq] at this
    simp [← this, h1, h3]

theorem mem_indexPairs {n i j : ℕ} : (i, j) ∈ indexPairs n ↔ i < j ∧ j < n := by
  simp only [indexPairs, List.mem_flatMap, List.mem_range, List.mem_map, List.mem_filter, decide_eq_true_eq, Prod.mk.injEq]
  constructor
  · rintro ⟨a, _, b, ⟨h1, h2⟩, rfl, rfl⟩; exact ⟨h2, h1⟩
  · rintro ⟨h1, h2⟩; exact ⟨i, by omega, j, ⟨h2, h1⟩, rfl, rfl⟩

theorem exactAnswers_length (rs : List (EngineRun × Option ℚ)) : (exactAnswers rs).length ≤ rs.length :=
  List.length_filterMap_le _ _

theorem mem_warnings {es : List EngineRun} {ex : List (ℚ × ℚ)} {n m : String} {a b : ℚ} :
    ((n, a), (m, b)) ∈ compareWarnings es ex ↔ ∃ (i j : ℕ) (e e' : EngineRun) (s s' : ℚ), i < j ∧ ex[i]? = some (a, s) ∧ ex[j]? = some (b, s') ∧
      es[i]? = some e ∧ es[j]? = some e' ∧ e.name = n ∧ e'.name = m ∧ ¬ Agree a b := by
  simp only [compareWarnings, List.mem_filterMap, Prod.exists, mem_indexPairs]
  constructor
  · rintro ⟨i, j, ⟨hij, hj⟩, h⟩
    split at h
    · rename_i p q e e' h1 h2 h3 h4
      split_ifs at h with hd
      simp only [Option.some.injEq, Prod.mk.injEq] at h
      obtain ⟨⟨rfl, rfl⟩, rfl, rfl⟩ := h
      exact ⟨i, j, e, e', p.2, q.2, hij, h1, h2, h3, h4, rfl, rfl, (disagree_iff _ _).mp hd⟩
    · cases h
  · rintro ⟨i, j, e, e', s, s', hij, h1, h2, h3, h4, rfl, rfl, hd⟩
    refine ⟨i, j, ⟨hij, (List.getElem?_eq_some_iff.mp h2).1⟩, ?_⟩
    simp only [h1, h2, h3, h4, (disagree_iff _ _).mpr hd, if_true]

theorem warnings_nil {es : List EngineRun} {ex : List (ℚ × ℚ)} (hl : ex.length ≤ es.length) :
    compareWarnings es ex = [] ↔ (ex.map (·.1)).Pairwise Agree := by
  rw [List.pairwise_iff_getElem]
  simp only [List.length_map, List.getElem_map]
  constructor
  · intro h i j hi hj hij
    by_contra hd
    have : ((es[i].name, ex[i].1), (es[j].name, ex[j].1)) ∈ compareWarnings es ex :=
      mem_warnings.mpr ⟨i, j, es[i], es[j], ex[i].2, ex[j].2, hij, by simp [hi], by simp [hj], by simp, by simp, rfl, rfl, hd⟩
    rw [h] at this
    simp at this
  · intro h
    refine List.eq_nil_iff_forall_not_mem.mpr ?_
    rintro ⟨⟨n, a⟩, m, b⟩ hmem
    obtain ⟨i, j, e, e', s, s', hij, h1, h2, -, -, -, -, hd⟩ := mem_warnings.mp hmem
    obtain ⟨hi, e1⟩ := List.getElem?_eq_some_iff.mp h1
    obtain ⟨hj, e2⟩ := List.getElem?_eq_some_iff.mp h2
    have := h i j hi hj hij
    rw [e1, e2] at this
    exact hd this

theorem Agree.symm {a b : ℚ} (h : Agree a b) : Agree b a := by
  unfold Agree at *
  rw [abs_sub_comm, min_comm]; exact h

/-- **C77**: the comparison raises exactly when an engine raised, with that exception. -/
theorem compare_raises (es : List EngineRun) :
    (∀ err, compareEngines es = .error err → ∃ e ∈ es, e.answer = .error err) ∧
    ((∀ e ∈ es, ∃ v, e.answer = .ok v) → ∃ out, compareEngines es = .ok out) := by
  constructor
  · intro err h
    unfold compareEngines at h
    split at h
    · rename_i e' he; cases h; exact compareRuns_error he
    · cases h
  · intro h
    unfold compareEngines
    cases hr : compareRuns es with
    | error err =>
      obtain ⟨e, he, he'⟩ := compareRuns_error hr
      obtain ⟨v, hv⟩ := h e he
      rw [hv] at he'; cases he'
    | ok rs => exact ⟨_, rfl⟩

/-- **C77**: the table has one row for each engine, in order, with its own time and answer. -/
theorem compare_rows {es : List EngineRun} {out : CompareOut} (h : compareEngines es = .ok out) :
    List.Forall₂ (fun e r => r.name = e.name ∧ r.seconds = e.seconds ∧ e.answer = .ok r.volume) es out.rows := by
  unfold compareEngines at h
  split at h
  · cases h
  rename_i rs hrs
  obtain ⟨h1, h2⟩ := compareRuns_ok hrs
  cases h
  subst h1
  rw [List.forall₂_map_left_iff, List.forall₂_map_right_iff, List.forall₂_same]
  exact fun p hp => ⟨rfl, rfl, h2 p hp⟩

theorem Agree.refl (a : ℚ) : Agree a a := by simp [Agree]

theorem pairwise_agree {rs : List (EngineRun × Option ℚ)} (h : ∀ p ∈ rs, p.1.answer = .ok p.2) :
    ((exactAnswers rs).map (·.1)).Pairwise Agree ↔
      ∀ e ∈ rs.map (·.1), ∀ e' ∈ rs.map (·.1), ∀ a b, ExactAnswer e a → ExactAnswer e' b → Agree a b := by
  have hmem : ∀ a, a ∈ (exactAnswers rs).map (·.1) ↔ ∃ e ∈ rs.map (·.1), ExactAnswer e a := by
    intro a
    rw [List.mem_map]
    constructor
    · rintro ⟨p, hp, rfl⟩
      obtain ⟨e, he, h1, -⟩ := (exactAnswers_mem h p).mp hp
      exact ⟨e, he, h1⟩
    · rintro ⟨e, he, h1⟩
      exact ⟨(a, e.seconds), (exactAnswers_mem h _).mpr ⟨e, he, h1, rfl⟩, rfl⟩
  constructor
  · intro hp e he e' he' a b ha hb
    obtain ⟨i, hi, rfl⟩ := List.mem_iff_getElem.mp ((hmem a).mpr ⟨e, he, ha⟩)
    obtain ⟨j, hj, rfl⟩ := List.mem_iff_getElem.mp ((hmem b).mpr ⟨e', he', hb⟩)
    rcases lt_trichotomy i j with hij | rfl | hij
    · exact List.pairwise_iff_getElem.mp hp i j hi hj hij
    · exact Agree.refl _
    · exact (List.pairwise_iff_getElem.mp hp j i hj hi hij).symm
  · intro h'
    refine List.pairwise_of_forall_mem_list fun a ha b hb => ?_
    obtain ⟨e, he, ha⟩ := (hmem a).mp ha
    obtain ⟨e', he', hb⟩ := (hmem b).mp hb
    exact h' e he e' he' a b ha hb

/-- **C77**: a warning is given exactly when two exact answers differ. -/
theorem compare_warns {es : List EngineRun} {out : CompareOut} (h : compareEngines es = .ok out) :
    out.warnings = [] ↔ ∀ e ∈ es, ∀ e' ∈ es, ∀ a b, ExactAnswer e a → ExactAnswer e' b → Agree a b := by
  unfold compareEngines at h
  split at h
  · cases h
  rename_i rs hrs
  obtain ⟨h1, h2⟩ := compareRuns_ok hrs
  cases h
  subst h1
  dsimp only
  rw [warnings_nil (by simpa using exactAnswers_length rs), pairwise_agree h2]

/-- **C77**: the error column.  When exact engines answered and agree, there is a reference, the answer of one of them:
the error of every answer is its relative difference from the reference, and the error of exact answers is at most
0.00001.  When they do not agree, or none answered, there is no error column.  Missing: with the reference 0 the error of
every answer is given as 0. -/
theorem compare_errors_partial {es : List EngineRun} {out : CompareOut} (h : compareEngines es = .ok out) :
    ((∀ e ∈ es, ∀ v, ¬ ExactAnswer e v) ∨ (∃ e ∈ es, ∃ e' ∈ es, ∃ a b, ExactAnswer e a ∧ ExactAnswer e' b ∧ ¬ Agree a b) →
      ∀ r ∈ out.rows, r.error = none) ∧
    ((∃ e ∈ es, ∃ v, ExactAnswer e v) → (∀ e ∈ es, ∀ e' ∈ es, ∀ a b, ExactAnswer e a → ExactAnswer e' b → Agree a b) →
      ∃ e ∈ es, ∃ ref, ExactAnswer e ref ∧
        (∀ r ∈ out.rows, r.volume = none → r.error = none) ∧
        (ref ≠ 0 → ∀ r ∈ out.rows, ∀ v, r.volume = some v → r.error = some (|v - ref| / |ref|)) ∧
        (ref ≠ 0 → ∀ e' ∈ es, ∀ v, ExactAnswer e' v → |v - ref| / |ref| ≤ 1 / 100000)) := by
  have hw := compare_warns h
  unfold compareEngines at h
  split at h
  · cases h
  rename_i rs hrs
  obtain ⟨h1, h2⟩ := compareRuns_ok hrs
  cases h
  subst h1
  dsimp only at hw ⊢
  constructor
  · rintro (hno | ⟨e, he, e', he', a, b, ha, hb, hd⟩)
    · have hex : exactAnswers rs = [] := by
        refine List.eq_nil_iff_forall_not_mem.mpr fun p hp => ?_
        obtain ⟨e, he, h1, -⟩ := (exactAnswers_mem h2 p).mp hp
        exact hno e he _ h1
      intro r hr
      obtain ⟨p, -, rfl⟩ := List.mem_map.mp hr
      simp [hex, compareError]
    · have hne : compareWarnings (rs.map (·.1)) (exactAnswers rs) ≠ [] := fun h0 => hd (hw.mp h0 e he e' he' a b ha hb)
      intro r hr
      obtain ⟨p, -, rfl⟩ := List.mem_map.mp hr
      simp [hne, compareError]
  · rintro ⟨e0, he0, v0, hv0⟩ hagree
    have hnil := hw.mpr hagree
    have hmem : (v0, e0.seconds) ∈ exactAnswers rs := (exactAnswers_mem h2 _).mpr ⟨e0, he0, hv0, rfl⟩
    cases hex : exactAnswers rs with
    | nil => rw [hex] at hmem; simp at hmem
    | cons p ps =>
      obtain ⟨e, he, href, -⟩ := (exactAnswers_mem h2 p).mp (by rw [hex]; simp)
      refine ⟨e, he, p.1, href, ?_, ?_, ?_⟩
      · intro r hr hv
        obtain ⟨q, -, rfl⟩ := List.mem_map.mp hr
        simp only at hv ⊢
        rw [hv]
        unfold compareError
        split
        · rename_i h; cases h
        · rfl
      · intro h0 r hr v hv
        obtain ⟨q, -, rfl⟩ := List.mem_map.mp hr
        simp only at hv ⊢
        rw [hv]
        rw [hex] at hnil
        simp [hex, hnil, compareError, h0]
      · intro h0 e' he' v hv
        have hag := hagree e' he' e he v p.1 hv href
        rw [div_le_iff₀ (abs_pos.mpr h0)]
        refine le_trans hag ?_
        have := min_le_right |v| |p.1|
        linarith

/-- **C77**: the relative times: an exact engine that answered has at least 1, and one of them has 1. -/
theorem compare_times {es : List EngineRun} {out : CompareOut} (h : compareEngines es = .ok out) (hpos : ∀ e ∈ es, 0 < e.seconds)
    (hex : ∃ e ∈ es, ∃ v, ExactAnswer e v) :
    ∃ e ∈ es, (∃ v, ExactAnswer e v) ∧ (∀ r ∈ out.rows, r.relative = some (r.seconds / e.seconds)) ∧
      ∀ e' ∈ es, (∃ v, ExactAnswer e' v) → 1 ≤ e'.seconds / e.seconds := by
  unfold compareEngines at h
  split at h
  · cases h
  rename_i rs hrs
  obtain ⟨h1, h2⟩ := compareRuns_ok hrs
  cases h
  subst h1
  dsimp only
  have hfast : ∀ (ps : List (ℚ × ℚ)) (m : ℚ), (ps.foldl (fun m q => if q.2 < m then q.2 else m) m = m ∨
      ∃ p ∈ ps, p.2 = ps.foldl (fun m q => if q.2 < m then q.2 else m) m) ∧ ps.foldl (fun m q => if q.2 < m then q.2 else m) m ≤ m ∧
      ∀ p ∈ ps, ps.foldl (fun m q => if q.2 < m then q.2 else m) m ≤ p.2 := by
    intro ps
    induction ps with
    | nil => intro m; simp
    | cons q ps ih =>
      intro m
      simp only [List.foldl_cons]
      obtain ⟨i1, i2, i3⟩ := ih (if q.2 < m then q.2 else m)
      have hle : (if q.2 < m then q.2 else m) ≤ m := by split_ifs with hq <;> linarith
      have hle' : (if q.2 < m then q.2 else m) ≤ q.2 := by split_ifs with hq <;> linarith
      refine ⟨?_, i2.trans hle, ?_⟩
      · rcases i1 with i1 | ⟨p, hp, i1⟩
        · rw [i1]
          split_ifs
          · exact .inr ⟨q, by simp, rfl⟩
          · exact .inl rfl
        · exact .inr ⟨p, by simp [hp], i1⟩
      · intro p hp
        rcases List.mem_cons.mp hp with rfl | hp
        · exact i2.trans hle'
        · exact i3 p hp
  obtain ⟨e0, he0, v0, hv0⟩ := hex
  have hmem : (v0, e0.seconds) ∈ exactAnswers rs := (exactAnswers_mem h2 _).mpr ⟨e0, he0, hv0, rfl⟩
  cases hxs : exactAnswers rs with
  | nil => rw [hxs] at hmem; simp at hmem
  | cons p ps =>
    obtain ⟨i1, i2, i3⟩ := hfast ps p.2
    have hq : ∃ q ∈ exactAnswers rs, q.2 = ps.foldl (fun m q => if q.2 < m then q.2 else m) p.2 := by
      rw [hxs]
      rcases i1 with i1 | ⟨q, hq, i1⟩
      · exact ⟨p, by simp, i1.symm⟩
      · exact ⟨q, by simp [hq], i1⟩
    obtain ⟨q, hq1, hq2⟩ := hq
    obtain ⟨e, he, h3, h4⟩ := (exactAnswers_mem h2 q).mp hq1
    have hfd : fastest (p :: ps) = some e.seconds := by simp only [fastest]; rw [← hq2, h4]
    have hne : e.seconds ≠ 0 := (hpos e he).ne'
    refine ⟨e, he, ⟨_, h3⟩, ?_, ?_⟩
    · intro r hr
      obtain ⟨x, -, rfl⟩ := List.mem_map.mp hr
      simp [hfd, compareRelative, hne]
    · rintro e' he' ⟨v, hv⟩
      rw [le_div_iff₀ (hpos e he), one_mul]
      have := (exactAnswers_mem h2 (v, e'.seconds)).mpr ⟨e', he', hv, rfl⟩
      rw [hxs] at this
      rw [h4, hq2]
      rcases List.mem_cons.mp this with h | h
      · have : p.2 = e'.seconds := by rw [← h]
        rw [← this]; exact i2
      · exact i3 _ h

/-- **C77**: when all engines are exact and answer, the warnings name exactly the pairs of engines that differ.
Missing: otherwise the names can be those of other engines. -/
theorem compare_warning_names_partial {es : List EngineRun} {out : CompareOut} (h : compareEngines es = .ok out)
    (hall : ∀ e ∈ es, ∃ v, ExactAnswer e v) (n m : String) (a b : ℚ) :
    ((n, a), (m, b)) ∈ out.warnings ↔ ∃ (i j : ℕ) (e e' : EngineRun), i < j ∧ es[i]? = some e ∧ es[j]? = some e' ∧
      e.name = n ∧ e'.name = m ∧ ExactAnswer e a ∧ ExactAnswer e' b ∧ ¬ Agree a b := by
  unfold compareEngines at h
  split at h
  · cases h
  rename_i rs hrs
  obtain ⟨h1, h2⟩ := compareRuns_ok hrs
  cases h
  subst h1
  dsimp only
  have hex : ∀ rs : List (EngineRun × Option ℚ), (∀ p ∈ rs, p.1.answer = .ok p.2) → (∀ e ∈ rs.map (·.1), ∃ v, ExactAnswer e v) →
      exactAnswers rs = rs.map fun p => (p.2.getD 0, p.1.seconds) := by
    intro rs
    induction rs with
    | nil => intro _ _; rfl
    | cons p rs ih =>
      intro h2 hall
      obtain ⟨v, hv1, hv2⟩ := hall p.1 (by simp)
      have hp2 := h2 p (by simp)
      rw [hv2, Except.ok.injEq] at hp2
      have := ih (fun q hq => h2 q (by simp [hq])) fun e he => hall e (by simp at he ⊢; tauto)
      simp only [exactAnswers, List.map_cons] at this ⊢
      rw [List.filterMap_cons, ← hp2]
      simp [hv1, this]
  rw [hex rs h2 hall, mem_warnings]
  have hget : ∀ (i : ℕ) (v s : ℚ) (e : EngineRun), (rs.map (·.1))[i]? = some e →
      ((rs.map fun p => (p.2.getD 0, p.1.seconds))[i]? = some (v, s) ↔ ExactAnswer e v ∧ e.seconds = s) := by
    intro i v s e he
    rw [List.getElem?_map] at he ⊢
    cases hp : rs[i]? with
    | none => rw [hp] at he; simp at he
    | some p =>
      rw [hp] at he
      simp only [Option.map_some, Option.some.injEq] at he
      subst he
      have hmem := List.mem_of_getElem? hp
      obtain ⟨v', hv1, hv2⟩ := hall p.1 (List.mem_map_of_mem hmem)
      have hp2 := h2 p hmem
      rw [hv2, Except.ok.injEq] at hp2
      simp only [Option.map_some, ← hp2, Option.getD_some, Option.some.injEq, Prod.mk.injEq, ExactAnswer, hv1, true_and, hv2, Except.ok.injEq]
  constructor
  · rintro ⟨i, j, e, e', s, s', hij, g1, g2, g3, g4, g5, g6, g7⟩
    exact ⟨i, j, e, e', hij, g3, g4, g5, g6, ((hget i a s e g3).mp g1).1, ((hget j b s' e' g4).mp g2).1, g7⟩
  · rintro ⟨i, j, e, e', hij, g3, g4, g5, g6, g1, g2, g7⟩
    exact ⟨i, j, e, e', e.seconds, e'.seconds, hij, (hget i a _ e g3).mpr ⟨g1, rfl⟩, (hget j b _ e' g4).mpr ⟨g2, rfl⟩, g3, g4, g5, g6, g7⟩

/-- **C77**: a sampling engine and two exact ones that differ: the warning names the sampling engine. -/
theorem compare_warning_names_wrong :
    (compareEngines [⟨"rej", false, .ok (some 1), 1⟩, ⟨"pa", true, .ok (some 2), 1⟩, ⟨"xsdd", true, .ok (some 3), 1⟩]).map CompareOut.warnings =
      .ok [(("rej", 2), ("pa", 3))] := by decide +kernel

/-- **C77**: the exact volume is 0 and the error of the answer 5 is given as 0. -/
theorem compare_zero_reference :
    (compareEngines [⟨"pa", true, .ok (some 0), 1⟩, ⟨"rej", false, .ok (some 5), 1⟩]).map (fun o => o.rows.map CompareRow.error) =
      .ok [some 0, some 0] := by decide +kernel

/-- **C77**: the query of the comparison; an index beyond the queries silently means the volume. -/
theorem compare_query {Q : Type} (queries : List Q) :
    compareQuery queries none = .ok none ∧
    (∀ (i : ℕ) (q : Q), queries[i]? = some q → compareQuery queries (some i) = .ok (some q)) ∧
    (∀ i : ℕ, queries.length ≤ i → compareQuery queries (some i) = .ok none) := by
  refine ⟨rfl, fun i q h => ?_, fun i h => ?_⟩
  · have hi := (List.getElem?_eq_some_iff.mp h).1
    simp only [compareQuery, Nat.cast_lt, hi, if_true, Nat.cast_nonneg, Int.toNat_natCast, h]
  · simp only [compareQuery, Nat.cast_lt, not_lt.mpr h, if_false]

/-- **C77**: the task `prob` only ever runs its first engine. -/
theorem prob_first {V : Type} (a : Except PyErr (List (Option V))) (as : List (Except PyErr (List (Option V)))) :
    probTask (a :: as) = (a.map some, 1) := by
  cases a <;> rfl

/-- **C77**: `normalize --total` never asks for the total model: only the runs for paths matter; instead it drops the
old support.  The output path has no effect. -/
theorem normalize_total {run run' : XaddNormalizer} (h : ∀ D S w s t, run D S w s true t = run' D S w s true t)
    (parse : List Char → Except PyErr Formula) (jar : Bool) (e : EngineObj) (s : Formula) (total : Bool) (path path' : String) :
    normalizeTask run parse jar e s total path = normalizeTask run' parse jar e s total path' ∧
    ∀ out l f, jar = true → '\n' ∉ l → run e.domain e.support e.weight s true none = (.output out, l ++ ['\n']) → parse (l ++ ['\n']) = .ok f →
      normalizeTask run parse jar e s true path = .ok (some f) := by
  refine ⟨?_, ?_⟩
  · unfold normalizeTask xaddNormalize
    simp only [h]
  · rintro out l f rfl hl hrun hparse
    have hfirst : firstLine (l ++ ['\n']) = some (l ++ ['\n']) := by
      have hspan : (l ++ ['\n']).span (· ≠ '\n') = (l, ['\n']) := by
        rw [List.span_eq_takeWhile_dropWhile]
        have : ∀ c ∈ l, (decide (c ≠ '\n')) = true := fun c hc => by
          simp only [ne_eq, decide_not, Bool.not_eq_eq_eq_not, Bool.not_true, decide_eq_false_iff_not]
          rintro rfl; exact hl hc
        rw [List.takeWhile_append_of_pos this, List.dropWhile_append_of_pos this]
        simp
      cases l with
      | nil => rfl
      | cons c l =>
        simp only [firstLine, List.cons_append] at hspan ⊢
        rw [hspan]
        rfl
    simp only [normalizeTask, xaddNormalize, Bool.not_true, Bool.false_eq_true, if_false, Bool.true_eq_false, hrun, hfirst, hparse]

/-- Three engines, two of them exact and equal. -/
example : compareEngines [⟨"rej", false, .ok (some 3), 1⟩, ⟨"pa", true, .ok (some 2), 4⟩, ⟨"xsdd", true, .ok (some 2), 2⟩] =
    .ok ⟨[], [⟨"rej", 1, some (1 / 2), some 3, some (1 / 2)⟩, ⟨"pa", 4, some 2, some 2, some 0⟩, ⟨"xsdd", 2, some 1, some 2, some 0⟩]⟩ := by
  decide +kernel

end Pywmi
