import Verif.Props.XaddExamples
import Verif.Xadd.TopDown

set_option linter.unusedSectionVars false
set_option linter.unusedSimpArgs false

/-!
# C82: walks from the top, walks down and up, and walks over the leaves
-/

namespace Pywmi
open Formula Prog

section
variable {E : Type} [DecidableEq E] {X : XCtx E} {ev : E → (String → ℝ) → ℝ} {Γ : String → Ty} {M R : Type}

theorem lookup_putKey {κ β : Type} [DecidableEq κ] [BEq κ] [LawfulBEq κ] (d : List (κ × β)) (k : κ) (v : β) (j : κ) :
    (putKey d k v).lookup j = if j = k then some v else d.lookup j := by
  have hf : ∀ d : List (κ × β), j ≠ k → (d.filter fun q => q.1 ≠ k).lookup j = d.lookup j := by
    intro d hj
    induction d with
    | nil => rfl
    | cons q d ih =>
      rw [List.filter_cons]
      by_cases hk : q.1 = k
      · have h1 : decide (q.1 ≠ k) = false := by simpa using hk
        have h2 : (j == q.1) = false := by rw [hk]; simpa using hj
        rw [h1, ← Prod.mk.eta (p := q), List.lookup_cons, h2]
        exact ih
      · have h1 : decide (q.1 ≠ k) = true := by simpa using hk
        rw [if_pos h1, ← Prod.mk.eta (p := q), List.lookup_cons, List.lookup_cons, ih]
  unfold putKey
  rw [List.lookup_cons]
  by_cases h : j = k
  · simp [h]
  · have : (j == k) = false := by simpa using h
    rw [this, if_neg h]
    exact hf d h

/-! ### TopDownWalker -/

/-- SPEC: what the visit of a node sends to `n`: one message if `n` is its true child, one if `n` is its false child. -/
def sentTo (p : Pool E) (vi : ℕ → Decision → List M → M × M) (n : ℕ) (v : ℕ × List M) : List M :=
  match p.node v.1 with
  | some (.inner d t f) => (if t = n then [(vi v.1 d v.2).1] else []) ++ if f = n then [(vi v.1 d v.2).2] else []
  | _ => []

theorem sentTo_nil {p : Pool E} {vi : ℕ → Decision → List M → M × M} {n : ℕ} {v : ℕ × List M} (h : ¬Child p v.1 n) : sentTo p vi n v = [] := by
  unfold sentTo
  split
  · rename_i d t f hn
    have ht : t ≠ n := fun e => h ⟨d, t, f, hn, Or.inl e.symm⟩
    have hf : f ≠ n := fun e => h ⟨d, t, f, hn, Or.inr e.symm⟩
    simp [ht, hf]
  · rfl

/-- SPEC: the visits of a walk from the top: every node is visited after all its parents, with what they sent. -/
def VisitsOk (p : Pool E) (root : ℕ) (vi : ℕ → Decision → List M → M × M) (tr : List (ℕ × List M)) : Prop :=
  ∀ l1 n ms l2, tr = l1 ++ (n, ms) :: l2 → (∀ m, Reach p root m → Child p m n → m ∈ l1.map (·.1)) ∧ ms = l1.flatMap (sentTo p vi n)

/-- The invariant of the loop. -/
structure TDInv (p : Pool E) (root : ℕ) (par : ℕ → List ℕ) (vi : ℕ → Decision → List M → M × M) (s : TDState M) : Prop where
  nodup : (s.trace.map (·.1) ++ s.enabled).Nodup
  reach : ∀ n ∈ s.trace.map (·.1) ++ s.enabled, Reach p root n
  count : ∀ n, Reach p root n → (s.counts.lookup n).getD 0 = visited par (s.trace.map (·.1)) n
  cache : ∀ n, (s.cache.lookup n).getD [] = s.trace.flatMap (sentTo p vi n)
  key : ∀ n ∈ s.enabled, (s.cache.lookup n).isSome
  ready : ∀ n, Reach p root n → (n ∈ s.trace.map (·.1) ++ s.enabled ↔ ∀ m ∈ par n, m ∈ s.trace.map (·.1))
  hist : VisitsOk p root vi s.trace

/-- The parents as a function. -/
structure ParFun (p : Pool E) (root : ℕ) (P0 : List (ℕ × List ℕ)) (par : ℕ → List ℕ) : Prop where
  look : ∀ n, Reach p root n → P0.lookup n = some (par n)
  nodup : ∀ n, Reach p root n → (par n).Nodup
  mem : ∀ n, Reach p root n → ∀ m, m ∈ par n ↔ Reach p root m ∧ Child p m n

theorem parFun_of {p : Pool E} {root : ℕ} {P0 : List (ℕ × List ℕ)} (h : Parents p root P0) :
    ParFun p root P0 fun n => (P0.lookup n).getD [] := by
  have hl : ∀ n, Reach p root n → P0.lookup n = some ((P0.lookup n).getD []) := by
    intro n hn
    obtain ⟨l, hl⟩ := Option.isSome_iff_exists.mp ((h.key n).mpr hn)
    simp [hl]
  refine ⟨hl, fun n hn => h.ok n _ (hl n hn), fun n hn m => ?_⟩
  rw [← h.edge n m]
  constructor
  · intro hm
    exact ⟨_, hl n hn, hm⟩
  · rintro ⟨l, h1, h2⟩
    rw [hl n hn] at h1
    cases h1
    exact h2

theorem visitsOk_snoc {p : Pool E} {root : ℕ} {vi : ℕ → Decision → List M → M × M} {tr : List (ℕ × List M)} (h : VisitsOk p root vi tr)
    {n : ℕ} {ms : List M} (h1 : ∀ m, Reach p root m → Child p m n → m ∈ tr.map (·.1)) (h2 : ms = tr.flatMap (sentTo p vi n)) :
    VisitsOk p root vi (tr ++ [(n, ms)]) := by
  intro l1 n' ms' l2 he
  rcases List.eq_nil_or_concat l2 with rfl | ⟨l2', x, rfl⟩
  · obtain ⟨e1, e2⟩ := List.append_inj' he (by simp)
    simp only [List.cons.injEq, Prod.mk.injEq, and_true] at e2
    obtain ⟨rfl, rfl⟩ := e2
    subst e1
    exact ⟨h1, h2⟩
  · have he' : tr ++ [(n, ms)] = (l1 ++ (n', ms') :: l2') ++ [x] := by rw [he]; simp
    obtain ⟨e1, -⟩ := List.append_inj' he' (by simp)
    exact h l1 n' ms' l2' e1

/-- Counting one child. -/
theorem tdCount_eq {P0 : List (ℕ × List ℕ)} {n : ℕ} {l : List ℕ} (h : P0.lookup n = some l) (s : TDState M) (hn : n ∉ s.enabled) :
    tdCount P0 n s = .ok ⟨if (s.counts.lookup n).getD 0 + 1 = l.length then s.enabled ++ [n] else s.enabled, s.cache,
      putKey s.counts n ((s.counts.lookup n).getD 0 + 1), s.trace⟩ := by
  unfold tdCount
  simp only [h, hn, not_false_eq_true, and_true]

theorem getElem_mod_none {α : Type} {l : List α} {i : ℕ} (h : l[i % l.length]? = none) : l = [] := by
  rw [List.getElem?_eq_none_iff] at h
  by_contra hl
  have := Nat.mod_lt i (List.length_pos_of_ne_nil hl)
  omega

theorem tdLoop_ok {p : Pool E} (hp : Core X p) {root : ℕ} (hr : (p.node root).isSome) {P0 : List (ℕ × List ℕ)} {par : ℕ → List ℕ}
    (hpar : ParFun p root P0 par) {vi : ℕ → Decision → List M → M × M} {pick : ℕ → ℕ} (k : ℕ) :
    ∀ (i : ℕ) (s : TDState M), TDInv p root par vi s → P0.length < k + s.trace.length →
    ∃ tr, tdLoop p P0 vi pick k i s = .ok tr ∧ (tr.map (·.1)).Nodup ∧ (∀ n, n ∈ tr.map (·.1) ↔ Reach p root n) ∧ VisitsOk p root vi tr := by
  induction k with
  | zero =>
    intro i s hs hk
    exfalso
    have hsub : s.trace.map (·.1) ⊆ P0.map (·.1) := by
      intro n hn
      rw [← lookup_isSome_mem, hpar.look n (hs.reach n (List.mem_append_left _ hn))]
      rfl
    have hle := (List.Nodup.subperm (List.nodup_append.mp hs.nodup).1 hsub).length_le
    simp only [List.length_map] at hle
    omega
  | succ k ih =>
    intro i s hs hk
    unfold tdLoop
    cases hcur : s.enabled[pick i % s.enabled.length]? with
    | none =>
      have hen := getElem_mod_none hcur
      refine ⟨s.trace, rfl, (List.nodup_append.mp hs.nodup).1, fun n => ⟨fun h => hs.reach n (List.mem_append_left _ h), fun h => ?_⟩, hs.hist⟩
      -- from the root downwards
      have hall : ∀ j n, root - n = j → Reach p root n → n ∈ s.trace.map (·.1) := by
        intro j
        induction j using Nat.strong_induction_on with
        | _ j ihj =>
          intro n hj hn
          have := (hs.ready n hn).mpr fun m hm => by
            obtain ⟨h1, h2⟩ := (hpar.mem n hn m).mp hm
            have h3 := hp.child_lt h2
            have h4 := hp.reach_le h1
            exact ihj (root - m) (by omega) m rfl h1
          rw [hen, List.append_nil] at this
          exact this
      exact hall _ n rfl h
    | some cur =>
      have hmem : cur ∈ s.enabled := List.mem_of_getElem? hcur
      obtain ⟨ms, hms⟩ := Option.isSome_iff_exists.mp (hs.key cur hmem)
      have hrc : Reach p root cur := hs.reach cur (List.mem_append_right _ hmem)
      obtain ⟨hn1, hn2, hn3⟩ := List.nodup_append.mp hs.nodup
      have hctr : cur ∉ s.trace.map (·.1) := fun h => hn3 cur h cur hmem rfl
      have hmsv : ms = s.trace.flatMap (sentTo p vi cur) := by
        have := hs.cache cur
        rw [hms] at this
        exact this
      have hdone : ∀ m, Reach p root m → Child p m cur → m ∈ s.trace.map (·.1) := fun m h1 h2 =>
        (hs.ready cur hrc).mp (List.mem_append_right _ hmem) m ((hpar.mem cur hrc m).mpr ⟨h1, h2⟩)
      have hhist := visitsOk_snoc hs.hist hdone hmsv
      have hvis : ∀ n, Reach p root n → visited par (s.trace.map (·.1) ++ [cur]) n =
          visited par (s.trace.map (·.1)) n + if cur ∈ par n then 1 else 0 := fun n hn => visited_snoc hctr (hpar.nodup n hn)
      have hcp : ∀ n, Reach p root n → (cur ∈ par n ↔ Child p cur n) := fun n hn => by simp [hpar.mem n hn, hrc]
      obtain ⟨x, hx⟩ := Option.isSome_iff_exists.mp (hp.reach_some hr hrc)
      simp only [hms, hx]
      have hmemE : ∀ n, n ∈ s.trace.map (·.1) ++ [cur] ++ s.enabled.erase cur ↔ n ∈ s.trace.map (·.1) ++ s.enabled := by
        intro n
        simp only [List.mem_append, List.mem_singleton, or_assoc]
        by_cases hnc : n = cur
        · subst hnc; simp [hmem]
        · simp [hnc, List.mem_erase_of_ne hnc]
      have hndE : (s.trace.map (·.1) ++ [cur] ++ s.enabled.erase cur).Nodup := by
        have hp' : (s.trace.map (·.1) ++ s.enabled).Perm (s.trace.map (·.1) ++ [cur] ++ s.enabled.erase cur) := by
          rw [List.append_assoc]
          exact (List.perm_cons_erase hmem).append_left _
        exact hp'.nodup hs.nodup
      cases x with
      | leaf e =>
        have hnc : ∀ n, ¬Child p cur n := by
          rintro n ⟨d, t, f, h, -⟩
          rw [hx] at h; cases h
        refine ih (i + 1) _ ⟨?_, ?_, fun n hn => ?_, fun n => ?_, fun n hn => hs.key n (List.mem_of_mem_erase hn), fun n hn => ?_, hhist⟩ ?_
        · simpa using hndE
        · intro n hn
          exact hs.reach n ((hmemE n).mp (by simpa using hn))
        · simp only [List.map_append, List.map_cons, List.map_nil, hvis n hn, hcp n hn, hnc n, if_false, Nat.add_zero]
          exact hs.count n hn
        · simp only [List.flatMap_append, List.flatMap_cons, List.flatMap_nil, List.append_nil]
          rw [sentTo_nil (hnc n), List.append_nil]
          exact hs.cache n
        · have h1 := hmemE n
          simp only [List.map_append, List.map_cons, List.map_nil]
          rw [h1, hs.ready n hn]
          constructor
          · intro h m hm
            exact List.mem_append_left _ (h m hm)
          · intro h m hm
            rcases List.mem_append.mp (h m hm) with h | h
            · exact h
            · rw [List.mem_singleton] at h
              subst h
              exact absurd ((hcp n hn).mp hm) (hnc n)
        · simp only [List.length_append, List.length_singleton]
          omega
      | inner d t f =>
        have hin := hp.inner hx
        have hct : Child p cur t := ⟨d, t, f, hx, Or.inl rfl⟩
        have hcf : Child p cur f := ⟨d, t, f, hx, Or.inr rfl⟩
        have htf : t ≠ f := hin.2.2.1
        have hft : ¬f = t := fun e => htf e.symm
        have hrt : Reach p root t := .step hrc hct
        have hrf : Reach p root f := .step hrc hcf
        have hchild : ∀ n, Child p cur n ↔ n = t ∨ n = f := by
          intro n
          constructor
          · rintro ⟨d', t', f', h, h'⟩
            rw [hx] at h; cases h
            exact h'
          · rintro (rfl | rfl)
            · exact hct
            · exact hcf
        have hnew : ∀ n, Reach p root n → Child p cur n → n ∉ s.trace.map (·.1) ++ s.enabled := fun n hn hc h =>
          hctr ((hs.ready n hn).mp h cur ((hcp n hn).mpr hc))
        have htE : t ∉ s.enabled.erase cur := fun h => hnew t hrt hct (List.mem_append_right _ (List.mem_of_mem_erase h))
        have hfE : f ∉ s.enabled.erase cur := fun h => hnew f hrf hcf (List.mem_append_right _ (List.mem_of_mem_erase h))
        simp only
        rw [tdCount_eq (hpar.look t hrt) _ htE]
        simp only
        rw [tdCount_eq (hpar.look f hrf) _ (by
          split_ifs
          · simp [hfE, hft]
          · exact hfE)]
        simp only
        -- the tests of the counts
        have hready : ∀ n, Reach p root n → Child p cur n →
            ((s.counts.lookup n).getD 0 + 1 = (par n).length ↔ ∀ m ∈ par n, m ∈ s.trace.map (·.1) ++ [cur]) := by
          intro n hn hc
          have h1 := hvis n hn
          rw [if_pos ((hcp n hn).mpr hc)] at h1
          rw [hs.count n hn, ← h1]
          exact visited_all
        have hcf' : ((putKey s.counts t ((s.counts.lookup t).getD 0 + 1)).lookup f).getD 0 = (s.counts.lookup f).getD 0 := by
          rw [lookup_putKey, if_neg hft]
        rw [hcf']
        -- the new enabled nodes
        have hen : ∀ n, n ∈ (if (s.counts.lookup f).getD 0 + 1 = (par f).length then
              (if (s.counts.lookup t).getD 0 + 1 = (par t).length then s.enabled.erase cur ++ [t] else s.enabled.erase cur) ++ [f]
            else (if (s.counts.lookup t).getD 0 + 1 = (par t).length then s.enabled.erase cur ++ [t] else s.enabled.erase cur)) ↔
            n ∈ s.enabled.erase cur ∨ (n = t ∧ (s.counts.lookup t).getD 0 + 1 = (par t).length) ∨
              (n = f ∧ (s.counts.lookup f).getD 0 + 1 = (par f).length) := by
          intro n
          split_ifs with h1 h2 h2 <;> simp [h1, h2, or_assoc]
        refine ih (i + 1) _ ⟨?_, ?_, fun n hn => ?_, fun n => ?_, fun n hn => ?_, fun n hn => ?_, hhist⟩ ?_
        · -- nodup
          simp only [tdMessage, List.map_append, List.map_cons, List.map_nil]
          have hT : t ∉ s.trace.map (·.1) ++ [cur] ++ s.enabled.erase cur := fun h => hnew t hrt hct ((hmemE t).mp h)
          have hF : f ∉ s.trace.map (·.1) ++ [cur] ++ s.enabled.erase cur := fun h => hnew f hrf hcf ((hmemE f).mp h)
          split_ifs
          · rw [← List.append_assoc, ← List.append_assoc]
            refine List.Nodup.append (List.Nodup.append hndE (List.nodup_singleton _) ?_) (List.nodup_singleton _) ?_
            · simpa using hT
            · simp only [List.disjoint_singleton]
              rw [List.mem_append, not_or]
              exact ⟨hF, by simpa using hft⟩
          · rw [← List.append_assoc]
            exact List.Nodup.append hndE (List.nodup_singleton _) (by simpa using hF)
          · rw [← List.append_assoc]
            exact List.Nodup.append hndE (List.nodup_singleton _) (by simpa using hT)
          · exact hndE
        · -- reach
          intro n hn
          simp only [tdMessage, List.map_append, List.map_cons, List.map_nil] at hn
          rcases List.mem_append.mp hn with h | h
          · exact hs.reach n ((hmemE n).mp (List.mem_append_left _ h))
          · rcases (hen n).mp h with h | ⟨rfl, -⟩ | ⟨rfl, -⟩
            · exact hs.reach n ((hmemE n).mp (List.mem_append_right _ h))
            · exact hrt
            · exact hrf
        · -- counts
          simp only [tdMessage, List.map_append, List.map_cons, List.map_nil, lookup_putKey]
          rw [hvis n hn, ← hs.count n hn]
          simp only [hcp n hn, hchild]
          by_cases h1 : n = f
          · subst h1; simp
          · by_cases h2 : n = t
            · subst h2; simp [htf]
            · simp [h1, h2]
        · -- messages
          simp only [tdMessage, List.flatMap_append, List.flatMap_cons, List.flatMap_nil, List.append_nil, lookup_putKey, if_neg hft]
          rw [← hs.cache n]
          unfold sentTo
          simp only [hx]
          by_cases h1 : n = f
          · subst h1; simp [htf]
          · by_cases h2 : n = t
            · subst h2; simp [htf, hft]
            · have h1' : ¬f = n := fun e => h1 e.symm
              have h2' : ¬t = n := fun e => h2 e.symm
              simp [h1, h2, h1', h2']
        · -- keys
          simp only [tdMessage, lookup_putKey, if_neg hft]
          by_cases h1 : n = f
          · simp [h1]
          · by_cases h2 : n = t
            · subst h2; simp [htf]
            · simp only [h1, h2, if_false]
              rcases (hen n).mp hn with h | ⟨rfl, -⟩ | ⟨rfl, -⟩
              · exact hs.key n (List.mem_of_mem_erase h)
              · exact absurd rfl h2
              · exact absurd rfl h1
        · -- ready
          simp only [tdMessage, List.map_append, List.map_cons, List.map_nil]
          rw [List.mem_append, hen]
          by_cases hc : Child p cur n
          · rw [← hready n hn hc]
            have h0 : n ∉ s.trace.map (·.1) ++ [cur] := fun h => hnew n hn hc ((hmemE n).mp (List.mem_append_left _ h))
            have h0' : n ∉ s.enabled.erase cur := fun h => hnew n hn hc ((hmemE n).mp (List.mem_append_right _ h))
            rcases (hchild n).mp hc with rfl | rfl
            · simp only [h0, h0', false_or, true_and, htf, false_and, or_false]
            · simp only [h0, h0', false_or, true_and, hft, false_and, or_false]
          · have h1 : n ≠ t := fun e => hc ((hchild n).mpr (Or.inl e))
            have h2 : n ≠ f := fun e => hc ((hchild n).mpr (Or.inr e))
            have h3 := hmemE n
            rw [List.mem_append] at h3
            simp only [h1, h2, false_and, or_false]
            rw [h3, hs.ready n hn]
            constructor
            · intro h m hm
              exact List.mem_append_left _ (h m hm)
            · intro h m hm
              rcases List.mem_append.mp (h m hm) with h | h
              · exact h
              · rw [List.mem_singleton] at h
                subst h
                exact absurd ((hcp n hn).mp hm) hc
        · simp only [tdMessage, List.length_append, List.length_singleton]
          omega

/-- C82: a walk from the top returns, whatever order the set of enabled nodes is popped in: it visits every node of the diagram
once, after all its parents, and hands it exactly the messages that its parents sent to it. -/
theorem top_down_visits (hX : XLaw X ev) {p : Pool E} (hp : Reachable X Γ p) {root : ℕ} (hr : (p.node root).isSome)
    (vi : ℕ → Decision → List M → M × M) (pick : ℕ → ℕ) :
    ∃ tr, topDown p vi pick root = .ok tr ∧ (tr.map (·.1)).Nodup ∧ (∀ n, n ∈ tr.map (·.1) ↔ Reach p root n) ∧ VisitsOk p root vi tr := by
  have hc := (hp.inv hX).core
  obtain ⟨P0, h1, h2, h3, h4⟩ := parentsOf_ok hc hr
  have hpar := parFun_of (p := p) (root := root) ⟨h2, h3, h4⟩
  unfold topDown
  simp only [h1]
  refine tdLoop_ok hc hr hpar _ 0 _ ⟨by simp, by simpa using Reach.root, fun n hn => ?_, fun n => ?_, by simp, fun n hn => ?_, ?_⟩ (by simp)
  · simp [visited]
  · rw [List.lookup_cons]
    cases n == root <;> simp
  · simp only [List.map_nil, List.nil_append, List.mem_singleton, List.not_mem_nil]
    constructor
    · rintro rfl m hm
      obtain ⟨h5, h6⟩ := (hpar.mem n hn m).mp hm
      have := hc.child_lt h6
      have := hc.reach_le h5
      omega
    · intro h
      by_contra hne
      obtain ⟨m, h5, h6⟩ := hn.parent hne
      exact h m ((hpar.mem n hn m).mpr ⟨h5, h6⟩)
  · intro l1 n ms l2 he
    simp at he

/-- What a node receives is what all nodes sent to it. -/
theorem VisitsOk.all {p : Pool E} {root : ℕ} {vi : ℕ → Decision → List M → M × M} {tr : List (ℕ × List M)} (h : VisitsOk p root vi tr)
    (hn : (tr.map (·.1)).Nodup) (hm : ∀ n, n ∈ tr.map (·.1) ↔ Reach p root n) {n : ℕ} {ms : List M} (hx : (n, ms) ∈ tr) :
    ms = tr.flatMap (sentTo p vi n) := by
  obtain ⟨l1, l2, he⟩ := List.append_of_mem hx
  obtain ⟨h1, h2⟩ := h l1 n ms l2 he
  have h3 : ((n, ms) :: l2).flatMap (sentTo p vi n) = [] := by
    rw [List.flatMap_eq_nil_iff]
    intro v hv
    refine sentTo_nil fun hc => ?_
    have h4 : Reach p root v.1 := (hm v.1).mp (by rw [he]; exact List.mem_map_of_mem (List.mem_append_right _ hv))
    have h5 := h1 v.1 h4 hc
    rw [he, List.map_append] at hn
    exact (List.nodup_append.mp hn).2.2 v.1 h5 v.1 (List.mem_map_of_mem hv) rfl
  rw [he, List.flatMap_append, h3, List.append_nil]
  exact h2

theorem flatMap_keys {tr : List (ℕ × List M)} (hn : (tr.map (·.1)).Nodup) (g : ℕ × List M → List M) :
    tr.flatMap g = (tr.map (·.1)).flatMap fun m => g (m, (tr.lookup m).getD []) := by
  rw [List.flatMap_map]
  refine List.flatMap_congr fun v hv => ?_
  rw [lookup_of_mem_nat hn (k := v.1) (v := v.2) hv]
  rfl

/-- C82: two walks with visitors that do not depend on the order of the messages give every node the same messages, up to their
order, whatever order the sets are popped in. -/
theorem top_down_schedule (hX : XLaw X ev) {p : Pool E} (hp : Reachable X Γ p) {root : ℕ} (hr : (p.node root).isSome)
    {vi : ℕ → Decision → List M → M × M} (hvi : ∀ n d ms ms', ms.Perm ms' → vi n d ms = vi n d ms') {pick1 pick2 : ℕ → ℕ}
    {tr1 tr2 : List (ℕ × List M)} (h1 : topDown p vi pick1 root = .ok tr1) (h2 : topDown p vi pick2 root = .ok tr2)
    {n : ℕ} {ms1 ms2 : List M} (hm1 : (n, ms1) ∈ tr1) (hm2 : (n, ms2) ∈ tr2) : ms1.Perm ms2 := by
  have hc := (hp.inv hX).core
  obtain ⟨_, e1, nd1, mem1, v1⟩ := top_down_visits hX hp hr vi pick1
  rw [h1] at e1; cases e1
  obtain ⟨_, e2, nd2, mem2, v2⟩ := top_down_visits hX hp hr vi pick2
  rw [h2] at e2; cases e2
  have hall : ∀ j n, root - n = j → ∀ ms1 ms2, (n, ms1) ∈ tr1 → (n, ms2) ∈ tr2 → ms1.Perm ms2 := by
    intro j
    induction j using Nat.strong_induction_on with
    | _ j ihj =>
      intro n hj ms1 ms2 hm1 hm2
      rw [v1.all nd1 mem1 hm1, v2.all nd2 mem2 hm2, flatMap_keys nd1, flatMap_keys nd2]
      have hperm : (tr1.map (·.1)).Perm (tr2.map (·.1)) := (List.perm_ext_iff_of_nodup nd1 nd2).mpr fun a => (mem1 a).trans (mem2 a).symm
      refine (List.Perm.flatMap_right _ hperm).trans (List.Perm.of_eq (List.flatMap_congr fun m hm => ?_))
      by_cases hch : Child p m n
      · have hrm := (mem2 m).mp hm
        obtain ⟨a1, ha1, e1⟩ := List.mem_map.mp ((mem1 m).mpr hrm)
        obtain ⟨a2, ha2, e2⟩ := List.mem_map.mp hm
        have l1 := lookup_of_mem_nat nd1 (k := a1.1) (v := a1.2) ha1
        have l2 := lookup_of_mem_nat nd2 (k := a2.1) (v := a2.2) ha2
        rw [e1] at l1
        rw [e2] at l2
        have h3 := hc.child_lt hch
        have h4 := hc.reach_le hrm
        have hp12 := ihj (root - m) (by omega) m rfl a1.2 a2.2 (by rw [← e1]; exact ha1) (by rw [← e2]; exact ha2)
        unfold sentTo
        cases hx : p.node m with
        | none => rfl
        | some x =>
          cases x with
          | leaf e => rfl
          | inner d t f =>
            simp only [l1, l2, Option.getD_some]
            rw [hvi m d _ _ hp12]
      · rw [sentTo_nil hch, sentTo_nil hch]
  exact hall _ n rfl ms1 ms2 hm1 hm2

/-! ### DownUpWalker -/

/-- SPEC: the result for a node and a message. -/
inductive DURes (p : Pool E) (v : DownUp E M R) : ℕ → M → R → Prop
  | leaf {n : ℕ} {e : E} {m : M} : p.node n = some (.leaf e) → DURes p v n m (v.terminal n e m)
  | inner {n : ℕ} {d : Decision} {t f : ℕ} {m : M} {a b : R} : p.node n = some (.inner d t f) → DURes p v t (v.down n d m).1 a →
      DURes p v f (v.down n d m).2 b → DURes p v n m (v.aggregate n d a b)

/-- SPEC: the nodes and messages below a node and a message. -/
inductive DUBelow (p : Pool E) (v : DownUp E M R) : ℕ × M → ℕ × M → Prop
  | refl (x : ℕ × M) : DUBelow p v x x
  | left {n : ℕ} {d : Decision} {t f : ℕ} {m : M} {x : ℕ × M} : p.node n = some (.inner d t f) → DUBelow p v (t, (v.down n d m).1) x →
      DUBelow p v (n, m) x
  | right {n : ℕ} {d : Decision} {t f : ℕ} {m : M} {x : ℕ × M} : p.node n = some (.inner d t f) → DUBelow p v (f, (v.down n d m).2) x →
      DUBelow p v (n, m) x

theorem DURes.unique {p : Pool E} {v : DownUp E M R} {n : ℕ} {m : M} {a b : R} (h : DURes p v n m a) (h' : DURes p v n m b) : a = b := by
  induction h generalizing b with
  | leaf hn =>
    cases h' with
    | leaf hn' => rw [hn] at hn'; cases hn'; rfl
    | inner hn' => rw [hn] at hn'; cases hn'
  | inner hn _ _ ih1 ih2 =>
    cases h' with
    | leaf hn' => rw [hn] at hn'; cases hn'
    | inner hn' h1 h2 =>
      rw [hn] at hn'; cases hn'
      rw [ih1 h1, ih2 h2]

variable [DecidableEq M]

/-- The state between visits. -/
structure DUInv (p : Pool E) (v : DownUp E M R) (cached : Bool) (n : ℕ) (s : DUState M R) : Prop where
  ok : ∀ a m r, s.cache.lookup (a, m) = some r → DURes p v a m r
  below : ∀ x, (s.cache.lookup x).isSome → ∀ y, DUBelow p v x y → y ∈ s.trace
  nodup : cached = true → s.trace.Nodup
  open_ : cached = true → ∀ x ∈ s.trace, (s.cache.lookup x).isSome ∨ n ≤ x.1

/-- What a visit does. -/
structure DUStep (p : Pool E) (v : DownUp E M R) (cached : Bool) (n : ℕ) (m : M) (r : R) (s s' : DUState M R) : Prop where
  res : DURes p v n m r
  trace : ∃ l, s'.trace = s.trace ++ l ∧ (∀ x ∈ l, DUBelow p v (n, m) x) ∧ (cached = true → ∀ x ∈ l, (s'.cache.lookup x).isSome)
  cache : ∀ x, (s.cache.lookup x).isSome → (s'.cache.lookup x).isSome
  all : ∀ x, DUBelow p v (n, m) x → x ∈ s'.trace

theorem duVisit_ok {p : Pool E} (hp : Core X p) {v : DownUp E M R} {cached : Bool} (hh : cached = true → ∀ m, v.hashable m = true) (k : ℕ) :
    ∀ (n : ℕ) (m : M) (s : DUState M R), n < k → (p.node n).isSome → DUInv p v cached (n + 1) s →
    ∃ r s', duVisit p v cached k n m s = .ok (r, s') ∧ DUInv p v cached (n + 1) s' ∧ DUStep p v cached n m r s s' := by
  induction k with
  | zero => intro n m s h; omega
  | succ k ih =>
    intro n m s hk hn hs
    have hcond : ¬(cached = true ∧ v.hashable m = false) := fun ⟨h1, h2⟩ => by rw [hh h1 m] at h2; cases h2
    unfold duVisit
    rw [if_neg hcond]
    cases hc : (if cached = true then s.cache.lookup (n, m) else none) with
    | some r =>
      cases cached with
      | false => simp at hc
      | true =>
        simp only [if_true] at hc
        exact ⟨r, s, rfl, hs, hs.ok n m r hc, ⟨[], by simp, by simp, by simp⟩, fun x h => h, hs.below (n, m) (by rw [hc]; rfl)⟩
    | none =>
      have hnew : cached = true → s.cache.lookup (n, m) = none := by
        rintro rfl
        simpa using hc
      have hnt : cached = true → (n, m) ∉ s.trace := by
        intro hcd hx
        rcases hs.open_ hcd _ hx with h | h
        · rw [hnew hcd] at h; cases h
        · simp at h
      obtain ⟨x, hx⟩ := Option.isSome_iff_exists.mp hn
      -- storing a result
      have hstore : ∀ (r : R) (s2 : DUState M R), DURes p v n m r → (∀ y, DUBelow p v (n, m) y → y ∈ s2.trace) →
          (∀ a m' r, s2.cache.lookup (a, m') = some r → DURes p v a m' r) → (∀ x, (s2.cache.lookup x).isSome → ∀ y, DUBelow p v x y → y ∈ s2.trace) →
          (cached = true → s2.trace.Nodup) →
          (∃ l, s2.trace = s.trace ++ (n, m) :: l ∧ (∀ x ∈ l, DUBelow p v (n, m) x) ∧ (cached = true → ∀ x ∈ l, (s2.cache.lookup x).isSome)) →
          (∀ x, (s.cache.lookup x).isSome → (s2.cache.lookup x).isSome) →
          DUInv p v cached (n + 1) (if cached then { s2 with cache := putKey s2.cache (n, m) r } else s2) ∧
          DUStep p v cached n m r s (if cached then { s2 with cache := putKey s2.cache (n, m) r } else s2) := by
        intro r s2 hres hall hok hbel hnd ⟨l, hl, hl1, hl2⟩ hmono
        have hl1' : ∀ x ∈ (n, m) :: l, DUBelow p v (n, m) x := by
          intro x hx
          rcases List.mem_cons.mp hx with rfl | hx
          · exact .refl _
          · exact hl1 x hx
        cases cached with
        | false =>
          simp only [Bool.false_eq_true, if_false]
          exact ⟨⟨hok, hbel, fun h => (by cases h), fun h => (by cases h)⟩, hres, ⟨_, hl, hl1', fun h => (by cases h)⟩, hmono, hall⟩
        | true =>
          simp only [if_true]
          have hkey : ∀ x, (s2.cache.lookup x).isSome → ((putKey s2.cache (n, m) r).lookup x).isSome := by
            intro x hx
            rw [lookup_putKey]
            split_ifs
            · rfl
            · exact hx
          have hl2' : ∀ x ∈ (n, m) :: l, ((putKey s2.cache (n, m) r).lookup x).isSome := by
            intro x hx
            rcases List.mem_cons.mp hx with rfl | hx
            · rw [lookup_putKey, if_pos rfl]; rfl
            · exact hkey x (hl2 rfl x hx)
          refine ⟨⟨fun a m' r' h => ?_, fun x h y hy => ?_, hnd, fun _ x hx => ?_⟩, hres, ⟨_, hl, hl1', fun _ => hl2'⟩,
            fun x h => hkey x (hmono x h), hall⟩
          · rw [lookup_putKey] at h
            split_ifs at h with he
            · cases h; cases he; exact hres
            · exact hok a m' r' h
          · rw [lookup_putKey] at h
            split_ifs at h with he
            · subst he; exact hall y hy
            · exact hbel x h y hy
          · rw [hl] at hx
            rcases List.mem_append.mp hx with hx | hx
            · rcases hs.open_ rfl x hx with h | h
              · exact Or.inl (hkey x (hmono x h))
              · exact Or.inr h
            · exact Or.inl (hl2' x hx)
      simp only [hx]
      cases x with
      | leaf e =>
        have h := hstore (v.terminal n e m) { s with trace := s.trace ++ [(n, m)] } (.leaf hx) (fun y hy => ?_) hs.ok
          (fun x h y hy => List.mem_append_left _ (hs.below x h y hy)) (fun hcd => ?_) ⟨[], rfl, by simp, by simp⟩ (fun x h => h)
        · exact ⟨_, _, rfl, h⟩
        · cases hy with
          | refl => simp
          | left h => rw [hx] at h; cases h
          | right h => rw [hx] at h; cases h
        · exact List.Nodup.append (hs.nodup hcd) (List.nodup_singleton _) (by simpa using hnt hcd)
      | inner d t f =>
        have hin := hp.inner hx
        simp only
        have hs0 : DUInv p v cached (t + 1) ⟨s.cache, s.trace ++ [(n, m)]⟩ := by
          refine ⟨hs.ok, fun x h y hy => List.mem_append_left _ (hs.below x h y hy), fun hcd => ?_, fun hcd x hx => ?_⟩
          · exact List.Nodup.append (hs.nodup hcd) (List.nodup_singleton _) (by simpa using hnt hcd)
          · rcases List.mem_append.mp hx with hx | hx
            · rcases hs.open_ hcd x hx with h | h
              · exact Or.inl h
              · have := hin.1
                exact Or.inr (by omega)
            · rw [List.mem_singleton] at hx
              subst hx
              have := hin.1
              exact Or.inr (by simpa using this)
        obtain ⟨a, s1, h1, i1, ⟨r1, ⟨l1, t1, b1, c1⟩, m1, g1⟩⟩ := ih t (v.down n d m).1 ⟨s.cache, s.trace ++ [(n, m)]⟩ (by omega) hin.2.2.2.1 hs0
        rw [h1]
        simp only
        have hs1 : DUInv p v cached (f + 1) s1 := by
          refine ⟨i1.ok, i1.below, i1.nodup, fun hcd x hx => ?_⟩
          rw [t1] at hx
          rcases List.mem_append.mp hx with hx | hx
          · rcases List.mem_append.mp hx with hx | hx
            · rcases hs.open_ hcd x hx with h | h
              · exact Or.inl (m1 x h)
              · have := hin.2.1
                exact Or.inr (by omega)
            · rw [List.mem_singleton] at hx
              subst hx
              have := hin.2.1
              exact Or.inr (by simpa using this)
          · exact Or.inl (c1 hcd x hx)
        obtain ⟨b, s2, h2, i2, ⟨r2, ⟨l2, t2, b2, c2⟩, m2, g2⟩⟩ := ih f (v.down n d m).2 s1 (by omega) hin.2.2.2.2.1 hs1
        rw [h2]
        refine ⟨_, _, rfl, hstore _ s2 (.inner hx r1 r2) (fun y hy => ?_) i2.ok i2.below i2.nodup ⟨l1 ++ l2, ?_, fun x hx' => ?_, fun hcd x hx' => ?_⟩
          fun x h => m2 x (m1 x h)⟩
        · cases hy with
          | refl => rw [t2, t1]; simp
          | left h hy =>
            rw [hx] at h; cases h
            rw [t2]
            exact List.mem_append_left _ (g1 y hy)
          | right h hy =>
            rw [hx] at h; cases h
            exact g2 y hy
        · rw [t2, t1]; simp
        · rcases List.mem_append.mp hx' with h | h
          · exact .left hx (b1 x h)
          · exact .right hx (b2 x h)
        · rcases List.mem_append.mp hx' with h | h
          · exact m2 x (c1 hcd x h)
          · exact c2 hcd x h

/-- C82: a walk down and up returns the result of the root, with and without message cache (with one, messages have to be
hashable); the methods are called for exactly the nodes and messages below the root, with a cache once for each. -/
theorem down_up_result (hX : XLaw X ev) {p : Pool E} (hp : Reachable X Γ p) {root : ℕ} (hr : (p.node root).isSome) (v : DownUp E M R)
    (cached : Bool) (hh : cached = true → ∀ m, v.hashable m = true) (m0 : M) :
    ∃ r tr, downUp p v cached m0 root = .ok (r, tr) ∧ DURes p v root m0 r ∧ (∀ x, x ∈ tr ↔ DUBelow p v (root, m0) x) ∧
      (cached = true → tr.Nodup) := by
  have hc := (hp.inv hX).core
  obtain ⟨r, s, h1, h2, h3⟩ := duVisit_ok hc hh (root + 1) root m0 ⟨[], []⟩ (by omega) hr
    ⟨by simp, by simp, fun _ => List.nodup_nil, by simp⟩
  refine ⟨r, s.trace, by unfold downUp; rw [h1], h3.res, fun x => ⟨fun hx => ?_, h3.all x⟩, h2.nodup⟩
  obtain ⟨l, e, h, -⟩ := h3.trace
  rw [e] at hx
  exact h x (by simpa using hx)

/-- C82: the message cache does not change the result. -/
theorem down_up_cache (hX : XLaw X ev) {p : Pool E} (hp : Reachable X Γ p) {root : ℕ} (hr : (p.node root).isSome) (v : DownUp E M R)
    (hh : ∀ m, v.hashable m = true) (m0 : M) :
    ∃ r tr tr', downUp p v true m0 root = .ok (r, tr) ∧ downUp p v false m0 root = .ok (r, tr') := by
  obtain ⟨r, tr, h1, h2, -⟩ := down_up_result hX hp hr v true (fun _ => hh) m0
  obtain ⟨r', tr', h1', h2', -⟩ := down_up_result hX hp hr v false (by simp) m0
  rw [h2'.unique h2] at h1'
  exact ⟨r, tr, tr', h1, h1'⟩

/-- C82, finding: with a message cache, a message that is not hashable makes the walk raise a TypeError, although the walk without
cache returns. -/
theorem down_up_unhashable {p : Pool E} {root t f : ℕ} {d : Decision} (hr : p.node root = some (.inner d t f)) (v : DownUp E M R)
    {m0 : M} (h0 : v.hashable m0 = true) (hm : v.hashable (v.down root d m0).1 = false) (hroot : 0 < root) :
    downUp p v true m0 root = .error .typeError := by
  obtain ⟨k, rfl⟩ : ∃ k, root = k + 1 := ⟨root - 1, by omega⟩
  unfold downUp duVisit
  simp only [h0, Bool.true_eq_false, and_false, if_false, if_true, List.lookup_nil, hr]
  unfold duVisit
  simp [hm]

/-! ### Leaves -/

variable {β : Type}

/-- SPEC: the leaves among the nodes. -/
def leavesOf (p : Pool E) (ns : List ℕ) : List (ℕ × E) := ns.filterMap fun n =>
  match p.node n with
  | some (.leaf e) => some (n, e)
  | _ => none

/-- A function on leaves that computes or raises. -/
def callLeaf (g : ℕ → E → Except PyErr β) (n : ℕ) (e : E) : XM E β := XM.lift (g n e)

theorem setProf_node (p : Pool E) (root : ℕ) (pr : Profile) : (p.setProf root pr).node = p.node := by
  funext n
  cases n <;> rfl

theorem leavesLoop_eq {p : Pool E} {root : ℕ} {ns : List ℕ} {cs : List (ℕ × (ℕ × ℕ))} (g : ℕ → E → Except PyErr β) (k : ℕ) :
    ∀ (i : ℕ) (q : Pool E), q.profiles.lookup root = some ⟨ns, cs, i⟩ → (∀ n ∈ ns, (q.node n).isSome) → i ≤ ns.length → ns.length < k + i →
      Inv1 X q → q.node = p.node →
    ∃ q' i', leavesLoop (callLeaf g) root k q = (mapE (fun l : ℕ × E => g l.1 l.2) (leavesOf p (ns.drop i)), q') ∧
      q'.profiles.lookup root = some ⟨ns, cs, i'⟩ ∧ Inv1 X q' ∧ q'.node = p.node ∧ Ext q q' ∧ i ≤ i' ∧
      ((∃ e, mapE (fun l : ℕ × E => g l.1 l.2) (leavesOf p (ns.drop i)) = .error e) → i < i') := by
  induction k with
  | zero => intro i q _ _ h1 h2; omega
  | succ k ih =>
    intro i q hq hn hi hk hinv hnode
    unfold leavesLoop
    cases hx : ns[i]? with
    | none =>
      have hd : ns.drop i = [] := List.drop_eq_nil_of_le (by rwa [List.getElem?_eq_none_iff] at hx)
      rw [XM.bind_apply, profileNext_none hq hx, hd]
      exact ⟨q, i, rfl, hq, hinv, hnode, Ext.refl q, le_refl _, fun ⟨e, h⟩ => by cases h⟩
    | some n =>
      obtain ⟨hlt, hget⟩ := List.getElem?_eq_some_iff.mp hx
      have hd : ns.drop i = n :: ns.drop (i + 1) := by rw [List.drop_eq_getElem_cons hlt, hget]
      rw [XM.bind_apply, profileNext_some hq hx, hd]
      have hq1 := lookup_setProf (pr := ⟨ns, cs, i + 1⟩) hq
      have hn1 : (q.setProf root ⟨ns, cs, i + 1⟩).node = p.node := (setProf_node _ _ _).trans hnode
      have hi1 := hinv.setProf root ⟨ns, cs, i + 1⟩
      have he1 := Ext.setProf q root ⟨ns, cs, i + 1⟩
      obtain ⟨q', i', h1, h2, h3, h4, h5, h6, h7⟩ := ih (i + 1) (q.setProf root ⟨ns, cs, i + 1⟩) hq1 (fun m hm => by
        rw [setProf_node]; exact hn m hm) (by omega) (by omega) hi1 hn1
      obtain ⟨x, hxn⟩ := Option.isSome_iff_exists.mp (hn n (by rw [← hget]; exact List.getElem_mem _))
      have hxp : p.node n = some x := by rw [← hnode]; exact hxn
      have hg : getNode n (q.setProf root ⟨ns, cs, i + 1⟩) = (.ok x, q.setProf root ⟨ns, cs, i + 1⟩) := by
        unfold getNode
        rw [hn1, hxp]
      simp only
      rw [XM.bind_apply, hg]
      cases x with
      | inner d t f =>
        have hl : leavesOf p (n :: ns.drop (i + 1)) = leavesOf p (ns.drop (i + 1)) := by
          unfold leavesOf
          rw [List.filterMap_cons]
          simp only [hxp]
        rw [hl]
        exact ⟨q', i', h1, h2, h3, h4, he1.trans h5, by omega, fun _ => by omega⟩
      | leaf e =>
        have hl : leavesOf p (n :: ns.drop (i + 1)) = (n, e) :: leavesOf p (ns.drop (i + 1)) := by
          unfold leavesOf
          rw [List.filterMap_cons]
          simp only [hxp]
        rw [hl]
        simp only
        rw [XM.bind_apply]
        unfold mapE callLeaf XM.lift
        cases hge : g n e with
        | error err => exact ⟨_, i + 1, rfl, hq1, hi1, hn1, he1, by omega, fun _ => by omega⟩
        | ok b =>
          simp only
          rw [XM.bind_apply, show leavesLoop (fun n e p => (g n e, p)) root k = leavesLoop (callLeaf g) root k from rfl, h1]
          cases hm : mapE (fun l : ℕ × E => g l.1 l.2) (leavesOf p (ns.drop (i + 1))) with
          | error err => exact ⟨q', i', rfl, h2, h3, h4, he1.trans h5, by omega, fun _ => by omega⟩
          | ok bs => exact ⟨q', i', rfl, h2, h3, h4, he1.trans h5, by omega, fun _ => by omega⟩

theorem mem_leavesOf {p : Pool E} {ns : List ℕ} {n : ℕ} {e : E} : (n, e) ∈ leavesOf p ns ↔ n ∈ ns ∧ p.node n = some (.leaf e) := by
  unfold leavesOf
  rw [List.mem_filterMap]
  constructor
  · rintro ⟨m, hm, h⟩
    split at h
    · rename_i e' he
      simp only [Option.some.injEq, Prod.mk.injEq] at h
      obtain ⟨rfl, rfl⟩ := h
      exact ⟨hm, he⟩
    · cases h
  · rintro ⟨h1, h2⟩
    exact ⟨n, h1, by simp only [h2]⟩

theorem leavesOf_nodup {p : Pool E} {ns : List ℕ} (h : ns.Nodup) : ((leavesOf p ns).map (·.1)).Nodup := by
  induction ns with
  | nil => exact List.nodup_nil
  | cons n ns ih =>
    rw [List.nodup_cons] at h
    have hl : leavesOf p (n :: ns) = leavesOf p ns ∨ ∃ e, leavesOf p (n :: ns) = (n, e) :: leavesOf p ns := by
      unfold leavesOf
      rw [List.filterMap_cons]
      split
      · exact Or.inl rfl
      · rename_i b hb
        split at hb
        · rename_i e he
          cases hb
          exact Or.inr ⟨e, rfl⟩
        · cases hb
    rcases hl with hl | ⟨e, hl⟩
    · rw [hl]; exact ih h.2
    · rw [hl, List.map_cons, List.nodup_cons]
      refine ⟨fun hm => ?_, ih h.2⟩
      obtain ⟨⟨m, e'⟩, h1, h2⟩ := List.mem_map.mp hm
      simp only at h2
      subst h2
      exact h.1 (mem_leavesOf.mp h1).1

/-- What `map_leaves` does with the profile of the root at any position. -/
theorem mapLeaves_eq {p : Pool E} (hi : Inv1 X p) {root : ℕ} {pr : Profile} (hl : p.profiles.lookup root = some pr) (hst : Static p root pr)
    (hle : pr.next ≤ pr.nodes.length) (g : ℕ → E → Except PyErr β) :
    ∃ q, mapLeaves (callLeaf g) root p = (mapE (fun l : ℕ × E => g l.1 l.2) (leavesOf p (pr.nodes.drop pr.next)), q) ∧ Inv1 X q ∧ Ext p q ∧
      ∃ pr', q.profiles.lookup root = some pr' ∧ Static q root pr' ∧ pr'.nodes = pr.nodes ∧
        ((∃ bs, mapE (fun l : ℕ × E => g l.1 l.2) (leavesOf p (pr.nodes.drop pr.next)) = .ok bs) → Clean pr') ∧
        ((∃ e, mapE (fun l : ℕ × E => g l.1 l.2) (leavesOf p (pr.nodes.drop pr.next)) = .error e) → 0 < pr'.next) := by
  obtain ⟨q, i, h1, h2, h3, h4, h5, h6, h7⟩ := leavesLoop_eq (X := X) (p := p) (root := root) (ns := pr.nodes) (cs := pr.counts) g
    (pr.nodes.length + 1) pr.next p hl (fun n hn => hi.core.reach_some hst.found ((hst.order.mem n).mp hn)) hle (by omega) hi rfl
  have hstq : Static q root pr := hst.mono h5 hi.core
  unfold mapLeaves
  rw [XM.bind_apply, getProfile_some hl]
  simp only
  rw [XM.bind_apply, h1]
  cases hm : mapE (fun l : ℕ × E => g l.1 l.2) (leavesOf p (pr.nodes.drop pr.next)) with
  | error e =>
    refine ⟨q, rfl, h3, h5, _, h2, ?_, rfl, fun ⟨_, h⟩ => (by cases h), fun _ => (by have := h7 ⟨e, hm⟩; simp only; omega)⟩
    exact hstq.recount rfl fun n m j hj => ⟨j, hj⟩
  | ok bs =>
    simp only
    rw [XM.bind_apply, profileReset_eq h2]
    refine ⟨_, rfl, h3.setProf _ _, h5.trans (Ext.setProf _ _ _), _, lookup_setProf h2, ?_, rfl, fun _ => ⟨rfl, ?_⟩, fun ⟨_, h⟩ => (by cases h)⟩
    · refine Static.setProf h3.core (Static.recount (pr' := ⟨pr.nodes, pr.counts.map fun q => (q.1, (q.2.1, 0)), 0⟩) hstq rfl
        fun n m j hj => ⟨0, ?_⟩) _
      simp only
      rw [lookup_map_val pr.counts (fun c : ℕ × ℕ => (c.1, 0)), hj]
      rfl
    · intro x hx
      simp only [List.mem_map] at hx
      obtain ⟨y, -, rfl⟩ := hx
      rfl

theorem mapE_total {α γ : Type} (g : α → γ) (l : List α) : mapE (fun x => (.ok (g x) : Except PyErr γ)) l = .ok (l.map g) := by
  induction l with
  | nil => rfl
  | cons x l ih => unfold mapE; simp only [ih, List.map_cons]

theorem mapE_raises {α γ : Type} {g : α → Except PyErr γ} {l : List α} {x : α} (hx : x ∈ l) {e : PyErr} (he : g x = .error e) :
    ∃ e', mapE g l = .error e' := by
  induction l with
  | nil => cases hx
  | cons y l ih =>
    unfold mapE
    cases hy : g y with
    | error e' => exact ⟨e', rfl⟩
    | ok b =>
      rcases List.mem_cons.mp hx with rfl | hx
      · rw [he] at hy; cases hy
      · obtain ⟨e', h⟩ := ih hx
        simp only [h]
        exact ⟨e', rfl⟩

theorem mapLeaves_profile {f : ℕ → E → XM E β} {root : ℕ} {p q : Pool E} {pr : Profile} (h : getProfile root p = (.ok pr, q))
    (hl : q.profiles.lookup root = some pr) : mapLeaves f root p = mapLeaves f root q := by
  unfold mapLeaves
  rw [XM.bind_apply, h, XM.bind_apply, getProfile_some hl]

/-- The start of `map_leaves` in a pool that can come up. -/
theorem mapLeaves_start (hX : XLaw X ev) {p : Pool E} (hp : Reachable X Γ p) {root : ℕ} (hr : (p.node root).isSome) (hf : Fresh p root)
    (g : ℕ → E → Except PyErr β) :
    ∃ ls : List (ℕ × E), (ls.map (·.1)).Nodup ∧ (∀ n e, (n, e) ∈ ls ↔ Reach p root n ∧ p.node n = some (.leaf e)) ∧
    ∃ q, mapLeaves (callLeaf g) root p = (mapE (fun l : ℕ × E => g l.1 l.2) ls, q) ∧ Inv1 X q ∧ Ext p q ∧
      ∃ pr', q.profiles.lookup root = some pr' ∧ Static q root pr' ∧ ((∃ bs, mapE (fun l : ℕ × E => g l.1 l.2) ls = .ok bs) → Clean pr') ∧
        ((∃ e, mapE (fun l : ℕ × E => g l.1 l.2) ls = .error e) → 0 < pr'.next) := by
  have hinv := hp.inv hX
  have hip : IP X root True p := by
    refine ⟨hinv.toInv1, fun pr h => ?_⟩
    obtain ⟨T, -, h1, h2, -⟩ := hinv.prof root pr h
    exact ⟨h1, h2, Or.inl (hf pr h)⟩
  obtain ⟨pr, p', h1, h2, he, h3, hst, -, hcl⟩ := getProfile_run hip hr
  have hcl := hcl.resolve_right (by simp)
  obtain ⟨q, e1, e2, e3, pr', e4, e5, -, e6, e7⟩ := mapLeaves_eq h2.toInv1 h3 hst (by rw [hcl.1]; omega) g
  rw [← mapLeaves_profile h1 h3, hcl.1, List.drop_zero] at e1
  rw [hcl.1, List.drop_zero] at e6 e7
  refine ⟨leavesOf p' pr.nodes, leavesOf_nodup hst.order.nodup, fun n e => ?_, q, e1, e2, he.toExt.trans e3, pr', e4, e5, e6, e7⟩
  rw [mem_leavesOf, hst.order.mem, he.toExt.reach hinv.core hr]
  refine and_congr_right fun hn => ?_
  obtain ⟨x, hx⟩ := Option.isSome_iff_exists.mp (hinv.core.reach_some hr hn)
  rw [he.toExt.node hx, hx]

/-- C82: `map_leaves` and `walk_leaves` call the function once for every leaf of the diagram, and leave the walk of this root ready
for use, if no walk of this root raised before. -/
theorem map_leaves_partial (hX : XLaw X ev) {p : Pool E} (hp : Reachable X Γ p) {root : ℕ} (hr : (p.node root).isSome) (hf : Fresh p root)
    (g : ℕ → E → β) :
    ∃ (ls : List (ℕ × E)) (q : Pool E), mapLeaves (callLeaf fun n e => .ok (g n e)) root p = (.ok (ls.map fun l => g l.1 l.2), q) ∧
      (ls.map (·.1)).Nodup ∧ (∀ n e, (n, e) ∈ ls ↔ Reach p root n ∧ p.node n = some (.leaf e)) ∧ Fresh q root := by
  obtain ⟨ls, h1, h2, q, h3, -, -, pr', h4, -, h5, -⟩ := mapLeaves_start hX hp hr hf fun n e => .ok (g n e)
  rw [mapE_total (fun l : ℕ × E => g l.1 l.2)] at h3 h5
  refine ⟨ls, q, h3, h1, h2, fun pr h => ?_⟩
  rw [h4] at h
  cases h
  exact h5 ⟨_, rfl⟩

/-- C82, finding: when the function raises, the exception is passed on, and from then on every bottom-up walk of this root raises,
whatever it computes: the shared profile is not reset. -/
theorem map_leaves_raise (hX : XLaw X ev) {p : Pool E} (hp : Reachable X Γ p) {root : ℕ} (hr : (p.node root).isSome) (hf : Fresh p root)
    {g : ℕ → E → Except PyErr β} {n : ℕ} {e : E} (hn : Reach p root n) (hx : p.node n = some (.leaf e)) {err : PyErr} (hg : g n e = .error err) :
    ∃ err' q, mapLeaves (callLeaf g) root p = (.error err', q) ∧ ∀ (α : Type) (vt : ℕ → E → α) (vi : ℕ → Decision → α → α → α),
      ∃ e' q', bottomUp (pureLeaf vt) (pureInner vi) root q = (.error e', q') := by
  obtain ⟨ls, -, h2, q, h3, h4, h5, pr', h6, h7, -, h8⟩ := mapLeaves_start hX hp hr hf g
  obtain ⟨err', he⟩ := mapE_raises (g := fun l : ℕ × E => g l.1 l.2) ((h2 n e).mpr ⟨hn, hx⟩) hg
  refine ⟨err', q, by rw [h3, he], fun α vt vi => ?_⟩
  exact walk_dirty h4 (h5.isSome hr) h6 h7 (h8 ⟨err', he⟩) vt vi

end

/-! ### Concrete cases -/

/-- EXAMPLE: `a xor b`: node 3 is `b`, node 4 is `not b`, node 5 tests `a`. -/
def exXor : Pool Dict := runOps [.boolTest exB, .internal exB 1 2, .internal exA 4 3] (newPool exCtx)

theorem exXor_reachable : Reachable exCtx exTypes exXor := by
  refine .step (.internal exA 4 3) (.step (.internal exB 1 2) (.step (.boolTest exB) .refl ?_) ?_) ?_
  · exact .sym _
  · exact ⟨.sym _, by decide +kernel, by decide +kernel⟩
  · exact ⟨.sym _, by decide +kernel, by decide +kernel⟩

theorem exXor_root : (exXor.node 5).isSome := by decide +kernel

/-- EXAMPLE: a node sends its number, with a different last digit to both children. -/
def exSend (n : ℕ) (_ : Decision) (_ : List ℕ) : ℕ × ℕ := (10 * n, 10 * n + 1)

/-- C82, finding: the order of the messages depends on the order in which the set is popped, which python does not specify. -/
theorem top_down_order : topDown exXor exSend (fun _ => 0) 5 = .ok [(5, []), (4, [50]), (3, [51]), (2, [41, 30]), (1, [40, 31])] ∧
    topDown exXor exSend (fun _ => 1) 5 = .ok [(5, []), (3, [51]), (4, [50]), (2, [30, 41]), (1, [31, 40])] := by
  decide +kernel

/-- The hypotheses of the theorems on walks from the top are met, for every order. -/
example (pick : ℕ → ℕ) : ∃ tr, topDown exXor exSend pick 5 = .ok tr ∧ (tr.map (·.1)).Nodup ∧ ∀ n, n ∈ tr.map (·.1) ↔ Reach exXor 5 n := by
  obtain ⟨tr, h1, h2, h3, -⟩ := top_down_visits exLaw exXor_reachable exXor_root exSend pick
  exact ⟨tr, h1, h2, h3⟩

example (pick : ℕ → ℕ) {tr : List (ℕ × List ℕ)} (h : topDown exXor exSend pick 5 = .ok tr) {ms : List ℕ} (hm : (2, ms) ∈ tr) : ms.Perm [41, 30] :=
  top_down_schedule exLaw exXor_reachable exXor_root (fun _ _ _ _ _ => rfl) h top_down_order.1 hm (by decide)

/-- EXAMPLE: the number of the steps from the root is sent down, the sum of the steps to the leaves is sent up. -/
def exSteps : DownUp Dict ℕ ℕ := ⟨fun _ _ m => m, fun _ _ m => (m + 1, m + 1), fun _ _ a b => a + b, fun _ => true⟩

/-- The hypotheses of the theorems on walks down and up are met; the cache saves visits. -/
theorem down_up_example : downUp exXor exSteps true 0 5 = .ok (8, [(5, 0), (4, 1), (1, 2), (2, 2), (3, 1)]) ∧
    downUp exXor exSteps false 0 5 = .ok (8, [(5, 0), (4, 1), (1, 2), (2, 2), (3, 1), (2, 2), (1, 2)]) := by
  decide +kernel

example : ∃ r tr tr', downUp exXor exSteps true 0 5 = .ok (r, tr) ∧ downUp exXor exSteps false 0 5 = .ok (r, tr') :=
  down_up_cache exLaw exXor_reachable exXor_root exSteps (fun _ => rfl) 0

/-- The hypotheses of the theorem on messages that are not hashable are met. -/
example : downUp exXor { exSteps with hashable := fun m => decide (m = 0) } true 0 5 = .error .typeError :=
  down_up_unhashable (d := ⟨exA, none, true⟩) (t := 4) (f := 3) (by decide +kernel) _ rfl rfl (by decide)

/-- The hypotheses of the theorem on leaves are met. -/
example : ∃ (ls : List (ℕ × Dict)) (q : Pool Dict), mapLeaves (callLeaf fun n _ => .ok n) 5 exXor = (.ok (ls.map fun l => l.1), q) ∧ Fresh q 5 := by
  obtain ⟨ls, q, h1, -, -, h2⟩ := map_leaves_partial exLaw exXor_reachable exXor_root (by
    have : exXor.profiles.lookup 5 = none := by decide +kernel
    intro pr h
    rw [this] at h; cases h) fun n _ => n
  exact ⟨ls, q, h1, h2⟩

/-- The hypotheses of the theorem on a function that raises are met. -/
example : ∃ err q, mapLeaves (callLeaf fun n _ => if n = 2 then (.error .valueError : Except PyErr ℕ) else .ok n) 5 exXor = (.error err, q) ∧
    ∃ e' q', bottomUp (pureLeaf fun _ _ => (1 : ℕ)) (pureInner fun _ _ a b => a + b + 1) 5 q = (.error e', q') := by
  have h2 : Reach exXor 5 2 := .step (.step .root ⟨⟨exA, none, true⟩, 4, 3, by decide +kernel, Or.inl rfl⟩)
    ⟨⟨exB, none, true⟩, 1, 2, by decide +kernel, Or.inr rfl⟩
  obtain ⟨err, q, h1, h⟩ := map_leaves_raise exLaw exXor_reachable exXor_root (by
    have : exXor.profiles.lookup 5 = none := by decide +kernel
    intro pr h
    rw [this] at h; cases h) (g := fun n _ => if n = 2 then (.error .valueError : Except PyErr ℕ) else .ok n) (n := 2) (e := [([], 1)]) h2
    (by decide +kernel) (err := .valueError) rfl
  exact ⟨err, q, h1, h ℕ _ _⟩

/-- C82, finding: after a walk that raised (here an inversion), the first call of `map_leaves` silently misses leaves, the second
one returns all. -/
theorem map_leaves_missed : (mapLeaves (callLeaf fun n _ => .ok n) 5 exDirty).1 = .ok [] ∧
    (mapLeaves (callLeaf fun n _ => .ok n) 5 (mapLeaves (callLeaf fun n _ => (.ok n : Except PyErr ℕ)) 5 exDirty).2).1 = .ok [1, 2, 3] := by
  decide +kernel

end Pywmi
