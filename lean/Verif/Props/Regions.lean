import Verif.Props.Compile
import Verif.Props.Algebra

set_option linter.unusedSectionVars false
set_option linter.unusedSimpArgs false

/-!
# The semirings of the XSDD engine (C41, C42) and labels (C47)
-/

namespace Pywmi
open Formula Prog

/-! ### Recorded inequalities are linear comparisons -/

theorem linToSmt_shape {d : Dict} (hk : ∀ p ∈ d, p.1.length ≤ 1) {c : Formula} (h : linToSmt d = .ok c) :
    ∃ l r, (c = .le l r ∨ c = .lt l r) ∧ linTerm l = true ∧ linTerm r = true := by
  unfold linToSmt at h
  split at h
  · cases h; exact ⟨_, _, .inl rfl, rfl, rfl⟩
  split at h
  · cases h; exact ⟨_, _, .inl rfl, rfl, rfl⟩
  have key : ∀ ps : List (Mono × ℚ), (∀ p ∈ ps, p.1.length ≤ 1) → ∀ ts, Prog.mapE linTermSmt ps = .ok ts →
      ∀ t ∈ ts, linTerm t = true := by
    intro ps
    induction ps with
    | nil => intro _ ts h; simp [mapE] at h; subst h; simp
    | cons p ps ih =>
      intro hp ts h
      simp only [mapE] at h
      cases hl : linTermSmt p with
      | error e => rw [hl] at h; cases h
      | ok t =>
        rw [hl] at h
        cases hm : mapE linTermSmt ps with
        | error e => rw [hm] at h; cases h
        | ok us =>
          rw [hm] at h
          cases h
          have ht : linTerm t = true := by
            obtain ⟨k, v⟩ := p
            have hk := hp (k, v) (by simp)
            match k, hk with
            | [], _ => simp [linTermSmt, mkTimes] at hl
            | [x], _ =>
              simp only [linTermSmt, List.map_cons, List.map_nil, mkTimes] at hl
              split at hl
              · cases hl; simp [linTerm, linTermAll, syms]
              · cases hl; simp [linTerm]
          intro u hu
          rcases List.mem_cons.mp hu with rfl | hu
          · exact ht
          · exact ih (fun q hq => hp q (by simp [hq])) us hm u hu
  cases hm : mapE linTermSmt (d.filter fun p => p.1 ≠ []) with
  | error e => rw [hm] at h; cases h
  | ok ts =>
    rw [hm] at h
    have hts := key _ (fun p hp => hk p (List.mem_of_mem_filter hp)) ts hm
    match ts, hts with
    | [], _ => simp [mkPlus] at h
    | [t], hts => simp only [mkPlus] at h; cases h; exact ⟨_, _, .inr rfl, hts t (by simp), rfl⟩
    | t :: u :: ts, hts =>
      simp only [mkPlus] at h
      cases h
      exact ⟨_, _, .inr rfl, by simp only [linTerm, linTermAll_iff, List.isEmpty_cons, Bool.not_false, Bool.true_and]; exact hts, rfl⟩

/-- A normalised comparison is a comparison of linear terms. -/
theorem normalizeAtom_shape {l r g c : Formula} (hl : wt .real l = true) (hr : wt .real r = true)
    (hg : g = .le l r ∨ g = .lt l r) (h : normalizeAtom g = .ok c) :
    ∃ l r, (c = .le l r ∨ c = .lt l r) ∧ linTerm l = true ∧ linTerm r = true := by
  unfold normalizeAtom at h
  cases hq : linFromSmt g with
  | error e => rw [hq] at h; cases h
  | ok q =>
    rw [hq] at h
    obtain ⟨_, _, _, hk, _⟩ := linFromSmt_cmp (K := ℚ) hl hr hg hq
    refine linToSmt_shape (fun p hp => ?_) h
    unfold linNormalize at hp
    split at hp
    · exact hk p hp
    · simp only at hp
      split at hp
      · exact hk p hp
      · obtain ⟨q', hq', rfl⟩ := List.mem_map.mp (List.mem_of_mem_filter hp)
        exact hk q' hq'

theorem atoms_typed (f : Formula) : ∀ ty, wt ty f = true → ∀ a ∈ atoms f, ∃ l r, wt .real l = true ∧ wt .real r = true ∧
    (a = .le l r ∨ a = .lt l r ∨ a = .equals l r) := by
  have lst : ∀ {as : List Formula} {ty}, (∀ x ∈ as, ∀ ty, wt ty x = true → ∀ a ∈ atoms x, ∃ l r, wt .real l = true ∧
      wt .real r = true ∧ (a = .le l r ∨ a = .lt l r ∨ a = .equals l r)) → (∀ x ∈ as, wt ty x = true) →
      ∀ a ∈ atomsList as, ∃ l r, wt .real l = true ∧ wt .real r = true ∧ (a = .le l r ∨ a = .lt l r ∨ a = .equals l r) := by
    intro as ty ih hw a ha
    obtain ⟨x, hx, hax⟩ := mem_atomsList.mp ha
    exact ih x hx ty (hw x hx) a hax
  induction f using Formula.induct with
  | and as ih =>
    intro ty hw
    cases ty <;> simp only [wt, Bool.and_eq_true, wtAll_iff, Bool.false_eq_true] at hw
    exact lst ih hw.2
  | or as ih =>
    intro ty hw
    cases ty <;> simp only [wt, Bool.and_eq_true, wtAll_iff, Bool.false_eq_true] at hw
    exact lst ih hw.2
  | times as ih =>
    intro ty hw
    cases ty <;> simp only [wt, Bool.and_eq_true, wtAll_iff, Bool.false_eq_true] at hw
    exact lst ih hw.2
  | plus as ih =>
    intro ty hw
    cases ty <;> simp only [wt, Bool.and_eq_true, wtAll_iff, Bool.false_eq_true] at hw
    exact lst ih hw.2
  | not a ih =>
    intro ty hw
    cases ty <;> simp only [wt, Bool.false_eq_true] at hw
    exact ih _ hw
  | implies l r ihl ihr =>
    intro ty hw a ha
    cases ty <;> simp only [wt, Bool.and_eq_true, Bool.false_eq_true] at hw
    rcases List.mem_append.mp ha with h | h
    · exact ihl _ hw.1 a h
    · exact ihr _ hw.2 a h
  | iff l r ihl ihr =>
    intro ty hw a ha
    cases ty <;> simp only [wt, Bool.and_eq_true, Bool.false_eq_true] at hw
    rcases List.mem_append.mp ha with h | h
    · exact ihl _ hw.1 a h
    · exact ihr _ hw.2 a h
  | minus l r ihl ihr =>
    intro ty hw a ha
    cases ty <;> simp only [wt, Bool.and_eq_true, Bool.false_eq_true] at hw
    rcases List.mem_append.mp ha with h | h
    · exact ihl _ hw.1 a h
    · exact ihr _ hw.2 a h
  | ite c t e ihc iht ihe =>
    intro ty hw a ha
    simp only [wt, Bool.and_eq_true] at hw
    simp only [atoms, List.mem_append] at ha
    rcases ha with h | h | h
    · exact ihc _ hw.1.1 a h
    · exact iht _ hw.1.2 a h
    · exact ihe _ hw.2 a h
  | le l r ihl ihr =>
    intro ty hw a ha
    cases ty <;> simp only [wt, Bool.and_eq_true, Bool.false_eq_true] at hw
    simp only [atoms, List.mem_cons, List.mem_append] at ha
    rcases ha with rfl | h | h
    · exact ⟨l, r, hw.1, hw.2, .inl rfl⟩
    · exact ihl _ hw.1 a h
    · exact ihr _ hw.2 a h
  | lt l r ihl ihr =>
    intro ty hw a ha
    cases ty <;> simp only [wt, Bool.and_eq_true, Bool.false_eq_true] at hw
    simp only [atoms, List.mem_cons, List.mem_append] at ha
    rcases ha with rfl | h | h
    · exact ⟨l, r, hw.1, hw.2, .inr (.inl rfl)⟩
    · exact ihl _ hw.1 a h
    · exact ihr _ hw.2 a h
  | equals l r ihl ihr =>
    intro ty hw a ha
    cases ty <;> simp only [wt, Bool.and_eq_true, Bool.false_eq_true] at hw
    simp only [atoms, List.mem_cons, List.mem_append] at ha
    rcases ha with rfl | h | h
    · exact ⟨l, r, hw.1, hw.2, .inr (.inr rfl)⟩
    · exact ihl _ hw.1 a h
    · exact ihr _ hw.2 a h
  | pow b e ihb _ =>
    intro ty hw a ha
    cases ty <;> cases e <;> simp only [wt, Bool.and_eq_true, Bool.false_eq_true] at hw
    simp only [atoms, List.append_nil] at ha
    exact ihb _ hw.1 a ha
  | sym n t => intro _ _ a ha; simp [atoms] at ha
  | boolC b => intro _ _ a ha; simp [atoms] at ha
  | realC q => intro _ _ a ha; simp [atoms] at ha

/-- The recorded inequalities are comparisons of linear terms. -/
def LiteralInfo.Linear (L : LiteralInfo) : Prop :=
  ∀ p ∈ L.abstractions, ∃ l r, (p.1 = .le l r ∨ p.1 = .lt l r) ∧ linTerm l = true ∧ linTerm r = true

/-- Literal extraction records only comparisons of linear terms. -/
theorem extractLiterals_linear {f g : Formula} {L : LiteralInfo} (hwt : wt .bool f = true)
    (h : extractLiterals f = .ok (g, L)) : L.Linear := by
  obtain ⟨_, _, _, _, _, _, h7⟩ := extractLiterals_correct (K := ℚ) hwt h
  intro p hp
  obtain ⟨a, ha, hn⟩ := (h7 p.1).mp (List.mem_map_of_mem hp)
  obtain ⟨l, r, hl, hr, hc⟩ := atoms_typed f _ hwt a ha
  rcases hc with hc | hc | hc
  · exact normalizeAtom_shape hl hr (.inl hc) hn
  · exact normalizeAtom_shape hl hr (.inr hc) hn
  · obtain ⟨e, he⟩ := normalizeAtom_equals l r
    rw [hc, he] at hn; cases hn

theorem LiteralInfo.Linear.atom {L : LiteralInfo} (h : L.Linear) (hL : L.Linked) {n : ℕ} {f : Formula}
    (hv : L.at? n = some (.atom f)) :
    f ∈ L.abstractions.map (·.1) ∧
      ∃ l r, (f = .le l r ∨ f = .lt l r) ∧ linTerm l = true ∧ linTerm r = true := by
  obtain ⟨lit, _, _, hm⟩ := invNumbered_eq hL.1 hv
  have := (hL.2.2 _ _).mp hm
  exact ⟨List.mem_map_of_mem this, h _ this⟩

theorem linAtom_meta {f l r : Formula} (hf : f = .le l r ∨ f = .lt l r) (hl : linTerm l = true) (hr : linTerm r = true) :
    wt .bool f = true ∧ ∀ p ∈ syms f, p.2 = .real := by
  have h1 := polyTerm_wt l (linTerm_polyTerm l hl)
  have h2 := polyTerm_wt r (linTerm_polyTerm r hr)
  have s1 := isAllReal_syms l (linTerm_allReal l hl)
  have s2 := isAllReal_syms r (linTerm_allReal r hr)
  have hs : ∀ p ∈ syms l ++ syms r, p.2 = .real := fun p hp => by
    rcases List.mem_append.mp hp with h | h
    · exact s1 p h
    · exact s2 p h
  rcases hf with rfl | rfl
  · exact ⟨by simp [wt, h1, h2], by simpa only [syms] using hs⟩
  · exact ⟨by simp [wt, h1, h2], by simpa only [syms] using hs⟩

section
variable {K : Type} [Field K] [LinearOrder K] [IsStrictOrderedRing K]

/-! ### Counting Boolean assignments -/

/-- SPEC: the assignment with the given true Boolean variables and the reals of `σ`. -/
def Env.withBools (σ : Env K) (T : Finset String) : Env K := ⟨fun n => decide (n ∈ T), σ.r⟩

namespace LiteralInfo

/-- SPEC: the number of assignments of the Boolean variables in `B` that make the SDD true at the reals of `σ`. -/
def boolCount (L : LiteralInfo) (s : Sdd) (B : Finset String) (σ : Env K) : ℕ :=
  (B.powerset.filter fun T => s.eval (L.byNumber (σ.withBools T)) = true).card

/-- SPEC: the Boolean variable a number stands for. -/
def nameOf (L : LiteralInfo) (n : ℕ) : Finset String :=
  match L.at? n with
  | some (.bool x) => {x}
  | _ => ∅

/-- SPEC: the Boolean variables a set of numbers stands for. -/
def names (L : LiteralInfo) (V : Finset ℕ) : Finset String := V.biUnion L.nameOf

theorem names_union (L : LiteralInfo) (U V : Finset ℕ) : L.names (U ∪ V) = L.names U ∪ L.names V :=
  Finset.union_biUnion

theorem nameOf_disjoint {L : LiteralInfo} (hL : L.Linked) {m n : ℕ} (h : m ≠ n) : Disjoint (L.nameOf m) (L.nameOf n) := by
  unfold nameOf
  split
  · rename_i x hm
    split
    · rename_i y hn
      simp only [Finset.disjoint_singleton]
      rintro rfl
      obtain ⟨i, hi, rfl, e1⟩ := at?_mem hm
      obtain ⟨j, hj, rfl, e2⟩ := at?_mem hn
      have h1 := (hL.2.1 (L.literals[i]).1 x).mp (by rw [← e1]; exact List.getElem_mem hi)
      have h2 := (hL.2.1 (L.literals[j]).1 x).mp (by rw [← e2]; exact List.getElem_mem hj)
      have e : (L.literals[i]).1 = (L.literals[j]).1 := by
        have := assoc_of_mem hL.1.2.2 h1
        rw [assoc_of_mem hL.1.2.2 h2] at this
        exact (Option.some.inj this).symm
      have := (List.Nodup.getElem_inj_iff hL.1.1 (i := i) (hi := by simpa using hi) (j := j) (hj := by simpa using hj)).mp
        (by simpa using e)
      omega
    · simp
  · simp

theorem names_disjoint {L : LiteralInfo} (hL : L.Linked) {U V : Finset ℕ} (h : Disjoint U V) :
    Disjoint (L.names U) (L.names V) := by
  unfold names
  rw [Finset.disjoint_biUnion_left]
  intro m hm
  rw [Finset.disjoint_biUnion_right]
  intro n hn
  exact nameOf_disjoint hL fun e => Finset.disjoint_left.mp h hm (e ▸ hn)

/-- The share of the Boolean assignments under which a literal is true. -/
def share (L : LiteralInfo) (σ : Env K) (n : ℕ) : K :=
  match L.at? n with
  | some (.bool _) => 1 / 2
  | some (.atom f) => ind (truth σ f)
  | none => 0

theorem atom_withBools {L : LiteralInfo} (hL : L.Linked) (hlin : L.Linear) {n : ℕ} {f : Formula}
    (hv : L.at? n = some (.atom f)) (σ τ : Env K) (h : σ.r = τ.r) : truth σ f = truth τ f := by
  obtain ⟨_, l, r, hf, hl, hr⟩ := hlin.atom hL hv
  obtain ⟨h1, h2⟩ := linAtom_meta hf hl hr
  refine truth_congr h1 fun p hp => ?_
  obtain ⟨x, ty⟩ := p
  have := h2 _ hp
  simp only at this
  subst this
  show σ.r x = τ.r x
  rw [h]

/-- The number of Boolean assignments is a share of all of them, computed by the circuit. -/
theorem boolCount_eq {L : LiteralInfo} (hL : L.Linked) (hlin : L.Linear) {s : Sdd} (hs : s.WF) {B : Finset String}
    (hB : L.names s.vars ⊆ B) (σ : Env K) : (L.boolCount s B σ : K) = 2 ^ B.card * s.circuit (L.share σ) := by
  have h1 := Sdd.expect_eval (K := K) (V := B) (w := fun _ => 1 / 2) (γ := fun β n => L.byNumber (⟨β, σ.r⟩ : Env K) n)
    (dep := L.nameOf)
    (fun n β γ h => by
      show L.byNumber (⟨β, σ.r⟩ : Env K) n = L.byNumber (⟨γ, σ.r⟩ : Env K) n
      unfold byNumber
      cases hv : L.at? n with
      | none => rfl
      | some v =>
        cases v with
        | bool x => exact h x (by simp [nameOf, hv])
        | atom f => exact atom_withBools hL hlin hv _ _ rfl)
    (fun m n h => nameOf_disjoint hL h) hs
  have h2 : s.circuit (L.share σ) = s.circuit fun n => expect B (fun _ => (1 / 2 : K)) fun β =>
      ind (L.byNumber (⟨β, σ.r⟩ : Env K) n) := by
    refine Sdd.circuit_congr s fun n hn => ?_
    unfold share byNumber
    cases hv : L.at? n with
    | none => simp [expect_const]
    | some v =>
      cases v with
      | bool x =>
        have : x ∈ B := hB (Finset.mem_biUnion.mpr ⟨n, hn, by simp [nameOf, hv]⟩)
        exact (expect_var (fun _ => (1 / 2 : K)) this).symm
      | atom f =>
        simp only
        rw [show (fun β => (ind (truth (⟨β, σ.r⟩ : Env K) f) : K)) = fun _ => ind (truth σ f) from
          funext fun β => by rw [atom_withBools hL hlin hv ⟨β, σ.r⟩ σ rfl], expect_const]
  rw [h2, ← h1, expect, Finset.mul_sum, boolCount, Finset.card_filter, Nat.cast_sum]
  refine Finset.sum_congr rfl fun T hT => ?_
  have hc : T.card + (B \ T).card = B.card := by
    have := Finset.card_sdiff_add_card_eq_card (Finset.mem_powerset.mp hT); omega
  have e : (2 : K) ^ B.card * ((∏ _i ∈ T, (1 / 2 : K)) * ∏ _i ∈ B \ T, (1 - 1 / 2 : K)) = 1 := by
    rw [Finset.prod_const, Finset.prod_const, ← hc, show (1 - 1 / 2 : K) = 1 / 2 by norm_num, ← pow_add, ← mul_pow]
    norm_num
  rw [← mul_assoc, e, one_mul]
  show _ = ind (s.eval (L.byNumber (σ.withBools T)))
  cases s.eval (L.byNumber (σ.withBools T)) <;> simp

end LiteralInfo

/-! ### C41: convex regions -/

/-- SPEC: conjunctions of recorded inequalities and negated ones. -/
inductive RegionOf (As : List Formula) : Formula → Prop where
  | all : RegionOf As (.boolC true)
  | pos (a) : a ∈ As → RegionOf As a
  | neg (a) : a ∈ As → RegionOf As (mkNot a)
  | both (f g) : RegionOf As f → RegionOf As g → RegionOf As (mkAnd [f, g])

/-- The share of a list of regions. -/
def regionShare (σ : Env K) (rs : List (Formula × Finset String)) : K :=
  (rs.map fun q => ind (truth σ q.1) * (1 / 2) ^ q.2.card).sum

theorem regionShare_append (σ : Env K) (a b : List (Formula × Finset String)) :
    regionShare σ (a ++ b) = regionShare σ a + regionShare σ b := by simp [regionShare]

theorem regionShare_times (σ : Env K) {a b : List (Formula × Finset String)}
    (h : ∀ p ∈ a, ∀ q ∈ b, Disjoint p.2 q.2) : regionShare σ (convexTimes a b) = regionShare σ a * regionShare σ b := by
  induction a with
  | nil => simp [convexTimes, regionShare]
  | cons p a ih =>
    have e : convexTimes (p :: a) b = (b.map fun q => (mkAnd [p.1, q.1], p.2 ∪ q.2)) ++ convexTimes a b := rfl
    rw [e, regionShare_append, ih fun x hx => h x (by simp [hx])]
    have hp := h p (by simp)
    have h1 : regionShare σ (b.map fun q => (mkAnd [p.1, q.1], p.2 ∪ q.2)) =
        ind (truth σ p.1) * (1 / 2) ^ p.2.card * regionShare σ b := by
      simp only [regionShare, List.map_map, ← List.sum_map_mul_left]
      congr 1
      refine List.map_congr_left fun q hq => ?_
      simp only [Function.comp, truth_mkAnd, List.all_cons, List.all_nil, Bool.and_true, ind_and,
        Finset.card_union_of_disjoint (hp q hq), pow_add]
      ring
    rw [h1]
    simp only [regionShare, List.map_cons, List.sum_cons]
    ring

theorem total_append {α : Type} (xs : List (List α)) : Semi.total [] (· ++ ·) xs = xs.flatten := by
  cases xs with
  | nil => rfl
  | cons x xs =>
    simp only [Semi.total, List.flatten_cons]
    induction xs generalizing x with
    | nil => simp
    | cons y xs ih => simp [ih]

/-- What holds of the regions computed for an SDD. -/
def RegionsOk (L : LiteralInfo) (s : Sdd) (rs : List (Formula × Finset String)) : Prop :=
  ∀ q ∈ rs, RegionOf (L.abstractions.map (·.1)) q.1 ∧ q.2 ⊆ L.names s.vars

theorem convex_share {L : LiteralInfo} (hL : L.Linked) (hlin : L.Linear) {s : Sdd} (hs : s.WF)
    (hv : ∀ n ∈ s.vars, 1 ≤ n ∧ n ≤ L.literals.length) :
    ∃ rs, (convexSemi L).amc s = .ok rs ∧ RegionsOk L s rs ∧ ∀ σ : Env K, s.circuit (L.share σ) = regionShare σ rs := by
  refine SddWalker.walk_rel (w := (convexSemi L).walker)
    (P := fun s rs => RegionsOk L s rs ∧ ∀ σ : Env K, s.circuit (L.share σ) = regionShare σ rs)
    (fun n => 1 ≤ n ∧ n ≤ L.literals.length) ?_ ?_ ?_ ?_ hs hv
  · refine ⟨_, rfl, fun q hq => ?_, fun σ => by simp [convexSemi, regionShare, Sdd.circuit, truth]⟩
    rw [List.mem_singleton.mp hq]
    exact ⟨.all, by simp⟩
  · exact ⟨_, rfl, fun q hq => by (cases hq), fun σ => by simp [convexSemi, regionShare, Sdd.circuit]⟩
  · intro l h0 hl
    obtain ⟨v, hval⟩ := LiteralInfo.at?_some hl
    show ∃ r, convexWeight L l = _ ∧ _
    simp only [convexWeight, LiteralInfo.litValue_eq hL.1 hval]
    cases v with
    | bool x =>
      refine ⟨_, rfl, fun q hq => ?_, fun σ => ?_⟩
      · rw [List.mem_singleton.mp hq]
        exact ⟨.all, by simp [LiteralInfo.names, Sdd.vars, LiteralInfo.nameOf, hval]⟩
      · simp only [Sdd.circuit, LiteralInfo.share, hval, regionShare]
        split <;> simp [truth]
        norm_num
    | atom f =>
      have hmem := (hlin.atom hL hval).1
      refine ⟨_, rfl, fun q hq => ?_, fun σ => ?_⟩
      · rw [List.mem_singleton.mp hq]
        refine ⟨?_, by simp⟩
        simp only
        split
        · exact .neg f hmem
        · exact .pos f hmem
      · simp only [Sdd.circuit, LiteralInfo.share, hval, regionShare]
        split <;> simp [ind_not]
  · intro es rs hwf hv' hf
    clear hv'
    refine ⟨_, Semi.combine_total (S := convexSemi L) (fun _ _ => rfl) (fun _ _ => rfl) rs, ?_⟩
    show RegionsOk L _ (Semi.total [] (· ++ ·) _) ∧ ∀ σ : Env K, _ = regionShare σ (Semi.total [] (· ++ ·) _)
    rw [total_append]
    simp only [Sdd.circuit, Sdd.circuitSum_eq]
    have hdis : ∀ e ∈ es, Disjoint e.1.vars e.2.vars := by cases hwf with | dec _ _ _ h _ => exact h
    clear hwf
    induction hf with
    | nil => exact ⟨fun q hq => by simp at hq, fun σ => by simp [regionShare]⟩
    | @cons e r es rs h hf ih =>
      obtain ⟨⟨p1, p2⟩, s1, s2⟩ := h
      obtain ⟨i1, i2⟩ := ih fun x hx => hdis x (by simp [hx])
      have hv : (Sdd.dec (e :: es)).vars = (e.1.vars ∪ e.2.vars) ∪ (Sdd.dec es).vars := by simp [Sdd.vars, Sdd.varsList]
      refine ⟨fun q hq => ?_, fun σ => ?_⟩
      · rw [hv, LiteralInfo.names_union, LiteralInfo.names_union]
        rw [List.map_cons, List.flatten_cons] at hq
        rcases List.mem_append.mp hq with hq | hq
        · obtain ⟨a, ha, hq⟩ := List.mem_flatMap.mp hq
          obtain ⟨b, hb, rfl⟩ := List.mem_map.mp hq
          refine ⟨.both _ _ (p1 a ha).1 (s1 b hb).1, ?_⟩
          exact (Finset.union_subset_union (p1 a ha).2 (s1 b hb).2).trans Finset.subset_union_left
        · exact ⟨(i1 q hq).1, (i1 q hq).2.trans Finset.subset_union_right⟩
      · simp only [List.map_cons, List.sum_cons, List.flatten_cons, regionShare_append]
        rw [i2 σ, regionShare_times σ, p2 σ, s2 σ]
        intro a ha b hb
        exact (LiteralInfo.names_disjoint hL (hdis e (by simp))).mono (p1 a ha).2 (s1 b hb).2

/-- **C41**: the convex regions of an SDD. Each region is a conjunction of recorded inequalities and negated ones with a
set of the Boolean variables of the SDD, and at every point the number of assignments of the Boolean variables (any set
`B` containing those of the SDD) under which the SDD is true is the sum, over the regions that contain the point, of two
to the number of variables missing from the region's set. -/
theorem convex_count {L : LiteralInfo} (hL : L.Linked) (hlin : L.Linear) {s : Sdd} (hs : s.WF)
    (hv : ∀ n ∈ s.vars, 1 ≤ n ∧ n ≤ L.literals.length) :
    ∃ rs, (convexSemi L).amc s = .ok rs ∧
      (∀ q ∈ rs, RegionOf (L.abstractions.map (·.1)) q.1 ∧ q.2 ⊆ L.names s.vars) ∧
      ∀ (B : Finset String), L.names s.vars ⊆ B → ∀ σ : Env K,
        L.boolCount s B σ = (rs.map fun q => if truth σ q.1 = true then 2 ^ (B.card - q.2.card) else 0).sum := by
  obtain ⟨rs, h1, h2, h3⟩ := convex_share (K := K) hL hlin hs hv
  refine ⟨rs, h1, h2, fun B hB σ => ?_⟩
  have h := LiteralInfo.boolCount_eq hL hlin hs hB σ
  rw [h3 σ] at h
  have : ((L.boolCount s B σ : ℕ) : K) =
      (((rs.map fun q => if truth σ q.1 = true then 2 ^ (B.card - q.2.card) else 0).sum : ℕ) : K) := by
    rw [h, regionShare, ← List.sum_map_mul_left, Nat.cast_list_sum, List.map_map]
    congr 1
    refine List.map_congr_left fun q hq => ?_
    have hc : q.2.card ≤ B.card := Finset.card_le_card ((h2 q hq).2.trans hB)
    by_cases ht : truth σ q.1 = true
    · simp only [Function.comp, ht, ind_true, one_mul, if_true, Nat.cast_pow, Nat.cast_ofNat]
      rw [show B.card = (B.card - q.2.card) + q.2.card by omega, pow_add, mul_assoc, ← mul_pow]
      simp
    · simp [ht]
  exact_mod_cast this

/-! ### C42: smoothing -/

/-- SPEC: at every addition, the sets of Boolean variables of the two sides have different sizes or are equal. -/
inductive Smooth (L : LiteralInfo) : Sdd → Prop where
  | tt : Smooth L .tt
  | ff : Smooth L .ff
  | lit (l) : Smooth L (.lit l)
  | dec (es) : (∀ e ∈ es, Smooth L e.1) → (∀ e ∈ es, Smooth L e.2) →
      (∀ pre e post, es = pre ++ e :: post → pre ≠ [] →
        (L.names (Sdd.varsList pre)).card ≠ (L.names (e.1.vars ∪ e.2.vars)).card ∨
        L.names (Sdd.varsList pre) = L.names (e.1.vars ∪ e.2.vars)) → Smooth L (.dec es)

variable {E : Type}

theorem smoothPlus_spec {A : Algebra E} {eval : E → (String → K) → K} (h : A.Sound eval) (a b : E × Finset String) :
    ∃ r, smoothPlus A a b = .ok r ∧ r.2 = a.2 ∪ b.2 ∧ ((a.2.card ≠ b.2.card ∨ a.2 = b.2) → ∀ (ρ : String → K) (x y : K),
      eval a.1 ρ = 2 ^ a.2.card * x → eval b.1 ρ = 2 ^ b.2.card * y → eval r.1 ρ = 2 ^ r.2.card * (x + y)) := by
  unfold smoothPlus
  by_cases hc : a.2.card = b.2.card
  · rw [if_pos hc]
    refine ⟨_, rfl, rfl, fun hor ρ x y hx hy => ?_⟩
    have he : a.2 = b.2 := hor.resolve_left (by simpa using hc)
    simp only [h.plus, hx, hy, ← he, Finset.union_self]
    ring
  · rw [if_neg hc]
    obtain ⟨wa, a1, a2⟩ := (algebra_power h (A.real 2)).1 (b.2 \ a.2).card
    obtain ⟨wb, b1, b2⟩ := (algebra_power h (A.real 2)).1 (a.2 \ b.2).card
    simp only [boolWorlds, a1, b1]
    refine ⟨_, rfl, rfl, fun _ ρ x y hx hy => ?_⟩
    simp only [h.plus, h.times, a2, b2, h.real, hx, hy]
    have e1 : (a.2 ∪ b.2).card = a.2.card + (b.2 \ a.2).card := by
      rw [← Finset.union_sdiff_self_eq_union, Finset.card_union_of_disjoint Finset.disjoint_sdiff]
    have e2 : (a.2 ∪ b.2).card = b.2.card + (a.2 \ b.2).card := by
      rw [Finset.union_comm, ← Finset.union_sdiff_self_eq_union, Finset.card_union_of_disjoint Finset.disjoint_sdiff]
    rw [mul_add]
    congr 1
    · rw [e1, pow_add]; push_cast; ring
    · rw [e2, pow_add]; push_cast; ring

/-- SPEC: no recorded inequality holds with equality at the assignment. -/
def LiteralInfo.Off (L : LiteralInfo) (σ : Env K) : Prop := ∀ f ∈ L.abstractions.map (·.1), strictAt σ f

theorem varsList_append (a b : List (Sdd × Sdd)) : Sdd.varsList (a ++ b) = Sdd.varsList a ∪ Sdd.varsList b := by
  induction a with
  | nil => simp [Sdd.varsList]
  | cons x a ih => simp [Sdd.varsList, ih, Finset.union_assoc]

theorem linMk_dictNeg (d : Dict) : linMk (dictNeg d) = (linMk d).map fun p => (p.1, -p.2) := by
  induction d with
  | nil => rfl
  | cons p d ih =>
    have ih' : List.filter (fun p : Mono × ℚ => decide (p.2 ≠ 0)) (d.map fun p => (p.1, -p.2)) =
      (List.filter (fun p : Mono × ℚ => decide (p.2 ≠ 0)) d).map fun p => (p.1, -p.2) := ih
    show List.filter (fun p : Mono × ℚ => decide (p.2 ≠ 0)) (List.map (fun p : Mono × ℚ => (p.1, -p.2)) (p :: d)) =
      List.map (fun p : Mono × ℚ => (p.1, -p.2)) (List.filter (fun p : Mono × ℚ => decide (p.2 ≠ 0)) (p :: d))
    by_cases h : p.2 = 0
    · rw [List.map_cons, List.filter_cons_of_neg (by simp [h]), List.filter_cons_of_neg (by simp [h]), ih']
    · rw [List.map_cons, List.filter_cons_of_pos (by simp [h]), List.filter_cons_of_pos (by simp [h]), ih', List.map_cons]

theorem linFromSmt_not_wf {l r g : Formula} (hl : wt .real l = true) (hr : wt .real r = true)
    (hg : g = .le l r ∨ g = .lt l r) {d : Dict} (h : linFromSmt (.not g) = .ok d) : WFLin d := by
  unfold linFromSmt at h
  rw [mathDict_not] at h
  cases hm : mathDict true g with
  | error e => rw [hm] at h; cases h
  | ok q =>
    rw [hm] at h
    cases h
    have hw := linFromSmt_wf hl hr hg (q := linMk q) (by simp only [linFromSmt, hm])
    rw [linMk_dictNeg]
    refine ⟨hw.1.mapVal _, fun p hp => ?_⟩
    obtain ⟨q', hq', rfl⟩ := List.mem_map.mp hp
    exact neg_ne_zero.mpr (hw.2 q' hq')

theorem atom_expression {A : Algebra E} {eval : E → (String → K) → K} (h : A.Sound eval) {f l r : Formula}
    (hf : f = .le l r ∨ f = .lt l r) (hl : linTerm l = true) (hr : linTerm r = true) :
    (∃ d, linFromSmt f = .ok d ∧ ∀ σ : Env K, strictAt σ f → eval (linToExpr A d) σ.r = ind (truth σ f)) ∧
    (∃ d, linFromSmt (mkNot f) = .ok d ∧ ∀ σ : Env K, strictAt σ f → eval (linToExpr A d) σ.r = 1 - ind (truth σ f)) := by
  have hwl := polyTerm_wt l (linTerm_polyTerm l hl)
  have hwr := polyTerm_wt r (linTerm_polyTerm r hr)
  constructor
  · obtain ⟨d, h1, h2⟩ := linFromSmt_linear (K := K) hl hr hf
    refine ⟨d, h1, fun σ hσ => ?_⟩
    rw [linToExpr_correct h (linFromSmt_wf hwl hwr hf h1)]
    have hs := h2 σ
    have hne : value σ l ≠ value σ r := by rcases hf with rfl | rfl <;> exact hσ
    have ht : truth σ f = true ↔ value σ l < value σ r := by
      rcases hf with rfl | rfl
      · simp [truth, lt_iff_le_and_ne, hne]
      · simp [truth]
    by_cases hlt : value σ l < value σ r
    · rw [if_pos (hs.1.mpr hlt).le, ht.mpr hlt, ind_true]
    · have hgt : value σ r < value σ l := lt_of_le_of_ne (not_lt.mp hlt) (Ne.symm hne)
      rw [if_neg (not_le.mpr (hs.2.mpr hgt)), show truth σ f = false from Bool.eq_false_iff.mpr fun h => hlt (ht.mp h), ind_false]
  · have hn : mkNot f = .not f := by rcases hf with rfl | rfl <;> rfl
    obtain ⟨d, h1, h2⟩ := linFromSmt_negated (K := K) hl hr hf
    refine ⟨d, by rw [hn]; exact h1, fun σ hσ => ?_⟩
    have hwf : WFLin d := linFromSmt_not_wf hwl hwr hf h1
    rw [linToExpr_correct h hwf]
    have hs := h2 σ
    have hne : value σ l ≠ value σ r := by rcases hf with rfl | rfl <;> exact hσ
    have ht : truth σ f = true ↔ value σ l < value σ r := by
      rcases hf with rfl | rfl
      · simp [truth, lt_iff_le_and_ne, hne]
      · simp [truth]
    by_cases hlt : value σ l < value σ r
    · rw [if_neg (not_le.mpr (hs.2.mpr hlt)), ht.mpr hlt, ind_true]; ring
    · have hgt : value σ r < value σ l := lt_of_le_of_ne (not_lt.mp hlt) (Ne.symm hne)
      rw [if_pos (hs.1.mpr hgt).le, show truth σ f = false from Bool.eq_false_iff.mpr fun h => hlt (ht.mp h), ind_false]; ring

/-- What the semiring over expressions computes. -/
theorem nonConvex_share {A : Algebra E} {eval : E → (String → K) → K} (hA : A.Sound eval) {L : LiteralInfo}
    (hL : L.Linked) (hlin : L.Linear) {s : Sdd} (hs : s.WF) (hv : ∀ n ∈ s.vars, 1 ≤ n ∧ n ≤ L.literals.length) :
    ∃ r, (nonConvexSemi A L).amc s = .ok r ∧ r.2 = L.names s.vars ∧
      (Smooth L s → ∀ σ : Env K, L.Off σ → eval r.1 σ.r = 2 ^ r.2.card * s.circuit (L.share σ)) := by
  have hplus : ∃ plus : E × Finset String → E × Finset String → E × Finset String,
      ∀ a b, smoothPlus A a b = .ok (plus a b) ∧ (plus a b).2 = a.2 ∪ b.2 ∧
        ((a.2.card ≠ b.2.card ∨ a.2 = b.2) → ∀ (ρ : String → K) (x y : K), eval a.1 ρ = 2 ^ a.2.card * x →
          eval b.1 ρ = 2 ^ b.2.card * y → eval (plus a b).1 ρ = 2 ^ (plus a b).2.card * (x + y)) := by
    have h := fun a b => smoothPlus_spec hA a b
    exact ⟨fun a b => (h a b).choose, fun a b => (h a b).choose_spec⟩
  obtain ⟨plus, hplus⟩ := hplus
  refine SddWalker.walk_rel (w := (nonConvexSemi A L).walker)
    (P := fun s r => r.2 = L.names s.vars ∧
      (Smooth L s → ∀ σ : Env K, L.Off σ → eval r.1 σ.r = 2 ^ r.2.card * s.circuit (L.share σ)))
    (fun n => 1 ≤ n ∧ n ≤ L.literals.length) ?_ ?_ ?_ ?_ hs hv
  · exact ⟨_, rfl, rfl, fun _ σ _ => by simp [nonConvexSemi, Algebra.one, hA.real, Sdd.circuit]⟩
  · exact ⟨_, rfl, rfl, fun _ σ _ => by simp [nonConvexSemi, Algebra.zero, hA.real, Sdd.circuit]⟩
  · intro l h0 hl
    obtain ⟨v, hval⟩ := LiteralInfo.at?_some hl
    show ∃ r, nonConvexWeight A L l = _ ∧ _
    simp only [nonConvexWeight, LiteralInfo.litValue_eq hL.1 hval]
    cases v with
    | bool x =>
      refine ⟨_, rfl, by simp [LiteralInfo.names, Sdd.vars, LiteralInfo.nameOf, hval], fun _ σ _ => ?_⟩
      simp only [Sdd.circuit, LiteralInfo.share, hval, Algebra.one, hA.real]
      split <;> simp
      norm_num
    | atom f =>
      obtain ⟨hmem, lhs, rhs, hf, h1, h2⟩ := hlin.atom hL hval
      obtain ⟨⟨d, d1, d2⟩, ⟨e, e1, e2⟩⟩ := atom_expression hA hf h1 h2
      by_cases hneg : l < 0
      · refine ⟨(linToExpr A e, ∅), by simp only [if_pos hneg, e1], ?_, fun _ σ hσ => ?_⟩
        · simp [LiteralInfo.names, Sdd.vars, LiteralInfo.nameOf, hval]
        · simp [Sdd.circuit, LiteralInfo.share, hval, hneg, e2 σ (hσ f hmem)]
      · refine ⟨(linToExpr A d, ∅), by simp only [if_neg hneg, d1], ?_, fun _ σ hσ => ?_⟩
        · simp [LiteralInfo.names, Sdd.vars, LiteralInfo.nameOf, hval]
        · simp [Sdd.circuit, LiteralInfo.share, hval, hneg, d2 σ (hσ f hmem)]
  · intro es rs hwf hv' hf
    clear hv'
    refine ⟨_, Semi.combine_total (S := nonConvexSemi A L) (times := fun a b => (A.times a.1 b.1, a.2 ∪ b.2)) (plus := plus)
      (fun _ _ => rfl) (fun a b => (hplus a b).1) rs, ?_⟩
    have hdis : ∀ e ∈ es, Disjoint e.1.vars e.2.vars := by cases hwf with | dec _ _ _ h _ => exact h
    -- the products
    have hprod : List.Forall₂ (fun (e : Sdd × Sdd) (x : E × Finset String) => x.2 = L.names (e.1.vars ∪ e.2.vars) ∧
        (Smooth L e.1 → Smooth L e.2 → ∀ σ : Env K, L.Off σ →
          eval x.1 σ.r = 2 ^ x.2.card * (e.1.circuit (L.share σ) * e.2.circuit (L.share σ)))) es
        (rs.map fun p => (A.times p.1.1 p.2.1, p.1.2 ∪ p.2.2)) := by
      clear hwf
      induction hf with
      | nil => exact .nil
      | @cons e r es rs h hf ih =>
        obtain ⟨⟨p1, p2⟩, s1, s2⟩ := h
        refine .cons ⟨by simp only; rw [p1, s1, LiteralInfo.names_union], fun q1 q2 σ hσ => ?_⟩ (ih fun x hx => hdis x (by simp [hx]))
        have hd : Disjoint r.1.2 r.2.2 := by
          rw [p1, s1]; exact LiteralInfo.names_disjoint hL (hdis e (by simp))
        simp only [hA.times, p2 q1 σ hσ, s2 q2 σ hσ, Finset.card_union_of_disjoint hd, pow_add]
        ring
    -- the sums
    have hsum : ∀ (xs : List (E × Finset String)) (es : List (Sdd × Sdd)) (pre : List (Sdd × Sdd)) (acc : E × Finset String),
        List.Forall₂ (fun (e : Sdd × Sdd) (x : E × Finset String) => x.2 = L.names (e.1.vars ∪ e.2.vars) ∧
        (Smooth L e.1 → Smooth L e.2 → ∀ σ : Env K, L.Off σ →
          eval x.1 σ.r = 2 ^ x.2.card * (e.1.circuit (L.share σ) * e.2.circuit (L.share σ)))) es xs → pre ≠ [] →
        acc.2 = L.names (Sdd.varsList pre) →
        (Smooth L (.dec (pre ++ es)) → ∀ σ : Env K, L.Off σ →
          eval acc.1 σ.r = 2 ^ acc.2.card * (Sdd.dec pre).circuit (L.share σ)) →
        (xs.foldl plus acc).2 = L.names (Sdd.varsList (pre ++ es)) ∧
        (Smooth L (.dec (pre ++ es)) → ∀ σ : Env K, L.Off σ →
          eval (xs.foldl plus acc).1 σ.r = 2 ^ (xs.foldl plus acc).2.card * (Sdd.dec (pre ++ es)).circuit (L.share σ)) := by
      intro xs
      induction xs with
      | nil =>
        intro es pre acc hf _ h1 h2
        cases hf
        rw [List.append_nil] at h2 ⊢
        exact ⟨h1, h2⟩
      | cons x xs ih =>
        intro es pre acc hf hne h1 h2
        cases hf with
        | @cons e _ es _ h hf =>
          obtain ⟨hp1, hp2, hp3⟩ := hplus acc x
          have e1 : pre ++ e :: es = (pre ++ [e]) ++ es := by simp
          rw [e1] at h2 ⊢
          refine ih es (pre ++ [e]) (plus acc x) hf (by simp) ?_ fun hsm σ hσ => ?_
          · rw [hp2, h1, h.1, varsList_append, LiteralInfo.names_union L (Sdd.varsList pre)]
            simp [Sdd.varsList]
          · have hsm' := hsm
            cases hsm with
            | dec _ q1 q2 q3 =>
              have hor := q3 pre e es (by simp) hne
              rw [← h1, ← h.1] at hor
              rw [hp3 hor σ.r _ _ (h2 hsm' σ hσ) (h.2 (q1 e (by simp)) (q2 e (by simp)) σ hσ)]
              congr 1
              simp [Sdd.circuit, Sdd.circuitSum_eq]
    generalize (rs.map fun p => (A.times p.1.1 p.2.1, p.1.2 ∪ p.2.2)) = ys at hprod
    clear hf hwf hdis
    cases hprod with
    | nil => exact ⟨by simp [Semi.total, nonConvexSemi, Sdd.vars, Sdd.varsList, LiteralInfo.names],
        fun _ σ _ => by simp [Semi.total, nonConvexSemi, Algebra.zero, hA.real, Sdd.circuit, Sdd.circuitSum]⟩
    | @cons e x es xs h hrest =>
      have := hsum xs es [e] x hrest (by simp) (by rw [h.1]; simp [Sdd.varsList]) fun hsm σ hσ => by
        cases hsm with
        | dec _ q1 q2 q3 =>
          rw [h.2 (q1 e (by simp)) (q2 e (by simp)) σ hσ]
          simp [Sdd.circuit, Sdd.circuitSum]
      exact this

/-- **C42** (partial: only for diagrams where at every addition the variable sets differ in size or are equal): off the
boundaries of the recorded inequalities, the expression times two to the number of missing Boolean variables is the number
of Boolean assignments under which the SDD is true. -/
theorem nonConvex_count_partial {A : Algebra E} {eval : E → (String → K) → K} (hA : A.Sound eval) {L : LiteralInfo}
    (hL : L.Linked) (hlin : L.Linear) {s : Sdd} (hs : s.WF) (hv : ∀ n ∈ s.vars, 1 ≤ n ∧ n ≤ L.literals.length) :
    ∃ r, (nonConvexSemi A L).amc s = .ok r ∧ r.2 = L.names s.vars ∧
      (Smooth L s → ∀ B, L.names s.vars ⊆ B → ∀ σ : Env K, L.Off σ →
        eval r.1 σ.r * 2 ^ (B.card - r.2.card) = L.boolCount s B σ) := by
  obtain ⟨r, h1, h2, h3⟩ := nonConvex_share hA hL hlin hs hv
  refine ⟨r, h1, h2, fun hsm B hB σ hσ => ?_⟩
  rw [LiteralInfo.boolCount_eq hL hlin hs hB, h3 hsm σ hσ]
  have hc : r.2.card ≤ B.card := by rw [h2]; exact Finset.card_le_card hB
  rw [mul_right_comm, ← pow_add]
  congr 2
  omega

/-- Three Boolean variables. -/
def threeBools : LiteralInfo :=
  ⟨[("b0", .bool "A"), ("b1", .bool "B"), ("b2", .bool "C")], [], [("A", "b0"), ("B", "b1"), ("C", "b2")]⟩

theorem threeBools_linked : LiteralInfo.make [] [("A", "b0"), ("B", "b1"), ("C", "b2")] = .ok threeBools ∧
    threeBools.Linked ∧ threeBools.Linear := by
  obtain ⟨L, h1, h2, _, _⟩ := LiteralInfo.make_linked (A := []) (B := [("A", "b0"), ("B", "b1"), ("C", "b2")]) (by simp)
    (by decide) (by decide)
  have : LiteralInfo.make [] [("A", "b0"), ("B", "b1"), ("C", "b2")] = .ok threeBools := by
    rw [LiteralInfo.make, if_neg (by simp)]
    rfl
  rw [this] at h1
  cases h1
  exact ⟨this, h2, by simp [LiteralInfo.Linear, threeBools]⟩

/-- **C42** fails in general: on `(A ∧ B) ∨ (¬A ∧ C)` both sides of the addition have two variables, so nothing is
smoothed; the expression is 2 although 4 assignments satisfy the formula, and no variable is missing. -/
theorem nonConvex_count_wrong {A : Algebra E} {eval : E → (String → K) → K} (hA : A.Sound eval) (σ : Env K) :
    ∃ r, (nonConvexSemi A threeBools).amc sampleSdd = .ok r ∧ r.2 = {"A", "B", "C"} ∧ eval r.1 σ.r = 2 ∧
      threeBools.boolCount sampleSdd {"A", "B", "C"} σ = 4 := by
  have hw : ∀ l : ℤ, ∀ x, threeBools.at? l.natAbs = some (.bool x) →
      (nonConvexSemi A threeBools).walker.walk (.lit l) = .ok (A.one, {x}) := fun l x h => by
    rw [SddWalker.walk_lit]
    show nonConvexWeight A threeBools l = _
    simp only [nonConvexWeight, LiteralInfo.litValue_eq threeBools_linked.2.1.1 h]
  have h1 := hw 1 "A" (by decide)
  have h2 := hw 2 "B" (by decide)
  have h3 := hw (-1) "A" (by decide)
  have h4 := hw 3 "C" (by decide)
  refine ⟨(A.plus (A.times A.one A.one) (A.times A.one A.one), {"A"} ∪ {"B"} ∪ ({"A"} ∪ {"C"})), ?_, ?_, ?_, ?_⟩
  · show (nonConvexSemi A threeBools).walker.walk sampleSdd = _
    rw [sampleSdd, SddWalker.walk_dec]
    simp only [SddWalker.pairsE, h1, h2, h3, h4]
    rfl
  · show ({"A"} ∪ {"B"} ∪ ({"A"} ∪ {"C"}) : Finset String) = _
    decide
  · simp only [hA.plus, hA.times, Algebra.one, hA.real]; norm_num
  · have hcount := LiteralInfo.boolCount_eq (K := K) threeBools_linked.2.1 threeBools_linked.2.2 sampleSdd_wf
      (B := {"A", "B", "C"}) (by decide) σ
    have hsh : ∀ n, n = 1 ∨ n = 2 ∨ n = 3 → threeBools.share σ n = (1 / 2 : K) := by
      rintro n (rfl | rfl | rfl) <;> rfl
    have : sampleSdd.circuit (threeBools.share σ) = (1 / 2 : K) := by
      simp only [sampleSdd, Sdd.circuit, Sdd.circuitSum]
      simp [hsh 1, hsh 2, hsh 3]
      norm_num
    rw [this] at hcount
    have hc : ({"A", "B", "C"} : Finset String).card = 3 := by decide
    rw [hc] at hcount
    have : ((threeBools.boolCount sampleSdd {"A", "B", "C"} σ : ℕ) : K) = ((4 : ℕ) : K) := by rw [hcount]; norm_num
    exact_mod_cast this

/-- A diagram with a non-trivial addition that is smooth: `A ∨ (¬A ∧ B)`. -/
example : Smooth threeBools (.dec [(.lit 1, .tt), (.lit (-1), .lit 2)]) := by
  refine .dec _ ?_ ?_ ?_
  · simp only [List.mem_cons, List.not_mem_nil, or_false, forall_eq_or_imp, forall_eq]
    exact ⟨.lit _, .lit _⟩
  · simp only [List.mem_cons, List.not_mem_nil, or_false, forall_eq_or_imp, forall_eq]
    exact ⟨.tt, .lit _⟩
  · intro pre e post h hne
    match pre, hne with
    | [p], _ =>
      simp only [List.cons_append, List.nil_append, List.cons.injEq] at h
      obtain ⟨rfl, rfl, rfl⟩ := h
      exact .inl (by decide)
    | [p, q], _ => simp at h
    | p :: q :: r :: pre, _ => simp at h

/-! ### C47: labels -/

section Labels
variable {K : Type} [Field K] [LinearOrder K]

/-- SPEC: the value of a label at an assignment. -/
def labelValue (σ : Env K) (p : String × Formula × Formula) : K := if σ.b p.1 then value σ p.2.1 else value σ p.2.2

theorem getBoolLabel_some {f : Formula} {n : String} {t e : Formula} (h : getBoolLabel f = some (n, t, e)) :
    f = .ite (.sym n .bool) t e := by
  unfold getBoolLabel at h
  split at h
  · cases h; rfl
  · cases h

theorem labelLoop_spec (as : List Formula) : ∀ (labels : List (String × Formula × Formula)) (terms : List Formula),
    (labels.map (·.1) ++ (as.filterMap getBoolLabel).map (·.1)).Nodup →
    labelLoop as labels terms = (labels ++ as.filterMap getBoolLabel, terms ++ as.filter fun a => (getBoolLabel a).isNone) := by
  induction as with
  | nil => intro labels terms _; simp [labelLoop]
  | cons a as ih =>
    intro labels terms hn
    unfold labelLoop
    cases h : getBoolLabel a with
    | none =>
      simp only [List.filterMap_cons, h] at hn ⊢
      rw [ih labels _ hn]
      simp [h]
    | some p =>
      obtain ⟨n, t, e⟩ := p
      simp only [List.filterMap_cons, h, List.map_cons] at hn ⊢
      have hfresh : n ∉ labels.map (·.1) := fun hm => by
        exact (List.nodup_append.mp hn).2.2 n hm n (by simp) rfl
      rw [assocSet_fresh hfresh, ih _ _ (by simpa using hn)]
      simp [h]

theorem prod_split (σ : Env K) (as : List Formula) :
    (as.map (value σ)).prod = ((as.filter fun a => (getBoolLabel a).isNone).map (value σ)).prod *
      ((as.filterMap getBoolLabel).map (labelValue σ)).prod := by
  induction as with
  | nil => simp
  | cons a as ih =>
    cases h : getBoolLabel a with
    | none => simp [h, ih, mul_assoc]
    | some p =>
      obtain ⟨n, t, e⟩ := p
      have hv : value σ a = labelValue σ (n, t, e) := by
        rw [getBoolLabel_some h]
        by_cases hb : σ.b n = true <;> simp [value, truth, labelValue, hb]
      simp [h, ih, hv]
      ring

theorem mkTimes_value {fs : List Formula} (hne : fs ≠ []) :
    ∃ w, mkTimes fs = .ok w ∧ ∀ σ : Env K, value σ w = (fs.map (value σ)).prod := by
  match fs, hne with
  | [a], _ => exact ⟨a, rfl, fun σ => by simp⟩
  | a :: b :: as, _ => exact ⟨_, rfl, fun σ => by simp [value, valueProd_eq, valueProd]⟩

/-- **C47** (partial: no variable labelled twice, at least one other factor): the product of the remaining weight and, for
every label, the value of the branch its Boolean variable selects is the weight. A weight that is not a product is
returned unchanged, without labels. -/
theorem extractLabels_partial {w : Formula} :
    (∀ as, w = .times as → ((as.filterMap getBoolLabel).map (·.1)).Nodup → (∃ a ∈ as, getBoolLabel a = none) →
      ∃ labels v, extractLabels w = .ok (labels, v) ∧ labels = as.filterMap getBoolLabel ∧
        ∀ σ : Env K, value σ w = value σ v * (labels.map (labelValue σ)).prod) ∧
    ((∀ as, w ≠ .times as) → extractLabels w = .ok ([], w)) := by
  constructor
  · rintro as rfl hn ⟨a, ha, hnone⟩
    have hl := labelLoop_spec as [] [] (by simpa using hn)
    simp only [List.nil_append] at hl
    obtain ⟨v, h1, h2⟩ := mkTimes_value (K := K) (fs := as.filter fun a => (getBoolLabel a).isNone)
      (List.ne_nil_of_mem (List.mem_filter.mpr ⟨ha, by simp [hnone]⟩))
    refine ⟨_, v, by simp only [extractLabels, hl, h1], rfl, fun σ => ?_⟩
    rw [h2, value, valueProd_eq, prod_split]
  · intro h
    cases w with
    | times as => exact absurd rfl (h as)
    | _ => rfl

/-- Two labels of the same variable: only the last one is kept, so the labels and the rest no longer multiply to the
weight. -/
theorem extractLabels_repeated [CharZero K] : ∃ w labels v, extractLabels w = .ok (labels, v) ∧ wt .real w = true ∧
    ∃ σ : Env K, value σ w ≠ value σ v * (labels.map (labelValue σ)).prod := by
  refine ⟨.times [.ite (.sym "A" .bool) (.realC 2) (.realC 3), .ite (.sym "A" .bool) (.realC 5) (.realC 7), .realC 1],
    [("A", .realC 5, .realC 7)], .realC 1, by decide +kernel, by decide +kernel, ⟨fun _ => true, fun _ => 0⟩, ?_⟩
  simp [value, valueProd, truth, labelValue]

/-- A product of labels only: `Times()` without arguments raises a TypeError. -/
theorem extractLabels_only_labels (n : String) (t e : Formula) :
    extractLabels (.times [.ite (.sym n .bool) t e]) = .error .typeError := rfl

/-- The hypotheses of `extractLabels_partial` are met. -/
example : ∃ as : List Formula, ((as.filterMap getBoolLabel).map (·.1)).Nodup ∧ (∃ a ∈ as, getBoolLabel a = none) ∧
    (as.filterMap getBoolLabel).length = 2 ∧ wt .real (.times as) = true :=
  ⟨[.ite (.sym "A" .bool) (.realC 2) (.realC 3), .sym "x" .real, .ite (.sym "B" .bool) (.realC 5) (.sym "x" .real)],
    by decide +kernel, ⟨.sym "x" .real, by simp, rfl⟩, by decide +kernel, by decide +kernel⟩

end Labels
end
end Pywmi
