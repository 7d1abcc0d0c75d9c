import Verif.Props.Xsdd

set_option linter.unusedSectionVars false
set_option linter.unusedSimpArgs false

/-!
# C57, C61: the volume of the XSDD engine, and pruning
-/

namespace Pywmi
open Formula Prog MeasureTheory

/-! ### The bounds of the domain -/

theorem boundList_ok {D : Domain} :
    ∀ ds : List (String × Bounds), (∀ p ∈ ds, D.varTypes.lookup p.1 = some .real ∧ p.1 ∈ D.vars) → ∀ fs, D.boundList ds = .ok fs →
      (∀ f ∈ fs, XOk D f ∧ ∃ a ∈ atoms f, Proper a) ∧ ((∃ p ∈ ds, ∃ l, p.2.1 = some l) → fs ≠ []) := by
  intro ds
  induction ds with
  | nil => intro _ fs h; cases h; simp
  | cons p ds ih =>
    obtain ⟨v, lb, ub⟩ := p
    intro h fs hfs
    obtain ⟨hv1, hv2⟩ := h (v, lb, ub) (by simp)
    simp only at hv1 hv2
    have hreal : v ∈ D.reals := mem_reals.mpr ⟨hv2, hv1⟩
    have hne : D.reals ≠ [] := List.ne_nil_of_mem hreal
    simp only [Domain.boundList, Domain.getSymbol, dictGet, hv1] at hfs
    cases hr : D.boundList ds with
    | error err => rw [hr] at hfs; cases hfs
    | ok rest =>
      rw [hr] at hfs
      simp only [Except.ok.injEq] at hfs
      obtain ⟨i1, i2⟩ := ih (fun p hp => h p (by simp [hp])) rest hr
      have lo : ∀ l : ℚ, XOk D (.le (.realC l) (.sym v .real)) ∧ Proper (.le (.realC l) (.sym v .real)) := fun l => by
        refine ⟨⟨rfl, by simp [litOk, linTerm], ?_, ?_, fun h => absurd h hne⟩, ?_⟩
        · intro p hp
          simp only [syms, List.nil_append, List.mem_singleton] at hp
          subst hp
          exact ⟨hv2, hv1⟩
        · intro a ha
          simp only [atoms, List.append_nil, List.mem_singleton] at ha
          subst ha
          exact ⟨⟨fun _ => false, fun _ => (l : ℝ) + 1⟩, by simp [strictAt, value]⟩
        · exact ⟨⟨fun _ => false, fun _ => (l : ℝ) + 1⟩, ⟨fun _ => false, fun _ => (l : ℝ) - 1⟩, by simp [strictAt, value],
            by simp only [strictAt, value]; exact (sub_one_lt _).ne', by simp [truth, value], by simp [truth, value]⟩
      have up : ∀ u : ℚ, XOk D (.le (.sym v .real) (.realC u)) ∧ Proper (.le (.sym v .real) (.realC u)) := fun u => by
        refine ⟨⟨rfl, by simp [litOk, linTerm], ?_, ?_, fun h => absurd h hne⟩, ?_⟩
        · intro p hp
          simp only [syms, List.append_nil, List.mem_singleton] at hp
          subst hp
          exact ⟨hv2, hv1⟩
        · intro a ha
          simp only [atoms, List.append_nil, List.mem_singleton] at ha
          subst ha
          exact ⟨⟨fun _ => false, fun _ => (u : ℝ) + 1⟩, by simp [strictAt, value]⟩
        · exact ⟨⟨fun _ => false, fun _ => (u : ℝ) - 1⟩, ⟨fun _ => false, fun _ => (u : ℝ) + 1⟩, by simp [strictAt, value],
            by simp [strictAt, value], by simp [truth, value], by simp [truth, value]⟩
      subst hfs
      constructor
      · intro f hf
        simp only [List.mem_append] at hf
        rcases hf with hf | hf | hf
        · cases lb with
          | none => simp at hf
          | some l =>
            simp only [List.mem_singleton] at hf
            subst hf
            exact ⟨(lo l).1, _, by simp [atoms], (lo l).2⟩
        · cases ub with
          | none => simp at hf
          | some l =>
            simp only [List.mem_singleton] at hf
            subst hf
            exact ⟨(up l).1, _, by simp [atoms], (up l).2⟩
        · exact i1 f hf
      · rintro ⟨p, hp, l, hl⟩
        rcases List.mem_cons.mp hp with rfl | hp
        · simp only at hl
          subst hl
          simp
        · have := i2 ⟨p, hp, l, hl⟩
          simp [this]

theorem bounds_ok {D : Domain} (hD : BoxOk D) : ∃ b, D.getBounds = .ok b ∧ XOk D b ∧
    (∀ σ : Env ℝ, truth σ b = true ↔ D.inBox σ) ∧ (D.reals = [] ∨ ∃ a ∈ atoms b, Proper a) := by
  have hty : ∀ p ∈ D.varDomains, D.varTypes.lookup p.1 = some .real := fun p hp' =>
    lookup_mem_nodup hD.wf.typesNodup ((hD.wf.doms p.1).mp (List.mem_map_of_mem hp'))
  have hvars : ∀ p ∈ D.varDomains, D.varTypes.lookup p.1 = some .real ∧ p.1 ∈ D.vars := fun p hp' =>
    ⟨hty p hp', (hD.wf.types p.1).mp (List.mem_map_of_mem (f := Prod.fst) (mem_of_dictGet (hty p hp')))⟩
  obtain ⟨b, h1, _, h3⟩ := Domain.getBounds_correct (K := ℝ) D hty
  refine ⟨b, h1, ?_⟩
  simp only [Domain.getBounds] at h1
  cases hbl : D.boundList D.varDomains with
  | error e => rw [hbl] at h1; cases h1
  | ok fs =>
    rw [hbl] at h1
    simp only [Except.ok.injEq] at h1
    subst h1
    obtain ⟨k1, k2⟩ := boundList_ok D.varDomains hvars fs hbl
    refine ⟨(XOk.mkAndOr fun a ha => (k1 a ha).1).1, h3, ?_⟩
    by_cases hr : D.reals = []
    · exact .inl hr
    · right
      obtain ⟨v, hv⟩ := List.exists_mem_of_ne_nil _ hr
      obtain ⟨p, hp, rfl⟩ := List.mem_map.mp ((hD.wf.mem_real v).mpr hv)
      obtain ⟨l, u, hlu, _⟩ := hD.box p.1 p.2 (lookup_mem_nodup hD.wf.domNodup hp)
      have hne := k2 ⟨p, hp, l, by rw [hlu]⟩
      obtain ⟨f, hf⟩ := List.exists_mem_of_ne_nil _ hne
      obtain ⟨_, a, ha, hpa⟩ := k1 f hf
      exact ⟨a, by rw [atoms_mkAnd]; exact mem_atomsList.mpr ⟨f, hf, ha⟩, hpa⟩

/-! ### Pruning -/

theorem XOk.inside {D : Domain} {f : Formula} (h : XOk D f) {g : Formula} (hw : Formula.wt .bool g = true) (hl : litOk g = true)
    (hs : ∀ p ∈ syms g, p ∈ syms f) (ha : ∀ a ∈ atoms g, a ∈ atoms f) : XOk D g :=
  ⟨hw, hl, fun p hp => h.vars p (hs p hp), fun a h' => h.generic a (ha a h'), fun hr => by
    rw [List.eq_nil_iff_forall_not_mem]
    intro a h'
    have := ha a h'
    rw [h.noReals hr] at this
    cases this⟩

theorem XOk.of_list {D : Domain} {f : Formula} {as : List Formula} (h : XOk D f) (hf : f = .and as ∨ f = .or as) :
    ∀ a ∈ as, XOk D a := fun a ha => by
  have hw := h.wt
  have hl := h.lit
  rcases hf with rfl | rfl
  · simp only [Formula.wt, Bool.and_eq_true, wtAll_iff] at hw
    simp only [litOk, litOkAll_iff] at hl
    exact h.inside (by simp_all) (hl a ha) (fun p hp => mem_symsList.mpr ⟨a, ha, hp⟩) fun x hx => mem_atomsList.mpr ⟨a, ha, hx⟩
  · simp only [Formula.wt, Bool.and_eq_true, wtAll_iff] at hw
    simp only [litOk, litOkAll_iff] at hl
    exact h.inside (by simp_all) (hl a ha) (fun p hp => mem_symsList.mpr ⟨a, ha, hp⟩) fun x hx => mem_atomsList.mpr ⟨a, ha, hx⟩

theorem XOk.implies_iff {D : Domain} {l r : Formula} : XOk D (.implies l r) ↔ XOk D l ∧ XOk D r := by
  constructor
  · intro h
    have hw := h.wt
    have hl := h.lit
    simp only [Formula.wt, litOk, Bool.and_eq_true] at hw hl
    exact ⟨h.inside hw.1 hl.1 (fun p hp => List.mem_append_left _ hp) fun p hp => List.mem_append_left _ hp,
      h.inside hw.2 hl.2 (fun p hp => List.mem_append_right _ hp) fun p hp => List.mem_append_right _ hp⟩
  · rintro ⟨h1, h2⟩
    refine ⟨by simp [Formula.wt, h1.wt, h2.wt], by simp [litOk, h1.lit, h2.lit], ?_, ?_, fun h => by
      simp [atoms, h1.noReals h, h2.noReals h]⟩
    · intro p hp
      rcases List.mem_append.mp hp with hp | hp
      · exact h1.vars p hp
      · exact h2.vars p hp
    · intro p hp
      rcases List.mem_append.mp hp with hp | hp
      · exact h1.generic p hp
      · exact h2.generic p hp

theorem XOk.iff_parts {D : Domain} {l r : Formula} (h : XOk D (.iff l r)) : XOk D l ∧ XOk D r := by
  have hw := h.wt
  have hl := h.lit
  simp only [Formula.wt, litOk, Bool.and_eq_true] at hw hl
  exact ⟨h.inside hw.1 hl.1 (fun p hp => List.mem_append_left _ hp) fun p hp => List.mem_append_left _ hp,
    h.inside hw.2 hl.2 (fun p hp => List.mem_append_right _ hp) fun p hp => List.mem_append_right _ hp⟩

theorem XOk.unnot {D : Domain} {a : Formula} (h : XOk D (.not a)) : XOk D a :=
  h.inside (by simpa [Formula.wt] using h.wt) (by simpa [litOk] using h.lit) (fun _ hp => hp) fun _ hp => hp

theorem collectSets_mem {ss : List (List Formula)} {s : List Formula} (h : collectSets ss = .ok s) :
    ∀ x ∈ s, ∃ t ∈ ss, x ∈ t := by
  cases ss with
  | nil => cases h
  | cons t ts =>
    simp only [collectSets, Except.ok.injEq] at h
    subst h
    have : ∀ (ts : List (List Formula)) (t : List Formula), ∀ x ∈ ts.foldl setUnion t, x ∈ t ∨ ∃ u ∈ ts, x ∈ u := by
      intro ts
      induction ts with
      | nil => intro t x hx; exact .inl hx
      | cons u us ih =>
        intro t x hx
        rcases ih _ x hx with hx | ⟨v, hv, hx⟩
        · rcases mem_setUnion.mp hx with hx | hx
          · exact .inl hx
          · exact .inr ⟨u, by simp, hx⟩
        · exact .inr ⟨v, by simp [hv], hx⟩
    intro x hx
    rcases this ts t x hx with h | ⟨u, hu, h⟩
    · exact ⟨t, by simp, h⟩
    · exact ⟨u, by simp [hu], h⟩

theorem mapE_mem {α β : Type} {g : α → Except PyErr β} : ∀ {as : List α} {rs : List β}, mapE g as = .ok rs →
    ∀ r ∈ rs, ∃ a ∈ as, g a = .ok r := by
  intro as
  induction as with
  | nil => intro rs h; cases h; simp
  | cons a as ih =>
    intro rs h
    simp only [mapE] at h
    cases ha : g a with
    | error e => rw [ha] at h; cases h
    | ok r =>
      rw [ha] at h
      simp only at h
      cases hm : mapE g as with
      | error e => rw [hm] at h; cases h
      | ok rs' =>
        rw [hm] at h
        cases h
        intro x hx
        rcases List.mem_cons.mp hx with rfl | hx
        · exact ⟨a, by simp, ha⟩
        · obtain ⟨b, hb, hb'⟩ := ih hm x hx
          exact ⟨b, by simp [hb], hb'⟩

/-- The inequalities collected from a formula are again formulas of the problem. -/
theorem walk_support {D : Domain} : ∀ n f, msize f < n → XOk D f → ∀ s, (boundsW true).walk f = .ok s → ∀ x ∈ s, XOk D x := by
  intro n
  induction n with
  | zero => intro f h; omega
  | succ n ih =>
    intro f hn hf s hs
    have hlist : ∀ as : List Formula, (∀ a ∈ as, msize a < n ∧ XOk D a) →
        interp (boundsW true).walk (Prog.callAll as fun rs => .ofExcept (collectSets rs)) = .ok s → ∀ x ∈ s, XOk D x := by
      intro as has h
      rw [interp_callAll] at h
      cases hm : mapE (boundsW true).walk as with
      | error e => rw [hm] at h; cases h
      | ok rs =>
        rw [hm] at h
        simp only [interp_ofExcept] at h
        intro x hx
        obtain ⟨t, ht, hxt⟩ := collectSets_mem h x hx
        obtain ⟨a, ha, hat⟩ := mapE_mem hm t ht
        exact ih a (has a ha).1 (has a ha).2 t hat x hxt
    rw [Walker.walk_eq (boundsW_decr _)] at hs
    cases f with
    | and as =>
      refine hlist as (fun a ha => ⟨?_, hf.of_list (.inl rfl) a ha⟩) hs
      have := msize_lt_of_mem ha
      simp only [msize] at hn; omega
    | or as =>
      refine hlist as (fun a ha => ⟨?_, hf.of_list (.inr rfl) a ha⟩) hs
      have := msize_lt_of_mem ha
      simp only [msize] at hn; omega
    | not a =>
      change interp _ (Prog.call a fun s : List Formula => .done (s.map mkNot).dedup) = _ at hs
      rw [interp] at hs
      cases ha : (boundsW true).walk a with
      | error e => rw [ha] at hs; cases hs
      | ok t =>
        rw [ha] at hs
        simp only [interp, Except.ok.injEq] at hs
        subst hs
        intro x hx
        obtain ⟨y, hy, rfl⟩ := List.mem_map.mp (List.mem_dedup.mp hx)
        exact (ih a (by simp only [msize] at hn; omega) hf.unnot t ha y hy).not
    | implies l r =>
      change interp _ (Prog.call (mkOr [mkNot l, r]) .done) = _ at hs
      rw [interp] at hs
      obtain ⟨h1, h2⟩ := XOk.implies_iff.mp hf
      cases ha : (boundsW true).walk (mkOr [mkNot l, r]) with
      | error e => rw [ha] at hs; cases hs
      | ok t =>
        rw [ha] at hs
        simp only [interp, Except.ok.injEq] at hs
        subst hs
        refine ih _ ?_ (XOk.two h1.not h2).2 t ha
        have := msize_impl l r
        omega
    | iff l r =>
      obtain ⟨h1, h2⟩ := hf.iff_parts
      refine hlist [.implies l r, .implies r l] (fun a ha => ?_) hs
      simp only [List.mem_cons, List.not_mem_nil, or_false] at ha
      simp only [msize] at hn
      rcases ha with rfl | rfl
      · exact ⟨by simp only [msize]; omega, XOk.implies_iff.mpr ⟨h1, h2⟩⟩
      · exact ⟨by simp only [msize]; omega, XOk.implies_iff.mpr ⟨h2, h1⟩⟩
    | le l r =>
      change Except.ok [Formula.lt l r] = _ at hs
      cases hs
      intro x hx
      rw [List.mem_singleton.mp hx]
      have hl := hf.lit
      simp only [litOk, Bool.and_eq_true] at hl
      have a1 := isAllReal_atoms l (linTerm_allReal l hl.1)
      have a2 := isAllReal_atoms r (linTerm_allReal r hl.2)
      refine ⟨hf.wt, hf.lit, hf.vars, fun a ha => ?_, fun h => absurd (hf.noReals h) (by simp [atoms])⟩
      simp only [atoms, a1, a2, List.append_nil, List.mem_singleton] at ha
      subst ha
      exact hf.generic (.le l r) (by simp [atoms])
    | lt l r =>
      change Except.ok [Formula.lt l r] = _ at hs
      cases hs
      intro x hx
      rw [List.mem_singleton.mp hx]
      exact hf
    | sym m t =>
      change Except.ok [] = _ at hs
      cases hs
      simp
    | boolC b =>
      change Except.ok [] = _ at hs
      cases hs
      simp
    | ite c t e => cases hs
    | _ => exact absurd hf.lit (by simp [litOk])

/-- No inequality is ever collected from a weight. -/
theorem walk_weight {w : Formula} (hw : wt .real w = true) {s : List Formula} (hs : (boundsW true).walk w = .ok s) : s = [] := by
  rw [Walker.walk_eq (boundsW_decr _)] at hs
  cases w with
  | plus as => cases hs; rfl
  | minus l r => cases hs; rfl
  | times as => cases hs; rfl
  | sym n t => cases hs; rfl
  | realC q => cases hs; rfl
  | ite c t e => cases hs
  | pow b e => cases hs
  | _ => simp [wt] at hw

section
variable {E : Type} {o : XsddOpts E} {eval : E → (String → ℝ) → ℝ}

theorem foldE_inv {α β : Type} {f : β → α → Except PyErr β} {I : β → Prop} : ∀ {as : List α} {b b' : β},
    (∀ a ∈ as, ∀ b b', I b → f b a = .ok b' → I b') → I b → foldE f b as = .ok b' → I b' := by
  intro as
  induction as with
  | nil => intro b b' _ hb h; cases h; exact hb
  | cons a as ih =>
    intro b b' hf hb h
    simp only [foldE] at h
    cases ha : f b a with
    | error e => rw [ha] at h; cases h
    | ok c =>
      rw [ha] at h
      exact ih (fun x hx => hf x (by simp [hx])) (hf a (by simp) b c hb ha) h

theorem indexPairs_mem {as : List Formula} : ∀ q ∈ XsddOpts.indexPairs as, q.1 ∈ as ∧ q.2 ∈ as := by
  induction as with
  | nil => simp [XsddOpts.indexPairs]
  | cons a as ih =>
    intro q hq
    simp only [XsddOpts.indexPairs, List.mem_append, List.mem_map] at hq
    rcases hq with ⟨b, hb, rfl⟩ | hq
    · exact ⟨by simp, by simp [hb]⟩
    · obtain ⟨h1, h2⟩ := ih q hq
      exact ⟨by simp [h1], by simp [h2]⟩

/-- **C61**: pruning with implied inequalities never changes the support: whatever the order of the inequalities, if the
solver answers "implied" only for implied inequalities and no exception is raised, the pruned support is true at exactly the
assignments at which the support is, and is again a formula of the problem. -/
theorem baseSupport_correct (hord : ∀ l, (o.setOrd l).Perm l)
    (himp : ∀ a b, o.implies a b = .ok true → ∀ σ : Env ℝ, truth σ a = true → truth σ b = true) {D : Domain} {S w base : Formula}
    (hS : XOk D S) (hw : wt .real w = true) (h : o.baseSupport S w = .ok base) :
    XOk D base ∧ (∀ σ : Env ℝ, truth σ base = truth σ S) ∧ ∀ a ∈ atoms S, a ∈ atoms base := by
  unfold XsddOpts.baseSupport at h
  split at h
  · cases hc : o.collectConflicts S w with
    | error e => rw [hc] at h; cases h
    | ok cs =>
      rw [hc] at h
      simp only [Except.ok.injEq] at h
      subst h
      unfold XsddOpts.collectConflicts at hc
      cases hs : (boundsW true).walk S with
      | error e => rw [hs] at hc; cases hc
      | ok s =>
        rw [hs] at hc
        simp only at hc
        cases ht : (boundsW true).walk w with
        | error e => rw [ht] at hc; cases hc
        | ok t =>
          rw [ht] at hc
          simp only at hc
          have ht0 := walk_weight hw ht
          subst ht0
          have hmem : ∀ x ∈ o.setOrd (setUnion s []), XOk D x := fun x hx => by
            rcases mem_setUnion.mp ((hord _).mem_iff.mp hx) with h | h
            · exact walk_support _ S (Nat.lt_succ_self _) hS s hs x h
            · cases h
          have hI : ∀ c ∈ cs, XOk D c ∧ ∀ σ : Env ℝ, truth σ c = true := by
            refine foldE_inv (I := fun cs => ∀ c ∈ cs, XOk D c ∧ ∀ σ : Env ℝ, truth σ c = true) ?_ (by simp) hc
            intro q hq acc acc' hacc hstep
            obtain ⟨q1, q2⟩ := indexPairs_mem q hq
            have x1 := hmem _ q1
            have x2 := hmem _ q2
            unfold XsddOpts.pairConflicts at hstep
            simp only at hstep
            split at hstep
            · refine foldE_inv (I := fun cs => ∀ c ∈ cs, XOk D c ∧ ∀ σ : Env ℝ, truth σ c = true) ?_ hacc hstep
              intro p hp b b' hb hask
              have hpx : XOk D p.1 ∧ XOk D p.2 := by
                simp only [List.mem_cons, List.not_mem_nil, or_false] at hp
                rcases hp with rfl | rfl | rfl | rfl
                · exact ⟨x1, x2⟩
                · exact ⟨x1.not, x2⟩
                · exact ⟨x2, x1⟩
                · exact ⟨x2.not, x1⟩
              unfold XsddOpts.askConflict at hask
              cases hi : o.implies p.1 p.2 with
              | error e => rw [hi] at hask; cases hask
              | ok v =>
                rw [hi] at hask
                cases v with
                | false => cases hask; exact hb
                | true =>
                  cases hask
                  intro c hc
                  rcases List.mem_append.mp hc with hc | hc
                  · exact hb c hc
                  · rw [List.mem_singleton.mp hc]
                    refine ⟨XOk.implies_iff.mpr hpx, fun σ => ?_⟩
                    have := himp _ _ hi σ
                    by_cases hp1 : truth σ p.1 = true
                    · simp [truth, this hp1]
                    · simp [truth, hp1]
            · cases hstep; exact hacc
          refine ⟨(XOk.two (XOk.mkAndOr fun a ha => (hI a ha).1).1 hS).1, fun σ => ?_, fun a ha => ?_⟩
          · have : truth σ (mkAnd cs) = true := by
              rw [truth_mkAnd, List.all_eq_true]
              exact fun c hc => (hI c hc).2 σ
            simp [truth, truthAll, this]
          · simp [atoms, atomsList, ha]
  · cases h
    exact ⟨hS, fun _ => rfl, fun _ ha => ha⟩

/-- Pruning cannot be used with a weight that has cases: it raises a ValueError for every such weight. -/
theorem pruning_raises_on_cases (c t e : Formula) {S : Formula} {s : List Formula} (hs : (boundsW true).walk S = .ok s)
    (hf : o.findConflicts = true) : o.baseSupport S (.ite c t e) = .error .valueError := by
  have : (boundsW true).walk (.ite c t e) = .error .valueError := by
    rw [Walker.walk_eq (boundsW_decr _)]; rfl
  simp only [XsddOpts.baseSupport, hf, if_true, XsddOpts.collectConflicts, hs, this]

/-- The inequalities collected from a negated conjunction do not describe it: at `x = 0`, `y = 2` the negation holds but one
of the collected inequalities does not. -/
theorem inequalities_of_negated_conjunction : ∃ (f : Formula) (s : List Formula) (σ : Env ℝ), (boundsW true).walk f = .ok s ∧
    OffBoundary σ f ∧ truth σ f = true ∧ ∃ x ∈ s, truth σ x = false := by
  refine ⟨.not (.and [.lt (.sym "x" .real) (.realC 1), .lt (.sym "y" .real) (.realC 1)]),
    [.not (.lt (.sym "x" .real) (.realC 1)), .not (.lt (.sym "y" .real) (.realC 1))],
    ⟨fun _ => false, fun n => if n = "y" then 2 else 0⟩, by decide +kernel, ?_, ?_, ?_⟩
  · intro a ha
    simp only [atoms, atomsList, List.append_nil, List.nil_append, List.cons_append, List.mem_cons, List.not_mem_nil, or_false] at ha
    rcases ha with rfl | rfl <;> simp [strictAt, value]
  · simp [truth, truthAll, value]
  · exact ⟨_, by simp; exact .inl rfl, by simp [truth, value]⟩

/-! ### The volume -/

/-- **C57**: with an exact convex back-end the engine returns the weighted model integral, with the bounds of the domain added
or not: for every domain with a box, every support and every weight whose conditions are made of Boolean variables and linear
comparisons `<=`, `<`, whatever the orders of sets and ties; with pruning, if no exception is raised while pruning.
Excluded: weights with a clash (C46), equalities, comparisons of equal terms, and, when the bounds are not added, supports
whose inequalities all lack variables (C51).  The full statement has no such exclusions. -/
theorem computeVolume_correct_partial (ho : o.Sound eval) {integ : Domain → List Dict → Dict → Except PyErr ℝ}
    (hi : ConvexExact integ) (hback : o.backend = some integ)
    (himp : ∀ a b, o.implies a b = .ok true → ∀ σ : Env ℝ, truth σ a = true → truth σ b = true)
    {e : EngineObj} {w : Formula} (hw : e.weight = some w) (hD : BoxOk e.domain) (hxw : XWeight o e.domain w)
    (hS : XOk e.domain e.support) :
    ((∃ b base, e.domain.getBounds = .ok b ∧ o.baseSupport (.and [e.support, b]) w = .ok base) →
      o.computeVolume e true = .ok (e.domain.volumeOf true (density e.support w))) ∧
    ((∃ base, o.baseSupport e.support w = .ok base) → e.domain.confined false (density e.support w) →
      (e.domain.reals = [] ∨ ∃ a ∈ atoms e.support, Proper a) →
      o.computeVolume e false = .ok (e.domain.volumeOf false (density e.support w))) := by
  constructor
  · rintro ⟨b, base, hb, hbase⟩
    obtain ⟨b', hb', hxb, htb, hpb⟩ := bounds_ok hD
    rw [hb] at hb'; cases hb'
    obtain ⟨k1, k2, k3⟩ := baseSupport_correct ho.setOrd himp (XOk.two hS hxb).1 hxw.wt hbase
    simp only [XsddOpts.computeVolume, if_true, hb]
    rw [volumeCore_correct ho hi hback (e := e.withConstraint b) (base := base) hw hD hxw hbase k1
      (hpb.imp id fun ⟨a, ha, hp⟩ => ⟨a, k3 a (by rw [atoms_mkAnd]; exact mem_atomsList.mpr ⟨b, by simp, ha⟩), hp⟩)]
    show Except.ok (e.domain.volumeOf true (density base w)) = _
    congr 1
    rw [Domain.volumeOf, Domain.volumeOf]
    congr 1
    refine restricted_congr fun σ hσ => ?_
    have := k2 σ
    rw [truth_mkAnd_pair, (htb σ).mpr (hσ rfl), Bool.and_true] at this
    simp only [density, this]
  · rintro ⟨base, hbase⟩ hconf hprop
    obtain ⟨k1, k2, k3⟩ := baseSupport_correct ho.setOrd himp hS hxw.wt hbase
    simp only [XsddOpts.computeVolume, Bool.false_eq_true, if_false]
    rw [volumeCore_correct ho hi hback hw hD hxw hbase k1 (hprop.imp id fun ⟨a, ha, hp⟩ => ⟨a, k3 a ha, hp⟩)]
    congr 1
    rw [Domain.volumeOf, Domain.volumeOf]
    congr 1
    funext σ
    have hden : density base w = density e.support w := by funext σ; simp only [density, k2]
    rw [hden]
    unfold Domain.restricted
    by_cases hbx : e.domain.inBox σ
    · rw [if_pos fun _ => hbx, if_pos (by simp)]
    · rw [if_neg fun h => hbx (h rfl), if_pos (by simp)]
      rcases hconf with h | h
      · cases h
      · exact (h σ hbx).symm

end

/-! ### A concrete case -/

/-- Expressions as functions. -/
noncomputable def funAlgebra : Algebra ((String → ℝ) → ℝ) where
  real q := fun _ => q
  symbol n := fun ρ => ρ n
  times a b := fun ρ => a ρ * b ρ
  plus a b := fun ρ => a ρ + b ρ
  negate a := fun ρ => -a ρ
  lessThan a b := fun ρ => if a ρ < b ρ then 1 else 0
  lessThanEqual a b := fun ρ => if a ρ ≤ b ρ then 1 else 0

/-- An engine with reference implementations of the external parts. -/
noncomputable def sampleOpts (prune : Bool) : XsddOpts ((String → ℝ) → ℝ) where
  simp := id
  mgr ex := Sdd.refManager ((Vtree.load ex).getD .empty)
  ord := id
  tie := id
  setOrd := id
  alg := funAlgebra
  realF v := fun _ => v
  toFloat e := .ok (e fun _ => 0)
  integrate _ _ _ := .error .notImplemented
  backend := some fun D is p => .ok (D.volumeOf true (regionFn is p))
  vtree _ := .error .notImplemented
  findConflicts := prune
  implies a b := open Classical in .ok (decide (∀ σ : Env ℝ, truth σ a = true → truth σ b = true))

theorem sampleOpts_sound (prune : Bool) : (sampleOpts prune).Sound fun e ρ => e ρ where
  mgr ex u h h1 h2 := by simpa [sampleOpts, h] using Sdd.refManager_ok h1 h2
  ord l := List.Perm.refl _
  tie l := List.Perm.refl _
  setOrd l := List.Perm.refl _
  alg := ⟨fun _ _ => rfl, fun _ _ => rfl, fun _ _ _ => rfl, fun _ _ _ => rfl, fun _ _ => rfl, fun _ _ _ => rfl, fun _ _ _ => rfl⟩
  realF _ _ := rfl
  toFloat e v h := by simp [sampleOpts, h]
  simp _ _ := rfl
  simpOk _ _ h := h

/-- `(a ∨ x ≤ 1) ∧ (b → x < y)`. -/
def xsddSupport : Formula :=
  .and [.or [.sym "a" .bool, .le (.sym "x" .real) (.realC 1)], .implies (.sym "b" .bool) (.lt (.sym "x" .real) (.sym "y" .real))]

/-- `ite(x ≤ y, x, 2 + y)`. -/
def xsddWeight : Formula :=
  .ite (.le (.sym "x" .real) (.sym "y" .real)) (.sym "x" .real) (.plus [.realC 2, .sym "y" .real])

theorem xsddSupport_ok : XOk sampleDomain xsddSupport where
  wt := by decide
  lit := by decide +kernel
  vars p hp := by
    simp only [xsddSupport, syms, symsList, List.append_nil, List.nil_append, List.cons_append, List.mem_cons, List.not_mem_nil,
      or_false] at hp
    rcases hp with rfl | rfl | rfl | rfl | rfl <;> exact ⟨by decide, rfl⟩
  generic a ha := by
    simp only [xsddSupport, atoms, atomsList, List.append_nil, List.nil_append, List.cons_append, List.mem_cons, List.not_mem_nil,
      or_false] at ha
    rcases ha with rfl | rfl
    · exact ⟨env0, by simp [strictAt, value, env0]⟩
    · exact ⟨⟨fun _ => false, fun n => if n = "x" then 1 else 0⟩, by simp [strictAt, value]⟩
  noReals h := absurd h (by decide)

theorem xsddWeight_ok (prune : Bool) : XWeight (sampleOpts prune) sampleDomain xsddWeight where
  wt := by decide
  vars p hp := by
    simp only [xsddWeight, syms, symsList, List.append_nil, List.nil_append, List.cons_append, List.mem_cons, List.not_mem_nil,
      or_false] at hp
    rcases hp with rfl | rfl | rfl | rfl <;> exact ⟨by decide, rfl⟩
  conds c hc := by
    simp only [xsddWeight, condsOf, condsOfList, List.append_nil, List.mem_cons, List.not_mem_nil, or_false] at hc
    subst hc
    refine ⟨by decide, by decide +kernel, ?_, ?_, fun h => absurd h (by decide)⟩
    · intro p hp
      simp only [syms, List.cons_append, List.nil_append, List.mem_cons, List.not_mem_nil, or_false] at hp
      rcases hp with rfl | rfl <;> exact ⟨by decide, rfl⟩
    · intro a ha
      simp only [atoms, List.append_nil, List.mem_singleton] at ha
      subst ha
      exact ⟨⟨fun _ => false, fun n => if n = "x" then 1 else 0⟩, by simp [strictAt, value]⟩
  clash := by
    have h : ((pieceW id (Pieces.clashFree id)).walk xsddWeight).toBool = true := by decide +kernel
    show ∃ P, (pieceW id (Pieces.clashFree id)).walk xsddWeight = .ok P
    cases hp : (pieceW id (Pieces.clashFree id)).walk xsddWeight with
    | error e => rw [hp] at h; cases h
    | ok P => exact ⟨P, rfl⟩

/-- The hypotheses of `computeVolume_correct_partial` are met. -/
example : (sampleOpts false).computeVolume ⟨sampleDomain, xsddSupport, some xsddWeight⟩ true =
    .ok (sampleDomain.volumeOf true (density xsddSupport xsddWeight)) := by
  obtain ⟨b, hb, _⟩ := bounds_ok sampleDomain_box
  exact (computeVolume_correct_partial (sampleOpts_sound false) (fun _ _ _ _ _ _ _ _ => .inl rfl) rfl
    (fun a b h => by simpa [sampleOpts] using h) (e := ⟨sampleDomain, xsddSupport, some xsddWeight⟩) rfl sampleDomain_box
    (xsddWeight_ok false) xsddSupport_ok).1 ⟨b, _, hb, rfl⟩

/-- Pruning runs on this support, with a weight without cases. -/
example : ∃ base, (sampleOpts true).baseSupport xsddSupport (.plus [.realC 2, .sym "y" .real]) = .ok base := by
  have h : ∀ cs qs, ∃ cs', foldE (sampleOpts true).pairConflicts cs qs = .ok cs' := by
    have ask : ∀ cs (q : Formula × Formula), ∃ cs', (sampleOpts true).askConflict cs q = .ok cs' := by
      intro cs q
      simp only [XsddOpts.askConflict, sampleOpts]
      split
      · rename_i h; cases h
      · exact ⟨_, rfl⟩
      · exact ⟨_, rfl⟩
    have foldAny : ∀ {α : Type} (f : List Formula → α → Except PyErr (List Formula)), (∀ cs q, ∃ cs', f cs q = .ok cs') →
        ∀ qs cs, ∃ cs', foldE f cs qs = .ok cs' := by
      intro α f hf qs
      induction qs with
      | nil => intro cs; exact ⟨cs, rfl⟩
      | cons q qs ih =>
        intro cs
        obtain ⟨c, hc⟩ := hf cs q
        obtain ⟨d, hd⟩ := ih c
        exact ⟨d, by simp only [foldE, hc, hd]⟩
    intro cs qs
    refine foldAny _ (fun cs q => ?_) qs cs
    unfold XsddOpts.pairConflicts
    simp only
    split
    · exact foldAny _ ask _ _
    · exact ⟨_, rfl⟩
  obtain ⟨s, hs⟩ : ∃ s, (boundsW true).walk xsddSupport = .ok s := by
    have h : ((boundsW true).walk xsddSupport).toBool = true := by decide +kernel
    cases hp : (boundsW true).walk xsddSupport with
    | error e => rw [hp] at h; cases h
    | ok P => exact ⟨P, rfl⟩
  have hw : (boundsW true).walk (.plus [.realC 2, .sym "y" .real]) = .ok [] := by
    rw [Walker.walk_eq (boundsW_decr _)]; rfl
  obtain ⟨cs, hcs⟩ := h [] (XsddOpts.indexPairs ((sampleOpts true).setOrd (setUnion s [])))
  exact ⟨_, by simp only [XsddOpts.baseSupport, XsddOpts.collectConflicts, hs, hw, hcs]; rfl⟩

end Pywmi
