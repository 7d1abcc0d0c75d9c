import Verif.Props.FactorTables

set_option linter.unusedSectionVars false
set_option linter.unusedSimpArgs false

/-!
# What extraction and compilation give the integrators without convex back-end
-/

namespace Pywmi
open Formula Prog MeasureTheory

/-- SPEC: a vtree strategy that lists every literal once (see C44, C45). -/
def VtreeOk (vt : LiteralInfo → Except PyErr (Vtree String)) : Prop :=
  ∀ L : LiteralInfo, L.Linked → (∀ p ∈ L.abstractions, ∃ d, linFromSmt p.1 = .ok d) →
    (L.abstractions = [] ∨ ∃ p ∈ L.abstractions, ∃ d, linFromSmt p.1 = .ok d ∧ linVars d ≠ []) →
    ∃ T, vt L = .ok T ∧ T.leaves.Perm (L.literals.map (·.1)) ∧ (L.literals ≠ [] → T.Full)

/-- The default strategy is one. -/
theorem bami_vtreeOk {ord tie : List String → List String} (hord : ∀ l, (ord l).Perm l) (htie : ∀ l, (tie l).Perm l)
    (labels : List (String × Formula × Formula)) : VtreeOk fun L => Bami.bami ord tie L labels :=
  fun _ hL h1 h2 => Bami.bami_correct_partial hord htie hL (Linked.lits_nodup hL) labels h1 h2

/-- SPEC: the literals and the diagram of a formula. -/
structure CompiledAs (D : Domain) (f : Formula) (L : LiteralInfo) (s : Sdd) : Prop where
  link : L.Linked
  lin : L.Linear
  wf : s.WF
  vars : ∀ n ∈ s.vars, 1 ≤ n ∧ n ≤ L.literals.length
  off : ∀ σ : Env ℝ, OffBoundary σ f → L.Off σ
  reals : ∀ c ∈ L.abstractions.map (·.1), ∀ p ∈ syms c, p.1 ∈ D.reals
  bools : ∀ n x, L.at? n = some (.bool x) → x ∈ D.bools
  count : ∀ σ : Env ℝ, OffBoundary σ f →
    ((D.bools.toFinset.powerset.filter fun T => truth (σ.withBools T) f = true).card : ℝ) =
      2 ^ D.bools.toFinset.card * s.circuit (L.share σ)
  bound : ∀ a l r, (a = .le l r ∨ a = .lt l r) → Conjunct a f →
    ∃ c n, normalizeAtom a = .ok c ∧ L.at? n = some (.atom c) ∧ ∀ β, s.eval β = true → β n = true

theorem compiled_facts {mgr : Vtree.Export → SddManager}
    (hmgr : ∀ ex u, Vtree.load ex = some u → u.leaves.Nodup → (∀ n ∈ u.leaves, n ≠ 0) → (mgr ex).Ok u)
    {vt : LiteralInfo → Except PyErr (Vtree String)} (hvt : VtreeOk vt)
    {D : Domain} {f : Formula} (hf : XOk D f) (hprop : atoms f = [] ∨ ∃ a ∈ atoms f, Proper a) :
    ∃ g L s, extractLiterals f = .ok (g, L) ∧ compileToSdd mgr g L (vt L) = .ok s ∧ CompiledAs D f L s := by
  obtain ⟨g, L, he⟩ := extractLiterals_total hf.wt hf.lit
  obtain ⟨hL, hwg, hag, hsg, hsem, hbool, habs⟩ := extractLiterals_correct (K := ℝ) hf.wt he
  have hlin := extractLiterals_linear hf.wt he
  have horig : ∀ c ∈ L.abstractions.map (·.1), ∃ a ∈ atoms f, ∃ l r, (a = .le l r ∨ a = .lt l r) ∧ linTerm l = true ∧
      linTerm r = true ∧ (∀ p ∈ syms a, p ∈ syms f) ∧ normalizeAtom a = .ok c := fun c hc => by
    obtain ⟨a, ha, hn⟩ := (habs c).mp hc
    obtain ⟨⟨l, r, h1, h2, h3⟩, h4⟩ := litOk_atoms f hf.lit a ha
    exact ⟨a, ha, l, r, h1, h2, h3, h4, hn⟩
  obtain ⟨t, hb, ht, hfull⟩ := hvt L hL (fun p hp => by
      obtain ⟨l, r, h1, h2, h3⟩ := hlin p hp
      obtain ⟨d, hd, _⟩ := linFromSmt_linear (K := ℝ) h2 h3 h1
      exact ⟨d, hd⟩) (by
      rcases hprop with h0 | ⟨a, ha, hp⟩
      · left
        rw [List.eq_nil_iff_forall_not_mem]
        intro p hp
        obtain ⟨a, ha, _⟩ := horig p.1 (List.mem_map_of_mem hp)
        rw [h0] at ha; cases ha
      · right
        obtain ⟨⟨l, r, h1, h2, h3⟩, h4⟩ := litOk_atoms f hf.lit a ha
        obtain ⟨c, hc, _⟩ := normalizeAtom_correct (K := ℝ) h2 h3 h1
        obtain ⟨q, hq, hqc⟩ := List.mem_map.mp ((habs c).mpr ⟨a, ha, hc⟩)
        obtain ⟨d, hd, hv⟩ := proper_vars h2 h3 h1 hp hc
        exact ⟨q, hq, d, hqc ▸ hd, hv⟩)
  obtain ⟨s, u, h1, h2, h3, h4⟩ := compileToSdd_correct (K := ℝ) hL.1 ht hfull hmgr hwg hag fun p hp => (hsg p hp).2
  have hwf := h2.wf (h3.nodup_iff.mpr List.nodup_range')
  have hB : ∀ n x, L.at? n = some (.bool x) → x ∈ D.bools := fun n x hx =>
    mem_bools.mpr (hf.vars _ ((hbool x).mp (LiteralInfo.at?_bool hL hx)))
  have hnames : L.names s.vars ⊆ D.bools.toFinset := by
    intro x hx
    obtain ⟨n, hn, hxn⟩ := Finset.mem_biUnion.mp hx
    unfold LiteralInfo.nameOf at hxn
    split at hxn
    · rename_i y hy
      rw [Finset.mem_singleton] at hxn
      subst hxn
      exact List.mem_toFinset.mpr (hB n x hy)
    · simp at hxn
  refine ⟨g, L, s, he, by rw [hb]; exact h1, hL, hlin, hwf, fun n hn => ?_, ?_, ?_, hB, ?_, fun a l r ha hc =>
    conjunct_number ha hc hf.wt he h4⟩
  · have := h3.subset (h2.vars n hn)
    simp only [List.mem_range'_1] at this
    omega
  · intro σ hσ c hc
    obtain ⟨a, ha, l, r, g1, g2, g3, g4, g5⟩ := horig c hc
    have := hσ a ha
    exact normalizeAtom_strict (polyTerm_wt l (linTerm_polyTerm l g2)) (polyTerm_wt r (linTerm_polyTerm r g3)) g1 g5 σ
      (by rcases g1 with rfl | rfl <;> exact this)
  · intro c hc p hp
    obtain ⟨a, ha, l, r, g1, g2, g3, g4, g5⟩ := horig c hc
    have hm := normalizeAtom_syms (polyTerm_wt l (linTerm_polyTerm l g2)) (polyTerm_wt r (linTerm_polyTerm r g3)) g1 g5 p hp
    have hreal : p.2 = .real := by
      rcases List.mem_append.mp hm with h | h
      · exact isAllReal_syms l (linTerm_allReal l g2) p h
      · exact isAllReal_syms r (linTerm_allReal r g3) p h
    have := hf.vars p (g4 p (by rcases g1 with rfl | rfl <;> exact hm))
    rw [hreal] at this
    exact mem_reals.mpr this
  · intro σ hσ
    rw [← LiteralInfo.boolCount_eq hL hlin hwf hnames σ, LiteralInfo.boolCount]
    congr 2
    refine Finset.filter_congr fun T _ => ?_
    have : s.eval (L.byNumber (σ.withBools T)) = truth (σ.withBools T) f := by
      rw [h4, ← hsem _ (off_withBools hf.lit σ T hσ)]
      refine truth_congr hwg fun p hp => ?_
      obtain ⟨p1, p2⟩ := hsg p hp
      obtain ⟨n, ty⟩ := p
      simp only at p1 p2
      subst p1
      exact LiteralInfo.nameEnv_byNumber hL.1 _ p2
    rw [this]

/-! ### Bounded formulas -/

/-- SPEC: every real variable has a constant lower and a constant upper bound among the conjuncts. -/
def Bounded (D : Domain) (f : Formula) : Prop :=
  ∀ v ∈ D.reals, ∃ l u : ℚ,
    (Conjunct (.le (.realC l) (.sym v .real)) f ∨ Conjunct (.lt (.realC l) (.sym v .real)) f) ∧
    (Conjunct (.le (.sym v .real) (.realC u)) f ∨ Conjunct (.lt (.sym v .real) (.realC u)) f)

/-- A conjunct that is false, strictly, as soon as one variable leaves an interval, and mentions that variable only. -/
structure Wall (f : Formula) (v : String) (P : ℝ → Prop) : Prop where
  wall : ∃ a l r, (a = .le l r ∨ a = .lt l r) ∧ linTerm l = true ∧ linTerm r = true ∧ Conjunct a f ∧ syms a = [(v, Ty.real)] ∧
    Proper a ∧ ∀ σ : Env ℝ, P (σ.r v) → strictAt σ a ∧ truth σ a = false

theorem Wall.of {f a l r : Formula} {v : String} {P : ℝ → Prop} (ha : a = .le l r ∨ a = .lt l r) (hl : linTerm l = true)
    (hr : linTerm r = true) (hc : Conjunct a f) (hs : syms a = [(v, Ty.real)]) {σ τ : Env ℝ} (h1 : value σ l < value σ r)
    (h2 : value τ r < value τ l) (h3 : ∀ σ : Env ℝ, P (σ.r v) → value σ r < value σ l) : Wall f v P := by
  have hstrict : ∀ ρ : Env ℝ, value ρ l ≠ value ρ r → strictAt ρ a := fun ρ h => by
    rcases ha with rfl | rfl <;> exact h
  have hfalse : ∀ ρ : Env ℝ, value ρ r < value ρ l → strictAt ρ a ∧ truth ρ a = false := fun ρ h => by
    refine ⟨hstrict ρ h.ne', ?_⟩
    rcases ha with rfl | rfl
    · simp only [truth, decide_eq_false_iff_not, not_le]; exact h
    · simp only [truth, decide_eq_false_iff_not, not_lt]; exact h.le
  refine ⟨a, l, r, ha, hl, hr, hc, hs, ⟨σ, τ, hstrict σ h1.ne, (hfalse τ h2).1, ?_, (hfalse τ h2).2⟩, fun ρ hρ => hfalse ρ (h3 ρ hρ)⟩
  rcases ha with rfl | rfl
  · simp only [truth, decide_eq_true_eq]; exact h1.le
  · simp only [truth, decide_eq_true_eq]; exact h1

theorem Wall.mono {f : Formula} {w : String} {P Q : ℝ → Prop} (hpq : ∀ x, Q x → P x) (hw : Wall f w P) : Wall f w Q := by
  obtain ⟨a, l, r, h1, h2, h3, h4, h5, h6, h7⟩ := hw
  exact ⟨a, l, r, h1, h2, h3, h4, h5, h6, fun σ hσ => h7 σ (hpq _ hσ)⟩

theorem bounded_walls {D : Domain} {f : Formula} (h : Bounded D f) :
    ∃ M : ℝ, 0 ≤ M ∧ ∀ v ∈ D.reals, Wall f v (fun x => M < x) ∧ Wall f v (fun x => x < -M) := by
  have key : ∀ vs : List String, (∀ v ∈ vs, v ∈ D.reals) →
      ∃ M : ℝ, 0 ≤ M ∧ ∀ v ∈ vs, Wall f v (fun x => M < x) ∧ Wall f v (fun x => x < -M) := by
    intro vs
    induction vs with
    | nil => intro _; exact ⟨0, le_refl _, by simp⟩
    | cons v vs ih =>
      intro hv
      obtain ⟨M, h0, hM⟩ := ih fun w hw => hv w (by simp [hw])
      obtain ⟨l, u, hl, hu⟩ := h v (hv v (by simp))
      have hlow : Wall f v fun x => x < l := by
        rcases hl with hl | hl
        · exact Wall.of (.inl rfl) rfl rfl hl (by simp [syms]) (σ := ⟨fun _ => false, fun _ => l + 1⟩)
            (τ := ⟨fun _ => false, fun _ => l - 1⟩) (by simp [value]) (by simp [value]) fun σ hσ => by simpa [value] using hσ
        · exact Wall.of (.inr rfl) rfl rfl hl (by simp [syms]) (σ := ⟨fun _ => false, fun _ => l + 1⟩)
            (τ := ⟨fun _ => false, fun _ => l - 1⟩) (by simp [value]) (by simp [value]) fun σ hσ => by simpa [value] using hσ
      have hupp : Wall f v fun x => (u : ℝ) < x := by
        rcases hu with hu | hu
        · exact Wall.of (.inl rfl) rfl rfl hu (by simp [syms]) (σ := ⟨fun _ => false, fun _ => u - 1⟩)
            (τ := ⟨fun _ => false, fun _ => u + 1⟩) (by simp [value]) (by simp [value]) fun σ hσ => by simpa [value] using hσ
        · exact Wall.of (.inr rfl) rfl rfl hu (by simp [syms]) (σ := ⟨fun _ => false, fun _ => u - 1⟩)
            (τ := ⟨fun _ => false, fun _ => u + 1⟩) (by simp [value]) (by simp [value]) fun σ hσ => by simpa [value] using hσ
      refine ⟨M + |(l : ℝ)| + |(u : ℝ)|, by positivity, fun w hw => ?_⟩
      have a1 := abs_nonneg (l : ℝ)
      have a2 := abs_nonneg (u : ℝ)
      have a3 := neg_abs_le (l : ℝ)
      have a4 := le_abs_self (u : ℝ)
      rcases List.mem_cons.mp hw with rfl | hw
      · exact ⟨hupp.mono fun x hx => by linarith, hlow.mono fun x hx => by linarith⟩
      · exact ⟨(hM w hw).1.mono fun x hx => by linarith, (hM w hw).2.mono fun x hx => by linarith⟩
  exact key D.reals fun _ h => h

/-- A bounded formula is false where a variable is large. -/
theorem Wall.false {f : Formula} {v : String} {P : ℝ → Prop} (h : Wall f v P) (σ : Env ℝ) (hσ : P (σ.r v)) : truth σ f = false := by
  obtain ⟨a, l, r, _, _, _, h4, _, _, h7⟩ := h
  by_contra hc
  have := h4.truth σ (by simpa using hc)
  rw [(h7 σ hσ).2] at this
  cases this

theorem Bounded.tame {D : Domain} (hD : D.WF) {f : Formula} (h : Bounded D f) (w : Formula) (σ : Env ℝ) :
    Tame D.reals (density f w) σ := by
  obtain ⟨M, h0, hM⟩ := bounded_walls h
  obtain ⟨M0, hM0⟩ := exists_bound ((syms w).map (·.1)).toFinset σ.r
  obtain ⟨C, hC⟩ := value_bounded w (max M M0)
  have hzero : ∀ x : Fin D.reals.length → ℝ, ∀ i, M < |x i| → truth (σ.setReals D.reals x) f = false := fun x i hi => by
    have hg : (σ.setReals D.reals x).r D.reals[i] = x i := setReals_get (reals_nodup hD) i
    rcases lt_abs.mp hi with hi | hi
    · exact (hM _ (List.getElem_mem i.2)).1.false _ (by simp only [Fin.getElem_fin] at hg; rw [hg]; exact hi)
    · exact (hM _ (List.getElem_mem i.2)).2.false _ (by simp only [Fin.getElem_fin] at hg; rw [hg]; linarith)
  refine ⟨M, max C 0, fun x => ⟨?_, fun i hi => ?_⟩⟩
  · by_cases ht : truth (σ.setReals D.reals x) f = true
    · refine (density_le f w _).trans (le_max_of_le_left (hC _ fun p hp => ?_))
      by_cases hr : p.1 ∈ D.reals
      · obtain ⟨i, hi, he⟩ := List.mem_iff_getElem.mp hr
        have hg : (σ.setReals D.reals x).r D.reals[(⟨i, hi⟩ : Fin _)] = x ⟨i, hi⟩ := setReals_get (reals_nodup hD) ⟨i, hi⟩
        simp only [Fin.getElem_fin, he] at hg
        rw [hg]
        refine le_max_of_le_left (not_lt.mp fun hlt => ?_)
        rw [hzero x ⟨i, hi⟩ hlt] at ht; cases ht
      · rw [setReals_mem hr]
        exact le_max_of_le_right (hM0 _ (List.mem_toFinset.mpr (List.mem_map_of_mem hp)))
    · rw [density, if_neg ht]; simp
  · rw [density, if_neg (by rw [hzero x i hi]; simp)]

end Pywmi
