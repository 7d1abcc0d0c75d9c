import Verif.Props.XsddLemmas

set_option linter.unusedSectionVars false
set_option linter.unusedSimpArgs false

/-!
# Counting Boolean assignments of a formula through extraction, compilation and the convex semiring
-/

namespace Pywmi
open Formula Prog MeasureTheory

/-- SPEC: a comparison that holds strictly at some point and fails strictly at another. -/
def Proper (a : Formula) : Prop :=
  ∃ σ τ : Env ℝ, strictAt σ a ∧ strictAt τ a ∧ truth σ a = true ∧ truth τ a = false

theorem Linked.lits_nodup {L : LiteralInfo} (h : L.Linked) : (L.abstractions.map (·.2) ++ L.booleans.map (·.2)).Nodup := by
  obtain ⟨⟨k1, k2, k3⟩, h1, h2⟩ := h
  have key : ∀ {l v w}, (l, v) ∈ L.literals → (l, w) ∈ L.literals → v = w := fun hv hw => by
    have a := lookup_mem_nodup k1 hv
    have b := lookup_mem_nodup k1 hw
    rw [a] at b; exact Option.some.inj b
  refine List.nodup_append.mpr ⟨?_, ?_, ?_⟩
  · refine List.Nodup.map_on (fun p hp q hq e => ?_) (List.Nodup.of_map _ k2)
    have a := (h2 p.2 p.1).mpr hp
    have b := (h2 q.2 q.1).mpr hq
    rw [← e] at b
    have := key a b
    simp only [LitVal.atom.injEq] at this
    exact Prod.ext this e
  · refine List.Nodup.map_on (fun p hp q hq e => ?_) (List.Nodup.of_map _ k3)
    have a := (h1 p.2 p.1).mpr hp
    have b := (h1 q.2 q.1).mpr hq
    rw [← e] at b
    have := key a b
    simp only [LitVal.bool.injEq] at this
    exact Prod.ext this e
  · intro x hx y hy e
    obtain ⟨p, hp, rfl⟩ := List.mem_map.mp hx
    obtain ⟨q, hq, rfl⟩ := List.mem_map.mp hy
    have a := (h2 p.2 p.1).mpr hp
    have b := (h1 q.2 q.1).mpr hq
    rw [← e] at b
    cases key a b

/-- A proper comparison is recorded as an inequality that mentions a variable. -/
theorem proper_vars {l r a c : Formula} (hl : linTerm l = true) (hr : linTerm r = true) (ha : a = .le l r ∨ a = .lt l r)
    (hp : Proper a) (hc : normalizeAtom a = .ok c) : ∃ d, linFromSmt c = .ok d ∧ linVars d ≠ [] := by
  have wl := polyTerm_wt l (linTerm_polyTerm l hl)
  have wr := polyTerm_wt r (linTerm_polyTerm r hr)
  obtain ⟨σ, τ, h1, h2, h3, h4⟩ := hp
  have v1 : value σ l ≠ value σ r := by rcases ha with rfl | rfl <;> exact h1
  have v2 : value τ l ≠ value τ r := by rcases ha with rfl | rfl <;> exact h2
  have s1 := normalizeAtom_strict wl wr ha hc σ v1
  have s2 := normalizeAtom_strict wl wr ha hc τ v2
  obtain ⟨_, hs⟩ := normalizeAtom_sound (K := ℝ) wl wr ha hc
  rw [← hs σ v1] at h3
  rw [← hs τ v2] at h4
  obtain ⟨l', r', hc', hl', hr'⟩ := normalizeAtom_shape wl wr ha hc
  have wl' := polyTerm_wt l' (linTerm_polyTerm l' hl')
  have wr' := polyTerm_wt r' (linTerm_polyTerm r' hr')
  obtain ⟨d, hd, _⟩ := linFromSmt_linear (K := ℝ) hl' hr' hc'
  refine ⟨d, hd, fun h0 => ?_⟩
  obtain ⟨k, hk, he, _⟩ := linFromSmt_cmp (K := ℝ) wl' wr' hc' hd
  have hk' : (0 : ℝ) < k := by exact_mod_cast hk
  have hconst : polyEval σ.r d = polyEval τ.r d := by
    have : ∀ p ∈ d, p.1 = [] := fun p hp => by
      rw [List.eq_nil_iff_forall_not_mem]
      intro n hn
      have : n ∈ linVars d := List.mem_flatMap.mpr ⟨p, hp, hn⟩
      rw [h0] at this; cases this
    simp only [polyEval]
    congr 1
    refine List.map_congr_left fun p hp => ?_
    simp [this p hp, monoEval]
  rw [he, he] at hconst
  have hd' := mul_right_cancel₀ hk'.ne' hconst
  have t1 : value σ l' < value σ r' := by
    rcases hc' with rfl | rfl
    · exact lt_of_le_of_ne (by simpa [truth] using h3) s1
    · simpa [truth] using h3
  have t2 : ¬ value τ l' < value τ r' := by
    rcases hc' with rfl | rfl
    · simp only [truth, decide_eq_false_iff_not, not_le] at h4
      exact not_lt.mpr h4.le
    · simpa [truth] using h4
  exact t2 (by linarith)

theorem strictAt_reals {a l r : Formula} (ha : a = .le l r ∨ a = .lt l r) (hl : linTerm l = true) (hr : linTerm r = true)
    {σ τ : Env ℝ} (h : σ.r = τ.r) : strictAt σ a ↔ strictAt τ a := by
  have key : ∀ {t}, linTerm t = true → value σ t = value τ t := fun {t} ht =>
    value_congr (polyTerm_wt t (linTerm_polyTerm t ht)) fun p hp => by
      have := isAllReal_syms t (linTerm_allReal t ht) p hp
      obtain ⟨n, ty⟩ := p
      simp only at this
      subst this
      show σ.r n = τ.r n
      rw [h]
  rcases ha with rfl | rfl
  · simp only [strictAt, key hl, key hr]
  · simp only [strictAt, key hl, key hr]

theorem off_withBools {f : Formula} (h : litOk f = true) (σ : Env ℝ) (T : Finset String) (hσ : OffBoundary σ f) :
    OffBoundary (σ.withBools T) f := fun a ha => by
  obtain ⟨⟨l, r, h1, h2, h3⟩, _⟩ := litOk_atoms f h a ha
  exact (strictAt_reals h1 h2 h3 (σ := σ.withBools T) (τ := σ) rfl).mpr (hσ a ha)

/-- SPEC: what the first steps of the engine give for a formula: regions with sets of Boolean variables, such that at every
point off the boundaries the number of Boolean assignments under which the formula holds is the sum over the regions
containing the point of two to the number of other Boolean variables. -/
structure Counted (D : Domain) (f : Formula) (As : List Formula) (rs : List (Formula × Finset String)) : Prop where
  linear : ∀ a ∈ As, ∃ l r, (a = .le l r ∨ a = .lt l r) ∧ linTerm l = true ∧ linTerm r = true
  strict : ∀ σ : Env ℝ, OffBoundary σ f → ∀ a ∈ As, strictAt σ a
  vars : ∀ a ∈ As, ∀ p ∈ syms a, p.1 ∈ D.reals
  regions : ∀ q ∈ rs, RegionOf As q.1 ∧ q.2 ⊆ D.bools.toFinset
  count : ∀ σ : Env ℝ, OffBoundary σ f →
    (D.bools.toFinset.powerset.filter fun T => truth (σ.withBools T) f = true).card =
      (rs.map fun q => if truth σ q.1 = true then 2 ^ (D.bools.toFinset.card - q.2.card) else 0).sum

theorem compiled_count {mgr : Vtree.Export → SddManager}
    (hmgr : ∀ ex u, Vtree.load ex = some u → u.leaves.Nodup → (∀ n ∈ u.leaves, n ≠ 0) → (mgr ex).Ok u)
    {ord tie : List String → List String} (hord : ∀ l, (ord l).Perm l) (htie : ∀ l, (tie l).Perm l)
    {D : Domain} {f : Formula} (hf : XOk D f) (hprop : atoms f = [] ∨ ∃ a ∈ atoms f, Proper a) :
    ∃ g L s rs, extractLiterals f = .ok (g, L) ∧ compileToSdd mgr g L (Bami.bami ord tie L []) = .ok s ∧
      (convexSemi L).amc s = .ok rs ∧ Counted D f (L.abstractions.map (·.1)) rs := by
  obtain ⟨g, L, he⟩ := extractLiterals_total hf.wt hf.lit
  obtain ⟨hL, hwg, hag, hsg, hsem, hbool, habs⟩ := extractLiterals_correct (K := ℝ) hf.wt he
  have hlin := extractLiterals_linear hf.wt he
  have hlinA : ∀ a ∈ L.abstractions.map (·.1), ∃ l r, (a = .le l r ∨ a = .lt l r) ∧ linTerm l = true ∧ linTerm r = true := by
    intro a ha
    obtain ⟨p, hp, rfl⟩ := List.mem_map.mp ha
    exact hlin p hp
  have horig : ∀ c ∈ L.abstractions.map (·.1), ∃ a ∈ atoms f, ∃ l r, (a = .le l r ∨ a = .lt l r) ∧ linTerm l = true ∧
      linTerm r = true ∧ (∀ p ∈ syms a, p ∈ syms f) ∧ normalizeAtom a = .ok c := fun c hc => by
    obtain ⟨a, ha, hn⟩ := (habs c).mp hc
    obtain ⟨⟨l, r, h1, h2, h3⟩, h4⟩ := litOk_atoms f hf.lit a ha
    exact ⟨a, ha, l, r, h1, h2, h3, h4, hn⟩
  obtain ⟨t, hb, ht, hfull⟩ := Bami.bami_correct_partial hord htie hL (Linked.lits_nodup hL) [] (fun p hp => by
      obtain ⟨l, r, h1, h2, h3⟩ := hlin p hp
      obtain ⟨d, hd, _⟩ := linFromSmt_linear (K := ℝ) h2 h3 h1
      exact ⟨d, hd⟩) (by
      rcases hprop with h0 | ⟨a, ha, hp⟩
      · left
        rw [List.eq_nil_iff_forall_not_mem]
        intro p hp
        obtain ⟨a, ha, _⟩ := horig p.1 (List.mem_map_of_mem hp)
        rw [h0] at ha; cases ha
      · right
        obtain ⟨⟨l, r, h1, h2, h3⟩, h4⟩ := litOk_atoms f hf.lit a ha
        have hok : ∃ c, normalizeAtom a = .ok c := by
          obtain ⟨c, hc, _⟩ := normalizeAtom_correct (K := ℝ) h2 h3 h1
          exact ⟨c, hc⟩
        obtain ⟨c, hc⟩ := hok
        obtain ⟨q, hq, hqc⟩ := List.mem_map.mp ((habs c).mpr ⟨a, ha, hc⟩)
        obtain ⟨d, hd, hv⟩ := proper_vars h2 h3 h1 hp hc
        exact ⟨q, hq, d, hqc ▸ hd, hv⟩)
  obtain ⟨s, u, h1, h2, h3, h4⟩ := compileToSdd_correct (K := ℝ) hL.1 ht hfull hmgr hwg hag fun p hp => (hsg p hp).2
  have hwf := h2.wf (h3.nodup_iff.mpr List.nodup_range')
  obtain ⟨rs, k1, k2, k3⟩ := convex_count (K := ℝ) hL hlin hwf (fun n hn => by
    have := h3.subset (h2.vars n hn)
    simp only [List.mem_range'_1] at this
    omega)
  have hnames : L.names s.vars ⊆ D.bools.toFinset := by
    intro x hx
    obtain ⟨n, hn, hxn⟩ := Finset.mem_biUnion.mp hx
    unfold LiteralInfo.nameOf at hxn
    split at hxn
    · rename_i y hy
      rw [Finset.mem_singleton] at hxn
      subst hxn
      have := (hbool x).mp (LiteralInfo.at?_bool hL hy)
      rw [List.mem_toFinset, mem_bools]
      exact hf.vars _ this
    · simp at hxn
  refine ⟨g, L, s, rs, he, by rw [hb]; exact h1, k1, hlinA, ?_, ?_, fun q hq => ⟨(k2 q hq).1, (k2 q hq).2.trans hnames⟩, ?_⟩
  · intro σ hσ c hc
    obtain ⟨a, ha, l, r, g1, g2, g3, g4, g5⟩ := horig c hc
    have := hσ a ha
    exact normalizeAtom_strict (polyTerm_wt l (linTerm_polyTerm l g2)) (polyTerm_wt r (linTerm_polyTerm r g3)) g1 g5 σ
      (by rcases g1 with rfl | rfl <;> exact this)
  · intro c hc p hp
    obtain ⟨a, ha, l, r, g1, g2, g3, g4, g5⟩ := horig c hc
    have hm := normalizeAtom_syms (polyTerm_wt l (linTerm_polyTerm l g2)) (polyTerm_wt r (linTerm_polyTerm r g3)) g1 g5 p hp
    have hreal : p.2 = .real := by
      rcases List.mem_append.mp hm with h | h
      · exact isAllReal_syms l (linTerm_allReal l g2) p h
      · exact isAllReal_syms r (linTerm_allReal r g3) p h
    have := hf.vars p (g4 p (by rcases g1 with rfl | rfl <;> exact hm))
    rw [hreal] at this
    exact mem_reals.mpr this
  · intro σ hσ
    rw [← k3 _ hnames σ, LiteralInfo.boolCount]
    congr 1
    refine Finset.filter_congr fun T _ => ?_
    have : s.eval (L.byNumber (σ.withBools T)) = truth (σ.withBools T) f := by
      rw [h4, ← hsem _ (off_withBools hf.lit σ T hσ)]
      refine truth_congr hwg fun p hp => ?_
      obtain ⟨p1, p2⟩ := hsg p hp
      obtain ⟨n, ty⟩ := p
      simp only at p1 p2
      subst p1
      exact LiteralInfo.nameEnv_byNumber hL.1 _ p2
    rw [this]

end Pywmi
