import Verif.Xadd.ResolveInv

set_option linter.unusedSectionVars false
set_option linter.unusedSimpArgs false

/-!
# Integration by bound resolution is exact
-/

namespace Pywmi
open Formula MeasureTheory Set

/-- An integral is the sum of those on the sides of a point. -/
theorem integral_sides {φ : ℝ → ℝ} {S : Set ℝ} (hS : MeasurableSet S) (hi : IntegrableOn φ S) (B : ℝ) :
    ∫ t in S, φ t = (∫ t in S ∩ Ioi B, φ t) + ∫ t in S ∩ Iio B, φ t := by
  have h1 : (S ∩ Ioi B ∪ S ∩ Iio B : Set ℝ) = S \ {B} := by
    ext t
    simp only [mem_union, mem_inter_iff, mem_Ioi, mem_Iio, mem_sdiff, mem_singleton_iff]
    constructor
    · rintro (⟨h, h'⟩ | ⟨h, h'⟩)
      · exact ⟨h, ne_of_gt h'⟩
      · exact ⟨h, ne_of_lt h'⟩
    · rintro ⟨h, h'⟩
      rcases lt_or_gt_of_ne h' with h' | h'
      · exact Or.inr ⟨h, h'⟩
      · exact Or.inl ⟨h, h'⟩
  have h2 : (S \ {B} : Set ℝ) =ᵐ[volume] S := sdiff_null_ae_eq_self (by simp)
  rw [← setIntegral_congr_set h2, ← h1, setIntegral_union _ (hS.inter measurableSet_Iio) (hi.mono_set inter_subset_left)
    (hi.mono_set inter_subset_left)]
  rw [Set.disjoint_left]
  rintro t ⟨-, ht⟩ ⟨-, ht'⟩
  exact lt_asymm (mem_Ioi.mp ht) (mem_Iio.mp ht')

theorem linTerm_zeroPowFree (f : Formula) : linTerm f = true → zeroPowFree f = true := by
  have hall : ∀ as : List Formula, (∀ a ∈ as, linTerm a = true → zeroPowFree a = true) → linTermAll as = true → zeroPowFreeAll as = true := by
    intro as
    induction as with
    | nil => intro _ _; rfl
    | cons a as ih =>
      intro h hl
      simp only [linTermAll, Bool.and_eq_true] at hl
      simp only [zeroPowFreeAll, Bool.and_eq_true]
      exact ⟨h a (by simp) hl.1, ih (fun b hb => h b (by simp [hb])) hl.2⟩
  induction f using Formula.induct with
  | plus as ih =>
    intro h
    simp only [linTerm, Bool.and_eq_true] at h
    exact hall as ih h.2
  | times as ih =>
    intro h
    simp only [linTerm, Bool.and_eq_true] at h
    exact hall as ih h.1.2
  | minus l r ihl ihr =>
    intro h
    simp only [linTerm, Bool.and_eq_true] at h
    simp [zeroPowFree, ihl h.1, ihr h.2]
  | pow b e ihb _ =>
    intro h
    cases e <;> simp [linTerm] at h
    simp [zeroPowFree, ihb h.1, h.2]
  | sym n t => intro h; rfl
  | realC q => intro h; rfl
  | _ => intro h; simp [linTerm] at h

section
variable {E : Type} [DecidableEq E] {ev : E → (String → ℝ) → ℝ} {Γ : String → Ty} {C : RCtx E}

/-- A leaf between two bounds. -/
theorem concreteIntegrate_ok (hR : RLaw C ev) {x : String} {l u : Formula} (hl : BoundOk x l) (hu : BoundOk x u) (e : E) :
    ∃ e', concreteIntegrate C.X e x l u = .ok e' ∧ ∀ σ : Env ℝ, value σ l ≤ value σ u →
      ev e' σ.r = ∫ t in Ioo (value σ l) (value σ u), (XTree.leaf e).slice ev σ x t := by
  obtain ⟨dl, h1, h2⟩ := polyFromSmt_correct_partial (K := ℝ) (linTerm_polyTerm l hl.lin) (linTerm_zeroPowFree l hl.lin)
  obtain ⟨du, h3, h4⟩ := polyFromSmt_correct_partial (K := ℝ) (linTerm_polyTerm u hu.lin) (linTerm_zeroPowFree u hu.lin)
  refine ⟨_, by rw [concreteIntegrate, h1, h3], fun σ hle => ?_⟩
  have el : ev (polyToExpr C.X.back.alg dl) σ.r = value σ l := by rw [hR.back.poly_eval, h2]
  have eu : ev (polyToExpr C.X.back.alg du) σ.r = value σ u := by rw [hR.back.poly_eval, h4]
  rw [hR.back.integrate, el, eu, intervalIntegral.integral_of_le hle, integral_Ioc_eq_integral_Ioo]
  · rfl
  · intro t
    rw [el, hR.back.poly_eval, ← hl.value σ t]
    exact h2 (σ.setR x t)
  · intro t
    rw [eu, hR.back.poly_eval, ← hu.value σ t]
    exact h4 (σ.setR x t)

theorem ResSpec.congr {x : String} {ub lb : Option Formula} {T R R' : XTree E} (h : ResSpec ev x ub lb T R)
    (he : ∀ σ : Env ℝ, R'.eval ev σ = R.eval ev σ) (ht : ∀ g ∈ R'.tests, g ∈ R.tests) : ResSpec ev x ub lb T R' :=
  ⟨fun σ h1 h2 => (he σ).trans (h.val σ h1 h2), fun g hg => h.syms g (ht g hg)⟩

/-- A test on the variable. -/
theorem resolveTest_run (hR : RLaw C ev) {p : Pool E} (hp : Inv2 C.X Γ ev p) {x : String} {d : Decision} (hd : DecOk d) {t f : ℕ}
    {A B : XTree E} (hA : Den p t A) (hB : Den p f B) (hx : (x, Ty.real) ∈ syms d.test) {ub lb : Option Formula}
    (hub : ∀ u ∈ ub, BoundOk x u) (hlb : ∀ l ∈ lb, BoundOk x l) {rec : ℕ → Option Formula → Option Formula → XM E ℕ}
    (hrec : ∀ n M, n = t ∨ n = f → Den p n M → ∀ ub' lb', (∀ u ∈ ub', BoundOk x u) → (∀ l ∈ lb', BoundOk x l) →
      Yields C.X Γ ev p (rec n ub' lb') (ResSpec ev x ub' lb' M)) :
    Run (Inv2 C.X Γ ev) Fr2 (resolveTest C x d t f ub lb rec) p True
      (fun r q => ∃ R, Den q r R ∧ ResSpec ev x ub lb (.node d A B) R) := by
  rcases hd.2 with ⟨b, hb⟩ | ⟨q, hi, hq, hg⟩
  · rw [hb] at hx; simp [syms] at hx
  obtain ⟨nb, hnb, hbok, hsy, htr⟩ := newBound hR.simp hR.ord hq hg hx
  unfold resolveTest
  refine Run.bindLift (a := q) (by simp [Decision.inequality, hi]) ?_
  refine Run.bindLift hnb ?_
  -- the branches
  obtain ⟨ib, tb, U, hU, hib⟩ : ∃ (pos : Bool) (n : ℕ) (U : XTree E), Den p n U ∧
      pos = decide (0 < linCoef q [x]) ∧ n = (if decide (0 < linCoef q [x]) = true then t else f) ∧
      (n = t ∨ n = f) ∧ U = if pos then A else B := by
    cases decide (0 < linCoef q [x])
    · exact ⟨false, f, B, hB, rfl, rfl, Or.inr rfl, rfl⟩
    · exact ⟨true, t, A, hA, rfl, rfl, Or.inl rfl, rfl⟩
  obtain ⟨hpos, htb, htb', hUe⟩ := hib
  obtain ⟨fb, L, hL, hfb, hfb', hLe⟩ : ∃ (n : ℕ) (L : XTree E), Den p n L ∧
      n = (if decide (0 < linCoef q [x]) = true then f else t) ∧ (n = t ∨ n = f) ∧ L = if ib then B else A := by
    rw [hpos]
    cases decide (0 < linCoef q [x])
    · exact ⟨t, A, hA, rfl, Or.inl rfl, rfl⟩
    · exact ⟨f, B, hB, rfl, Or.inr rfl, rfl⟩
  rw [← htb, ← hfb]
  rw [← hpos] at htr
  have hUt : ∀ g ∈ U.tests, g ∈ (XTree.node d A B).tests := by
    intro g hg
    rw [hUe] at hg
    cases ib <;> simp only [Bool.false_eq_true, if_false, if_true] at hg <;> simp [XTree.tests, hg]
  have hLt : ∀ g ∈ L.tests, g ∈ (XTree.node d A B).tests := by
    intro g hg
    rw [hLe] at hg
    cases ib <;> simp only [Bool.false_eq_true, if_false, if_true] at hg <;> simp [XTree.tests, hg]
  let V : String × Ty → Prop := fun v => v ≠ (x, Ty.real) ∧
    ((∃ g ∈ (XTree.node d A B).tests, v ∈ syms g) ∨ (∃ l ∈ lb, v ∈ syms l) ∨ ∃ u ∈ ub, v ∈ syms u)
  have hVn : ∀ v ∈ syms nb, V v := fun v hv =>
    ⟨fun h => hbok.free (h ▸ hv), Or.inl ⟨d.test, by simp [XTree.tests], hsy v hv⟩⟩
  have hVl : ∀ l ∈ lb, ∀ v ∈ syms l, V v := fun l hl v hv =>
    ⟨fun h => (hlb l hl).free (h ▸ hv), Or.inr (Or.inl ⟨l, hl, hv⟩)⟩
  have hVu : ∀ u ∈ ub, ∀ v ∈ syms u, V v := fun u hu v hv =>
    ⟨fun h => (hub u hu).free (h ▸ hv), Or.inr (Or.inr ⟨u, hu, hv⟩)⟩
  have hyield : ∀ n M, n = t ∨ n = f → Den p n M → (∀ g ∈ M.tests, g ∈ (XTree.node d A B).tests) → ∀ ub' lb',
      (∀ u ∈ ub', BoundOk x u ∧ ∀ v ∈ syms u, V v) → (∀ l ∈ lb', BoundOk x l ∧ ∀ v ∈ syms l, V v) → ∀ p', Ext p p' →
      Yields C.X Γ ev p' (rec n ub' lb') (fun R => ResSpec ev x ub' lb' M R ∧ SymsIn V R) := by
    intro n M hn hM hMt ub' lb' hu' hl' p' hpp q1 hq1 he
    refine (hrec n M hn hM ub' lb' (fun u hu => (hu' u hu).1) (fun l hl => (hl' l hl).1) q1 hq1 (hpp.trans he)).imp id
      fun r q' _ _ ⟨R, hR', hs⟩ => ⟨R, hR', hs, fun g hg v hv => ?_⟩
    obtain ⟨h1, h2⟩ := hs.syms g hg v hv
    rcases h2 with ⟨g', hg', h2⟩ | ⟨l, hl, h2⟩ | ⟨u, hu, h2⟩
    · exact ⟨h1, Or.inl ⟨g', hMt g' hg', h2⟩⟩
    · exact (hl' l hl).2 v h2
    · exact (hu' u hu).2 v h2
  have hu1 : ∀ u ∈ some nb, BoundOk x u ∧ ∀ v ∈ syms u, V v := by rintro u hu; cases hu; exact ⟨hbok, hVn⟩
  have hu2 : ∀ u ∈ ub, BoundOk x u ∧ ∀ v ∈ syms u, V v := fun u hu => ⟨hub u hu, hVu u hu⟩
  have hl2 : ∀ l ∈ lb, BoundOk x l ∧ ∀ v ∈ syms l, V v := fun l hl => ⟨hlb l hl, hVl l hl⟩
  refine Run.seq2 (consistUb_run hR hp (fun l hl => (hlb l hl).lin) hbok.lin hVl hVn) id ?_
  rintro cu q1 hq1 h01 ⟨Ku, hKu, sKu, eKu⟩
  refine Run.seq2 (branchUb_run (x := x) (A := U) hR hq1 (fun u hu => (hub u hu).lin) hbok.lin hVu hVn
    (hyield tb U htb' hU hUt _ _ hu1 hl2 q1 h01.toExt) (fun _ => hyield tb U htb' hU hUt _ _ hu2 hl2 q1 h01.toExt) cu.2) id ?_
  rintro bu q2 hq2 h12 ⟨Su, hSu, sSu, eSu⟩
  refine Run.seq2 (consistLb_run hR hq2 (fun u hu => (hub u hu).lin) hbok.lin hVu hVn) id ?_
  rintro cl q3 hq3 h23 ⟨Kl, hKl, sKl, eKl⟩
  have h03 := h01.trans (h12.trans h23)
  refine Run.seq2 (branchLb_run (x := x) (A := L) hR hq3 (fun l hl => (hlb l hl).lin) hbok.lin hVl hVn
    (hyield fb L hfb' hL hLt _ _ hu2 hu1 q3 h03.toExt) (fun _ => hyield fb L hfb' hL hLt _ _ hu2 hl2 q3 h03.toExt) cl.2) id ?_
  rintro bl q4 hq4 h34 ⟨Sl, hSl, sSl, eSl⟩
  refine Run.seq2 (apply2 hR.simp (Or.inl rfl) hq4 hSl (h34.den hKl)) id ?_
  rintro l q5 hq5 h45 ⟨Pl, hPl, aPl⟩
  have h25 := h23.trans (h34.trans h45)
  refine Run.seq2 (apply2 hR.simp (Or.inl rfl) hq5 (h25.den hSu) ((h12.trans h25).den hKu)) id ?_
  rintro u q6 hq6 h56 ⟨Pu, hPu, aPu⟩
  have hred : ∀ {q : Pool E}, Inv2 C.X Γ ev q → ∀ (c : Bool) {n : ℕ} {T : XTree E}, Den q n T →
      Run (Inv2 C.X Γ ev) Fr2 (if c = true then reduceBy C.X C.method n else pure n) q True
        (fun r q => ∃ T', Den q r T' ∧ (∀ σ : Env ℝ, T'.eval ev σ = T.eval ev σ) ∧ ∀ g ∈ T'.tests, g ∈ T.tests) := by
    intro q hq c n T hT
    cases c with
    | false => exact Run.ret Fr2.refl hq ⟨T, hT, fun _ => rfl, fun _ h => h⟩
    | true => exact (reduce2 hR.simp hR.solve C.method_ne hq hT).imp id fun r q _ _ ⟨T', h1, h2⟩ => ⟨T', h1, fun σ => h2.eval σ, h2.tests⟩
  refine Run.seq2 (hred hq6 C.s1 (h56.den hPl)) id ?_
  rintro l' q7 hq7 h67 ⟨Ql, hQl, eQl, tQl⟩
  refine Run.seq2 (hred hq7 C.s1 (h67.den hPu)) id ?_
  rintro u' q8 hq8 h78 ⟨Qu, hQu, eQu, tQu⟩
  refine Run.seq2 (apply2 hR.simp (Or.inr rfl) hq8 (h78.den hQl) hQu) id ?_
  rintro r q9 hq9 h89 ⟨R, hRd, aR⟩
  refine (hred hq9 C.s2 hRd).imp id fun r' q10 _ _ ⟨R', hR', eR', tR'⟩ => ⟨R', hR', ResSpec.congr (R := R) ⟨?_, ?_⟩ eR' tR'⟩
  swap
  · exact aR.symsIn (fun g hg => (aPl.symsIn sSl sKl) g (tQl g hg)) (fun g hg => (aPu.symsIn sSu sKu) g (tQu g hg))
  · intro σ hle hvan
    have hm := region_measurable σ ub lb
    have hdec : (XTree.node d A B).AllDec DecOk := by
      have h1 := hA.decs hp.core
      have h2 := hB.decs hp.core
      have mono : ∀ {T : XTree E}, (T.AllDec fun d => DecOk d ∧ d.test ∈ p.tests) → T.AllDec DecOk := by
        intro T
        induction T with
        | leaf e => intro _; trivial
        | node d t f ih1 ih2 => intro h; exact ⟨h.1.1, ih1 h.2.1, ih2 h.2.2⟩
      exact ⟨hd, mono h1, mono h2⟩
    have hint := XTree.slice_integrable hR.back hdec hm hvan
    have eU : ∀ t ∈ region σ ub lb ∩ Iio (value σ nb), U.slice ev σ x t = (XTree.node d A B).slice ev σ x t := by
      intro t ht
      rw [XTree.slice_node, (htr σ t).1 ht.2, hUe]
      cases ib <;> rfl
    have eL : ∀ t ∈ region σ ub lb ∩ Ioi (value σ nb), L.slice ev σ x t = (XTree.node d A B).slice ev σ x t := by
      intro t ht
      rw [XTree.slice_node, (htr σ t).2 ht.2, hLe]
      cases ib <;> rfl
    rw [aR.eval hR.back (Or.inr rfl), eQl, eQu, aPl.eval hR.back (Or.inl rfl), aPu.eval hR.back (Or.inl rfl),
      integral_sides hm hint (value σ nb)]
    simp only [opR]
    congr 1
    · rw [← setIntegral_congr_fun (hm.inter measurableSet_Ioi) eL]
      rcases eKl σ with ⟨h1, h2, h3⟩ | ⟨h1, u, hu, h2⟩
      · rw [h1, mul_one]
        exact eSl h2 σ h3 hle (hvan.mono inter_subset_left eL)
      · rw [h1, mul_zero]
        have : region σ ub lb ∩ Ioi (value σ nb) = ∅ := by
          ext t
          simp only [mem_inter_iff, mem_Ioi, mem_empty_iff_false, iff_false, not_and]
          intro h3 h4
          exact lt_irrefl _ (lt_of_lt_of_le (h4.trans (h3.2 u hu)) h2)
        rw [this]; simp
    · rw [← setIntegral_congr_fun (hm.inter measurableSet_Iio) eU]
      rcases eKu σ with ⟨h1, h2, h3⟩ | ⟨h1, u, hu, h2⟩
      · rw [h1, mul_one]
        exact eSu h2 σ h3 hle (hvan.mono inter_subset_left eU)
      · rw [h1, mul_zero]
        have : region σ ub lb ∩ Iio (value σ nb) = ∅ := by
          ext t
          simp only [mem_inter_iff, mem_Iio, mem_empty_iff_false, iff_false, not_and]
          intro h3 h4
          exact lt_irrefl _ (lt_of_lt_of_le ((h3.1 u hu).trans h4) h2)
        rw [this]; simp

theorem addResolve_run {q : Pool E} (hq : Inv2 C.X Γ ev q) {key : RKey} {r : ℕ} (h : ResOk Γ ev q key r) :
    Run (Inv2 C.X Γ ev) Fr2 (addResolve C key r) q True (fun r' _ => r' = r) := by
  by_cases hc : C.cache = true
  · have e : addResolve C key r = fun p : Pool E => (Except.ok r, { p with resolveCache := (key, r) :: p.resolveCache }) := if_pos hc
    rw [e]
    have hext : Ext q { q with resolveCache := (key, r) :: q.resolveCache } := ⟨List.prefix_refl _, List.prefix_refl _, rfl, rfl⟩
    refine ⟨⟨⟨hq.toInv1.congr rfl rfl rfl rfl rfl rfl rfl rfl, fun r' pr hl => ?_⟩, fun key' r' hl => ?_⟩, ⟨hext, rfl⟩,
      fun a ha => ?_, fun _ => ⟨r, rfl⟩⟩
    · obtain ⟨T, h1, h2⟩ := hq.prof r' pr hl
      exact ⟨T, hext.den h1, h2.mono hext hq.core⟩
    · simp only [List.lookup_cons] at hl
      split at hl
      · rename_i hk
        simp only [beq_iff_eq] at hk
        simp only [Option.some.injEq] at hl
        subst hk hl
        exact h.mono hext hq.core
      · exact (hq.res _ _ hl).mono hext hq.core
    · simp only [Except.ok.injEq] at ha
      exact ha.symm
  · have e : addResolve C key r = (pure r : XM E ℕ) := if_neg hc
    rw [e]
    exact Run.ret Fr2.refl hq rfl

/-- Integration over a real variable between bounds. -/
theorem resolveF_real (hR : RLaw C ev) {x : String} (hx : Γ x = .real) : ∀ (k : ℕ) {p : Pool E}, Inv2 C.X Γ ev p → ∀ {n : ℕ} {T : XTree E},
    Den p n T → n < k → ∀ {ub lb : Option Formula}, (∀ u ∈ ub, BoundOk x u) → (∀ l ∈ lb, BoundOk x l) →
    Run (Inv2 C.X Γ ev) Fr2 (resolveF C x .real k n ub lb) p True (fun r q => ∃ R, Den q r R ∧ ResSpec ev x ub lb T R) := by
  intro k
  induction k with
  | zero => intro p _ n T _ h; omega
  | succ k ih =>
    intro p hp n T hT hk ub lb hub hlb
    have store : ∀ (q : Pool E) (r : ℕ) (R : XTree E), Inv2 C.X Γ ev q → Ext p q → Den q r R → ResSpec ev x ub lb T R →
        Run (Inv2 C.X Γ ev) Fr2 (addResolve C (x, n, ub, lb) r) q True (fun r q => ∃ R, Den q r R ∧ ResSpec ev x ub lb T R) := by
      intro q r R hq he hd hs
      refine (addResolve_run hq (key := (x, n, ub, lb)) (r := r) ⟨T, R, he.den hT, hd, fun _ _ _ => hs, fun h => ?_⟩).imp id
        fun r' q' _ h hr => hr ▸ ⟨R, h.den hd, hs⟩
      rw [hx] at h; cases h
    unfold resolveF
    refine Run.bindGet ?_
    cases hc : (if C.cache = true then p.resolveCache.lookup (x, n, ub, lb) else none) with
    | some r =>
      have hl : p.resolveCache.lookup (x, n, ub, lb) = some r := by
        split at hc
        · exact hc
        · cases hc
      obtain ⟨U, R, h1, h2, h3, -⟩ := hp.res _ _ hl
      rw [h1.unique hT] at h3
      exact Run.ret Fr2.refl hp ⟨R, h2, h3 hx hub hlb⟩
    | none =>
      simp only
      obtain ⟨y, hy⟩ := Option.isSome_iff_exists.mp hT.isSome
      refine Run.bindEq (R := Fr2) (fun h h' => h.trans h') (q := p) (a := y) (by unfold getNode; rw [hy]) (Fr2.refl p) ?_
      cases y with
      | leaf e =>
        have hTe : T = .leaf e := hT.unique (.leaf hy)
        subst hTe
        simp only
        split
        · rename_i hz
          have h0 : XTree.leaf e = .leaf C.X.back.alg.zero := (hp.core.leafZero hT).mp hz
          refine Run.ret Fr2.refl hp ⟨_, .leaf hp.core.zero, ⟨fun σ _ _ => ?_, SymsIn.leaf⟩⟩
          have e0 : XTree.slice ev (.leaf C.X.back.alg.zero) σ x = fun _ => 0 := by
            funext t; exact zeroEval hR.back (σ.setR x t)
          rw [h0, zeroEval hR.back, e0]
          simp
        · simp only [reduceCtorEq, if_false]
          have unb : ub = none ∨ lb = none → ResSpec ev x ub lb (.leaf e) (.leaf C.X.back.alg.zero) := by
            intro hn
            refine ⟨fun σ _ hv => ?_, SymsIn.leaf⟩
            rw [zeroEval hR.back]
            simp only [leaf_vanish hR.back hn hv, integral_zero]
          match ub, lb, hub, hlb, store, unb with
          | some u, some l, hub, hlb, store, _ =>
            obtain ⟨e', h1, h2⟩ := concreteIntegrate_ok hR (hlb l rfl) (hub u rfl) e
            refine Run.bindLift h1 ?_
            refine Run.seq2 ((terminal_run hp.core e').core2 hp) id ?_
            intro r q hq hpq hr
            refine store _ _ _ hq hpq.toExt (.leaf hr) ⟨fun σ hle hv => ?_, SymsIn.leaf⟩
            have hreg : region σ (some u) (some l) = Ioo (value σ l) (value σ u) := by
              ext t; simp [region]
            rw [hreg]
            exact h2 σ (hle l rfl u rfl)
          | none, lb, _, _, store, unb => exact store _ _ _ hp (Ext.refl p) (.leaf hp.core.zero) (unb (Or.inl rfl))
          | some u, none, _, _, store, unb => exact store _ _ _ hp (Ext.refl p) (.leaf hp.core.zero) (unb (Or.inr rfl))
      | inner d t f =>
        obtain ⟨htn, hfn, -, -, -, hd, -⟩ := hp.core.inner hy
        cases hT with
        | leaf h => rw [hy] at h; simp at h
        | @node _ _ _ _ A B h hA hB =>
          rw [hy] at h
          simp only [Option.some.injEq, XNode.inner.injEq] at h
          obtain ⟨rfl, rfl, rfl⟩ := h
          simp only
          split
          · rename_i hxd
            simp only [reduceCtorEq, if_false]
            refine Run.seq2 (resolveTest_run hR hp hd hA hB hxd hub hlb ?_) id ?_
            · intro m M hm hM ub' lb' hu' hl' q hq he
              exact ih hq (he.den hM) (by rcases hm with rfl | rfl <;> omega) hu' hl'
            · rintro r q hq hpq ⟨R, hRd, hs⟩
              exact store _ _ _ hq hpq.toExt hRd hs
          · rename_i hxd
            refine Run.seq2 (ih hp hA (by omega) hub hlb) id ?_
            rintro a q1 hq1 h01 ⟨RA, hRA, sA⟩
            refine Run.seq2 (ih hq1 (h01.den hB) (by omega) hub hlb) id ?_
            rintro b q2 hq2 h12 ⟨RB, hRB, sB⟩
            refine Run.seq2 ((internal_canon hR.simp hq2.core hd (h12.den hRA) hRB).core2 hq2) id ?_
            rintro r q3 hq3 h23 ⟨R, hRd, hc⟩
            have htest : ∀ (σ : Env ℝ) (t : ℝ), truth (σ.setR x t) d.test = truth σ d.test := by
              intro σ t
              refine truth_congr hd.wt fun v hv => ?_
              obtain ⟨m, ty⟩ := v
              cases ty with
              | bool => rfl
              | real =>
                refine Env.setR_other σ t ?_
                rintro rfl
                exact hxd hv
            refine store _ _ _ hq3 (h01.trans (h12.trans h23)).toExt hRd ⟨fun σ hle hv => ?_, hc.symsIn ?_ ?_ ?_⟩
            · have hsl : (XTree.node d A B).slice ev σ x = if truth σ d.test then A.slice ev σ x else B.slice ev σ x := by
                funext t
                rw [XTree.slice_node, htest]
                split <;> rfl
              rw [hsl] at hv ⊢
              rw [hc.eval]
              split
              · rename_i hb
                simp only [hb, if_true] at hv
                exact sA.val σ hle hv
              · rename_i hb
                simp only [hb, Bool.false_eq_true, if_false] at hv
                exact sB.val σ hle hv
            · intro v hv
              exact ⟨fun h => hxd (h ▸ hv), Or.inl ⟨d.test, by simp [XTree.tests], hv⟩⟩
            · intro g hg v hv
              obtain ⟨h1, h2⟩ := sA.syms g hg v hv
              exact ⟨h1, h2.imp (fun ⟨g', hg', h'⟩ => ⟨g', by simp [XTree.tests, hg'], h'⟩) id⟩
            · intro g hg v hv
              obtain ⟨h1, h2⟩ := sB.syms g hg v hv
              exact ⟨h1, h2.imp (fun ⟨g', hg', h'⟩ => ⟨g', by simp [XTree.tests, hg'], h'⟩) id⟩

theorem DecOk.bool_iff {d : Decision} (h : DecOk d) (b : String) : (b, Ty.bool) ∈ syms d.test ↔ d.test = .sym b .bool := by
  constructor
  · intro hb
    rcases h.2 with ⟨b', hb'⟩ | ⟨q, -, hq, hg⟩
    · rw [hb'] at hb ⊢
      simp [syms] at hb
      rw [hb]
    · have := (DecOk.syms_lin hq hg _ hb).1
      cases this
  · intro h; rw [h]; simp [syms]

/-- Diagrams without a test of a Boolean variable do not depend on it. -/
theorem XTree.eval_setB {T : XTree E} {P : Decision → Prop} (hT : T.AllDec P) (hP : ∀ d, P d → DecOk d) {b : String}
    (hb : Formula.sym b .bool ∉ T.tests) (σ : Env ℝ) (v : Bool) : T.eval ev (σ.setB b v) = T.eval ev σ := by
  unfold XTree.eval
  rw [Env.setB_r]
  congr 1
  apply XTree.leafAt_congr
  intro g hg
  have hok := XTree.AllDec.tests (Q := fun g => wt .bool g = true ∧ ((b, Ty.bool) ∈ syms g ↔ g = .sym b .bool))
    (fun d h => ⟨(hP d h).wt, (hP d h).bool_iff b⟩) hT g hg
  refine truth_congr hok.1 fun w hw => ?_
  obtain ⟨m, ty⟩ := w
  cases ty with
  | real => rfl
  | bool =>
    refine Env.setB_other σ v ?_
    rintro rfl
    exact hb (hok.2.mp hw ▸ hg)

/-- Summation over a Boolean variable; exact on ordered diagrams. -/
theorem resolveF_bool (hR : RLaw C ev) {b : String} (hb : Γ b = .bool) : ∀ (k : ℕ) {p : Pool E}, Inv2 C.X Γ ev p → ∀ {n : ℕ} {T : XTree E},
    Den p n T → n < k → Run (Inv2 C.X Γ ev) Fr2 (resolveF C b .bool k n none none) p True
      (fun r q => ∃ R, Den q r R ∧ (T.Ord q.tests → SumSpec ev b q.tests T R)) := by
  intro k
  induction k with
  | zero => intro p _ n T _ h; omega
  | succ k ih =>
    intro p hp n T hT hk
    unfold resolveF
    refine Run.bindGet ?_
    cases hc : (if C.cache = true then p.resolveCache.lookup (b, n, none, none) else none) with
    | some r =>
      have hl : p.resolveCache.lookup (b, n, none, none) = some r := by
        split at hc
        · exact hc
        · cases hc
      obtain ⟨U, R, h1, h2, -, h3⟩ := hp.res _ _ hl
      rw [h1.unique hT] at h3
      exact Run.ret Fr2.refl hp ⟨R, h2, h3 hb⟩
    | none =>
      simp only
      obtain ⟨y, hy⟩ := Option.isSome_iff_exists.mp hT.isSome
      refine Run.bindEq (R := Fr2) (fun h h' => h.trans h') (q := p) (a := y) (by unfold getNode; rw [hy]) (Fr2.refl p) ?_
      cases y with
      | leaf e =>
        have hTe : T = .leaf e := hT.unique (.leaf hy)
        subst hTe
        simp only
        split
        · rename_i hz
          have h0 : XTree.leaf e = .leaf C.X.back.alg.zero := (hp.core.leafZero hT).mp hz
          refine Run.ret Fr2.refl hp ⟨_, .leaf hp.core.zero, fun _ => ⟨fun σ => ?_, fun g hg => (by cases hg), trivial⟩⟩
          rw [h0, zeroEval hR.back, zeroEval hR.back, zeroEval hR.back, add_zero]
        · simp only [if_true]
          refine ((terminal_run hp.core _).core2 hp).imp id fun r q _ _ hr => ⟨_, .leaf hr, fun _ => ⟨fun σ => ?_, fun g hg => (by cases hg), trivial⟩⟩
          simp only [XTree.eval, XTree.leafAt_leaf, Env.setB_r, hR.back.times, hR.back.real]
          push_cast; ring
      | inner d t f =>
        obtain ⟨htn, hfn, -, -, -, hd, -⟩ := hp.core.inner hy
        have hT0 := hT
        cases hT with
        | leaf h => rw [hy] at h; simp at h
        | @node _ _ _ _ A B h hA hB =>
          rw [hy] at h
          simp only [Option.some.injEq, XNode.inner.injEq] at h
          obtain ⟨rfl, rfl, rfl⟩ := h
          simp only
          split
          · rename_i hbd
            have hdb := (hd.bool_iff b).mp hbd
            simp only [if_true]
            refine (apply2 hR.simp (Or.inr rfl) hp hA hB).imp id fun r q _ hpq ⟨R, hRd, ha⟩ => ⟨R, hRd, fun ho => ?_⟩
            obtain ⟨o1, o2, o3⟩ := ho
            have nA : Formula.sym b .bool ∉ A.tests := fun h => lt_irrefl _ (hdb ▸ o1 _ (Or.inl h))
            have nB : Formula.sym b .bool ∉ B.tests := fun h => lt_irrefl _ (hdb ▸ o1 _ (Or.inr h))
            refine ⟨fun σ => ?_, fun g hg => ?_, ha.ord o2 o3⟩
            · have e1 : truth (σ.setB b true) d.test = true := by rw [hdb]; simp [truth]
              have e2 : truth (σ.setB b false) d.test = false := by rw [hdb]; simp [truth]
              rw [ha.eval hR.back (Or.inr rfl), XTree.eval_node, XTree.eval_node, e1, e2, if_pos rfl, if_neg (by simp),
                XTree.eval_setB (hA.decs hp.core) (fun _ h => h.1) nA, XTree.eval_setB (hB.decs hp.core) (fun _ h => h.1) nB]
              rfl
            · rcases ha.tests g hg with h | h
              · exact ⟨by simp [XTree.tests, h], fun h' => nA (h' ▸ h)⟩
              · exact ⟨by simp [XTree.tests, h], fun h' => nB (h' ▸ h)⟩
          · rename_i hbd
            have hdb : d.test ≠ .sym b .bool := fun h => hbd ((hd.bool_iff b).mpr h)
            refine Run.seq2 (ih hp hA (by omega)) id ?_
            rintro a q1 hq1 h01 ⟨RA, hRA, sA⟩
            refine Run.seq2 (ih hq1 (h01.den hB) (by omega)) id ?_
            rintro b' q2 hq2 h12 ⟨RB, hRB, sB⟩
            refine Run.seq2 ((internal_canon hR.simp hq2.core hd (h12.den hRA) hRB).core2 hq2) id ?_
            rintro r q3 hq3 h23 ⟨R, hRd, hcs⟩
            have h03 := h01.trans (h12.trans h23)
            have hspec : (XTree.node d A B).Ord q3.tests → SumSpec ev b q3.tests (.node d A B) R := by
              intro ho
              obtain ⟨o1, o2, o3⟩ := ho
              have sA' := (sA ((XTree.Ord.mono (h12.trans h23).tests ((h01.den hA).tests hq1.core)).mp o2)).mono
                (h12.trans h23).tests ((h01.den hA).tests hq1.core)
              have sB' := (sB ((XTree.Ord.mono h23.tests (((h01.trans h12).den hB).tests hq2.core)).mp o3)).mono
                h23.tests (((h01.trans h12).den hB).tests hq2.core)
              refine ⟨fun σ => ?_, fun g hg => ?_, ?_⟩
              · have e : ∀ v, truth (σ.setB b v) d.test = truth σ d.test := by
                  intro v
                  refine truth_congr hd.wt fun w hw => ?_
                  obtain ⟨m, ty⟩ := w
                  cases ty with
                  | real => rfl
                  | bool =>
                    refine Env.setB_other σ v ?_
                    rintro rfl
                    exact hbd hw
                rw [hcs.eval, XTree.eval_node, XTree.eval_node, e, e]
                split
                · exact sA'.val σ
                · exact sB'.val σ
              · rcases hcs with ⟨rfl, -⟩ | ⟨d', hd', -, rfl⟩
                · obtain ⟨h1, h2⟩ := sA'.tests g hg
                  exact ⟨by simp [XTree.tests, h1], h2⟩
                · simp only [XTree.tests, List.mem_cons, List.mem_append, hd'] at hg ⊢
                  rcases hg with rfl | hg | hg
                  · exact ⟨Or.inl rfl, hdb⟩
                  · exact ⟨Or.inr (Or.inl (sA'.tests g hg).1), (sA'.tests g hg).2⟩
                  · exact ⟨Or.inr (Or.inr (sB'.tests g hg).1), (sB'.tests g hg).2⟩
              · rcases hcs with ⟨rfl, -⟩ | ⟨d', hd', -, rfl⟩
                · exact sA'.ord
                · refine ⟨fun g hg => ?_, sA'.ord, sB'.ord⟩
                  rw [hd']
                  exact o1 g (hg.imp (fun h => (sA'.tests g h).1) fun h => (sB'.tests g h).1)
            refine (addResolve_run hq3 (key := (b, n, none, none)) (r := r) ⟨_, R, h03.den hT0, hRd, fun h => ?_, fun _ => hspec⟩).imp id
              fun r' q' _ h hr => hr ▸ ⟨R, h.den hRd, fun ho => ?_⟩
            · rw [hb] at h; cases h
            · exact (hspec ((XTree.Ord.mono h.tests ((h03.den hT0).tests hq3.core)).mp ho)).mono h.tests ((h03.den hT0).tests hq3.core)

/-! ### `integrate` -/

theorem integrate_real (hR : RLaw C ev) {x : String} (hx : Γ x = .real) {p : Pool E} (hp : Inv2 C.X Γ ev p) {n : ℕ} {T : XTree E}
    (hT : Den p n T) : Run (Inv2 C.X Γ ev) Fr2 (integrate C n x .real) p True (fun r q => ∃ R, Den q r R ∧ ResSpec ev x none none T R) := by
  unfold integrate
  have hred : ∀ {q : Pool E}, Inv2 C.X Γ ev q → ∀ (c : Prop) [Decidable c] {n : ℕ} {T : XTree E}, Den q n T →
      Run (Inv2 C.X Γ ev) Fr2 (if c then reduceBy C.X C.method n else pure n) q True
        (fun r q => ∃ T', Den q r T' ∧ (∀ σ : Env ℝ, T'.eval ev σ = T.eval ev σ) ∧ ∀ g ∈ T'.tests, g ∈ T.tests) := by
    intro q hq c _ n T hT
    by_cases h : c
    · rw [if_pos h]
      exact (reduce2 hR.simp hR.solve C.method_ne hq hT).imp id fun r q _ _ ⟨T', h1, h2⟩ => ⟨T', h1, fun σ => h2.eval σ, h2.tests⟩
    · rw [if_neg h]
      exact Run.ret Fr2.refl hq ⟨T, hT, fun _ => rfl, fun _ h => h⟩
  refine Run.seq2 (hred hp (C.s0 = true) hT) id ?_
  rintro n' q1 hq1 h01 ⟨T', hT', e1, t1⟩
  refine Run.seq2 (resolveF_real hR hx (n' + 1) hq1 hT' (by omega) (ub := none) (lb := none) (by simp) (by simp)) id ?_
  rintro r q2 hq2 h12 ⟨R, hRd, hs⟩
  refine (hred hq2 _ hRd).imp id fun r' q3 _ _ ⟨R', hR', e2, t2⟩ => ⟨R', hR', fun σ h1 h2 => ?_, fun g hg v hv => ?_⟩
  · have hsl : T'.slice ev σ x = T.slice ev σ x := by funext t; exact e1 _
    rw [e2, hs.val σ h1 (hsl ▸ h2), hsl]
  · obtain ⟨h1, h2⟩ := hs.syms g (t2 g hg) v hv
    exact ⟨h1, h2.imp (fun ⟨g', hg', h'⟩ => ⟨g', t1 g' hg', h'⟩) id⟩

theorem integrate_bool (hR : RLaw C ev) {b : String} (hb : Γ b = .bool) {p : Pool E} (hp : Inv2 C.X Γ ev p) {n : ℕ} {T : XTree E}
    (hT : Den p n T) :
    Run (Inv2 C.X Γ ev) Fr2 (integrate C n b .bool) p True (fun r q => ∃ R, Den q r R ∧ (T.Ord q.tests → SumSpec ev b q.tests T R)) := by
  unfold integrate
  have hred : ∀ {q : Pool E}, Inv2 C.X Γ ev q → ∀ (c : Prop) [Decidable c] {n : ℕ} {T : XTree E}, Den q n T →
      Run (Inv2 C.X Γ ev) Fr2 (if c then reduceBy C.X C.method n else pure n) q True
        (fun r q => ∃ T', Den q r T' ∧ RedSpec q.tests [] T T') := by
    intro q hq c _ n T hT
    by_cases h : c
    · rw [if_pos h]
      exact reduce2 hR.simp hR.solve C.method_ne hq hT
    · rw [if_neg h]
      exact Run.ret Fr2.refl hq ⟨T, hT, RedSpec.refl _ _ _⟩
  refine Run.seq2 (hred hp (C.s0 = true) hT) id ?_
  rintro n' q1 hq1 h01 ⟨T', hT', r1⟩
  refine Run.seq2 (resolveF_bool hR hb (n' + 1) hq1 hT' (by omega)) id ?_
  rintro r q2 hq2 h12 ⟨R, hRd, hs⟩
  refine (hred hq2 _ hRd).imp id fun r' q3 hq3 h23 ⟨R', hR', r2⟩ => ⟨R', hR', fun ho => ?_⟩
  have ho1 : T.Ord q1.tests := (XTree.Ord.mono (h12.trans h23).tests ((h01.den hT).tests hq1.core)).mp ho
  have ho2 : T'.Ord q2.tests := (XTree.Ord.mono h12.tests (hT'.tests hq1.core)).mpr (r1.ord ho1)
  have s := hs ho2
  refine ⟨fun σ => ?_, fun g hg => ?_, ?_⟩
  · rw [r2.eval, s.val, r1.eval, r1.eval]
  · obtain ⟨h1, h2⟩ := s.tests g (r2.tests g hg)
    exact ⟨r1.tests g h1, h2⟩
  · exact r2.ord ((XTree.Ord.mono h23.tests (hRd.tests hq2.core)).mpr s.ord)

end
end Pywmi
