import Verif.Props.Saved
import Verif.Props.PieceStatic

set_option linter.unusedSectionVars false
set_option linter.unusedSimpArgs false

/-!
# C101 for the XSDD engines

The condition of C46 on weights (the terms are different functions) survives saving and loading, so the XSDD engines give the
same answers before and after, too.
-/

namespace Pywmi
open Formula Prog

/-- SPEC: the condition of C46: the terms of the weight are different functions, and so are those of the bases of powers with exponent 0. -/
def DistinctTerms (K : Type) [Field K] [LinearOrder K] [IsStrictOrderedRing K] (w : Formula) : Prop :=
  (termsOf K w).Nodup ∧ ∀ b ∈ zeroBases w, (termsOf K b).Nodup

section
variable {K : Type} [Field K] [LinearOrder K] [IsStrictOrderedRing K] {f g : Formula}

theorem powTerms_singleton (t : Env K → K) : ∀ n, powTerms [t] n = [t ^ (n + 1)]
  | 0 => by simp [powTerms]
  | n + 1 => by rw [powTerms, powTerms_singleton t n]; simp [prodTerms, pow_succ]

theorem sumTerms_congr {as gs : List Formula} (hl : as.length = gs.length) (h : ∀ p ∈ as.zip gs, termsOf K p.2 = termsOf K p.1) :
    sumTerms K gs = sumTerms K as := by
  induction as generalizing gs with
  | nil => cases gs with
    | nil => rfl
    | cons _ _ => simp at hl
  | cons a as ih => cases gs with
    | nil => simp at hl
    | cons b gs =>
      rw [sumTerms, sumTerms, h (a, b) (by simp), ih (by simpa using hl) fun p hp => h p (by simp [hp])]

theorem factorTerms_congr {as gs : List Formula} (hl : as.length = gs.length) (h : ∀ p ∈ as.zip gs, termsOf K p.2 = termsOf K p.1)
    (A : List (Env K → K)) : factorTerms K A gs = factorTerms K A as := by
  induction as generalizing gs A with
  | nil => cases gs with
    | nil => rfl
    | cons _ _ => simp at hl
  | cons a as ih => cases gs with
    | nil => simp at hl
    | cons b gs =>
      rw [factorTerms, factorTerms, h (a, b) (by simp), ih (by simpa using hl) fun p hp => h p (by simp [hp])]

theorem wtAll_zip {ty : Ty} {as gs : List Formula} (h : wtAll ty as = true) : ∀ p ∈ as.zip gs, wt ty p.1 = true := fun _ hp =>
  (wtAll_iff ..).mp h _ (List.of_mem_zip hp).1

/-- The terms of a weight that is read back are those of the weight that was printed. -/
theorem Reread.terms (h : Reread K f g) : wt .real f = true → termsOf K g = termsOf K f := by
  induction h with
  | and => intro h; simp [wt] at h
  | or => intro h; simp [wt] at h
  | not => intro h; simp [wt] at h
  | le => intro h; simp [wt] at h
  | lt => intro h; simp [wt] at h
  | equals => intro h; simp [wt] at h
  | tt => intro h; simp [wt] at h
  | implies => intro h; simp [wt] at h
  | iff => intro h; simp [wt] at h
  | sym => exact fun _ => rfl
  | real => exact fun _ => rfl
  | @plus as gs x hl _ hx ih =>
    intro h
    simp only [wt, Bool.and_eq_true] at h
    have := sumTerms_congr hl fun p hp => ih p hp (wtAll_zip h.2 p hp)
    rcases mkPlus_cases hx with rfl | ⟨rfl, -⟩
    · rw [termsOf, ← this, sumTerms, sumTerms, List.append_nil]
    · rw [termsOf, termsOf, this]
  | @times as gs x hl _ hx ih =>
    intro h
    simp only [wt, Bool.and_eq_true] at h
    have hz : ∀ p ∈ as.zip gs, termsOf K p.2 = termsOf K p.1 := fun p hp => ih p hp (wtAll_zip h.2 p hp)
    cases as with
    | nil => simp at h
    | cons a as => cases gs with
      | nil => simp at hl
      | cons b gs =>
        have h1 := hz (a, b) (by simp)
        have h2 := factorTerms_congr (as := as) (gs := gs) (by simpa using hl) (fun p hp => hz p (by simp [hp])) (termsOf K a)
        simp only at h1
        rcases mkTimes_cases hx with h' | ⟨rfl, -⟩
        · obtain ⟨rfl, rfl⟩ := List.cons.inj h'
          rw [termsOf, ← h2, factorTerms, h1]
        · rw [termsOf, termsOf, h1, h2]
  | minus _ _ ih1 ih2 =>
    intro h
    simp only [wt, Bool.and_eq_true] at h
    rw [termsOf, termsOf, ih1 h.1, ih2 h.2]
  | ite _ _ _ _ ih2 ih3 =>
    intro h
    simp only [wt, Bool.and_eq_true] at h
    rw [termsOf, termsOf, ih2 h.1.2, ih3 h.2]
  | powOne _ ih =>
    intro h
    simp only [wt, Bool.and_eq_true] at h
    rw [termsOf, ih h.1]
    simp [powTerms]
  | @pow b x y q hq _ hy ih =>
    intro h
    simp only [wt, Bool.and_eq_true, decide_eq_true_eq] at h
    have hb := ih h.1
    rcases mkPow_cases hy with ⟨c, rfl⟩ | rfl
    · rw [termsOf, ← hb]
      unfold mkPow at hy
      simp only at hy
      split at hy
      · rename_i c' _
        rw [if_pos ⟨h.2.1, h.2.2⟩] at hy
        have hy := Except.ok.inj hy
        injection hy with hy
        subst hy
        have hc : termsOf K (.realC c') = [fun _ => (c' : K)] := by simp [termsOf, value]
        rw [hc, powTerms_singleton]
        by_cases h0 : q.num = 0
        · simp [h0, termsOf, value]
        · rw [if_neg h0, Nat.sub_add_cancel (by omega)]
          simp only [termsOf, value, Rat.cast_pow]
          rfl
      · simp at hy
    · rw [termsOf, termsOf, hb]

theorem wt_zeroBases (w : Formula) : wt .real w = true → ∀ b ∈ zeroBases w, wt .real b = true := by
  induction w using Formula.induct with
  | plus as ih =>
    intro h b hb
    simp only [wt, Bool.and_eq_true, wtAll_iff] at h
    rw [zeroBases, mem_zeroBasesList] at hb
    obtain ⟨a, ha, hb⟩ := hb
    exact ih a ha (h.2 a ha) b hb
  | times as ih =>
    intro h b hb
    simp only [wt, Bool.and_eq_true, wtAll_iff] at h
    rw [zeroBases, mem_zeroBasesList] at hb
    obtain ⟨a, ha, hb⟩ := hb
    exact ih a ha (h.2 a ha) b hb
  | minus l r ihl ihr =>
    intro h b hb
    simp only [wt, Bool.and_eq_true] at h
    simp only [zeroBases, List.mem_append] at hb
    exact hb.elim (ihl h.1 b) (ihr h.2 b)
  | ite c t e ihc iht ihe =>
    intro h b hb
    simp only [wt, Bool.and_eq_true] at h
    simp only [zeroBases, List.mem_append] at hb
    exact hb.elim (iht h.1.2 b) (ihe h.2 b)
  | pow x e ihx ihe =>
    intro h b hb
    cases e with
    | realC q =>
      simp only [wt, Bool.and_eq_true] at h
      simp only [zeroBases, List.mem_append] at hb
      rcases hb with hb | hb
      · split at hb
        · rw [List.mem_singleton.mp hb]; exact h.1
        · simp at hb
      · exact ihx h.1 b hb
    | _ => simp [wt] at h
  | _ => intro _ b hb; simp [zeroBases] at hb

/-- The bases of powers with exponent 0 that are read back were printed. -/
theorem Reread.bases (h : Reread K f g) : wt .real f = true → ∀ b ∈ zeroBases g, ∃ d ∈ zeroBases f, Reread K d b := by
  have list : ∀ {as gs : List Formula}, as.length = gs.length → wtAll .real as = true →
      (∀ p ∈ as.zip gs, wt .real p.1 = true → ∀ b ∈ zeroBases p.2, ∃ d ∈ zeroBases p.1, Reread K d b) →
      ∀ b ∈ zeroBasesList gs, ∃ d ∈ zeroBasesList as, Reread K d b := by
    intro as gs hl hw ih b hb
    obtain ⟨y, hy, hby⟩ := mem_zeroBasesList.mp hb
    obtain ⟨x, hx, hz⟩ := partner hl hy
    obtain ⟨d, hd, hr⟩ := ih _ hz ((wtAll_iff ..).mp hw x hx) b hby
    exact ⟨d, mem_zeroBasesList.mpr ⟨x, hx, hd⟩, hr⟩
  induction h with
  | and => intro h; simp [wt] at h
  | or => intro h; simp [wt] at h
  | not => intro h; simp [wt] at h
  | le => intro h; simp [wt] at h
  | lt => intro h; simp [wt] at h
  | equals => intro h; simp [wt] at h
  | tt => intro h; simp [wt] at h
  | implies => intro h; simp [wt] at h
  | iff => intro h; simp [wt] at h
  | sym => intro _ b hb; simp [zeroBases] at hb
  | real => intro _ b hb; simp [zeroBases] at hb
  | @plus as gs x hl _ hx ih =>
    intro h b hb
    simp only [wt, Bool.and_eq_true] at h
    rw [zeroBases]
    rcases mkPlus_cases hx with rfl | ⟨rfl, -⟩
    · exact list hl h.2 ih b (by simpa [zeroBasesList] using hb)
    · exact list hl h.2 ih b (by rwa [zeroBases] at hb)
  | @times as gs x hl _ hx ih =>
    intro h b hb
    simp only [wt, Bool.and_eq_true] at h
    rw [zeroBases]
    rcases mkTimes_cases hx with rfl | ⟨rfl, -⟩
    · exact list hl h.2 ih b (by simpa [zeroBasesList] using hb)
    · exact list hl h.2 ih b (by rwa [zeroBases] at hb)
  | minus _ _ ih1 ih2 =>
    intro h b hb
    simp only [wt, Bool.and_eq_true] at h
    simp only [zeroBases, List.mem_append] at hb ⊢
    rcases hb with hb | hb
    · obtain ⟨d, hd, hr⟩ := ih1 h.1 b hb; exact ⟨d, .inl hd, hr⟩
    · obtain ⟨d, hd, hr⟩ := ih2 h.2 b hb; exact ⟨d, .inr hd, hr⟩
  | ite _ _ _ _ ih2 ih3 =>
    intro h b hb
    simp only [wt, Bool.and_eq_true] at h
    simp only [zeroBases, List.mem_append] at hb ⊢
    rcases hb with hb | hb
    · obtain ⟨d, hd, hr⟩ := ih2 h.1.2 b hb; exact ⟨d, .inl hd, hr⟩
    · obtain ⟨d, hd, hr⟩ := ih3 h.2 b hb; exact ⟨d, .inr hd, hr⟩
  | powOne _ ih =>
    intro h b hb
    simp only [wt, Bool.and_eq_true] at h
    obtain ⟨d, hd, hr⟩ := ih h.1 b hb
    exact ⟨d, by simp [zeroBases, hd], hr⟩
  | @pow x y z q hq hr hy ih =>
    intro h b hb
    simp only [wt, Bool.and_eq_true] at h
    rcases mkPow_cases hy with ⟨c, rfl⟩ | rfl
    · simp [zeroBases] at hb
    · simp only [zeroBases, List.mem_append] at hb ⊢
      rcases hb with hb | hb
      · split at hb
        · rename_i h0
          rw [List.mem_singleton.mp hb]
          exact ⟨x, .inl (by simp [h0]), hr⟩
        · simp at hb
      · obtain ⟨d, hd, hr⟩ := ih h.1 b hb; exact ⟨d, .inr hd, hr⟩

/-- The condition on weights survives saving and loading. -/
theorem Reread.distinctTerms (h : Reread K f g) (hw : wt .real f = true) (hd : DistinctTerms K f) : DistinctTerms K g := by
  refine ⟨by rw [h.terms hw]; exact hd.1, fun b hb => ?_⟩
  obtain ⟨d, h1, h2⟩ := h.bases hw b hb
  rw [h2.terms (wt_zeroBases f hw d h1)]
  exact hd.2 d h1
end

/-- A weight with distinct terms never clashes. -/
theorem DistinctTerms.converted {w : Formula} (h : DistinctTerms ℝ w) (hw : wt .real w = true) (simp : Formula → Formula) :
    ∃ P, (pieceW simp (Pieces.clashFree simp)).walk w = .ok P := by
  obtain ⟨P, h, _⟩ := Pieces.walk_cover (simp := simp) w hw h.1 h.2
  exact ⟨P, h⟩

theorem baseSupport_plain {E : Type} {o : XsddOpts E} (h : o.findConflicts = false) (S w : Formula) : ∃ base, o.baseSupport S w = .ok base :=
  ⟨S, by simp [XsddOpts.baseSupport, h]⟩

section
variable {Rep : ℚ → Prop} {L : NumLib} {showReal : ℚ → Tok} {readReal : Tok → Option ℚ} {D : Density}

/-- **C101** for the XSDD engines (partial like `saved_answers_partial`; no search for conflicts): if the terms of the weight are different
functions, then XSDD with an exact convex back-end, XSDD without one, and XSDD with a pool of PyXADD all answer the loaded problem the way
PyXADD answers the original one, volume and queries. -/
theorem saved_xsdd_partial (hL : ∀ q, Rep q → L.read (L.text q) = q)
    (hread : ∀ q, Rep q → TokSafe (showReal q) ∧ readReal (showReal q) = some q)
    (hb : BoundsRep Rep D.domain) {ab : Bool} {Γ : String → Ty} (hS : Shared false Γ D.engine D.weight ab)
    (hq : ∀ q ∈ D.queries, XOk D.domain q)
    (hexp : ∀ f, f = D.support ∨ f = D.weight ∨ f ∈ D.queries →
      (∀ p ∈ syms f, TokSafe p.1.toList) ∧ (∀ q ∈ consts f, Rep q) ∧ false ∉ boolConsts f)
    (hd : DistinctTerms ℝ D.weight)
    {E : Type} [DecidableEq E] {X : XCtx E} {ev : E → (String → ℝ) → ℝ} (hX : XLaw X ev) {C : RCtx E} (hC : C.X = X)
    (ho : OrdLaw C.ord) {p : Pool E} (hp : Reachable X Γ p) :
    ∃ t D', D.dumps L showReal = .ok t ∧ Density.loads L readReal t = .ok D' ∧
      (∀ {F : Type} {eval : F → (String → ℝ) → ℝ} (o : XsddOpts F), o.Sound eval → o.findConflicts = false →
        (∀ a b, o.implies a b = .ok true → ∀ σ : Env ℝ, truth σ a = true → truth σ b = true) →
        (∃ integ, o.backend = some integ ∧ ConvexExact integ) ∨ o.backend = none ∧ VtreeOk o.vtree ∧ IntegrateExact o.integrate eval →
        (StatefulEngine.pure o.computeVolume).volume D'.engine ab = (pyxaddEngine C p).volume D.engine ab ∧
        (StatefulEngine.pure o.computeVolume).probabilities D'.engine D'.queries ab = (pyxaddEngine C p).probabilities D.engine D.queries ab) ∧
      (∀ {F : Type} [DecidableEq F] {eval : F → (String → ℝ) → ℝ} (q : PoolOpts F), q.Sound eval → q.o.findConflicts = false →
        ∀ p' : Pool F, Reachable q.P.C.X Γ p' →
        (xsddPoolEngine q p').volume D'.engine ab = (pyxaddEngine C p).volume D.engine ab ∧
        (xsddPoolEngine q p').probabilities D'.engine D'.queries ab = (pyxaddEngine C p).probabilities D.engine D.queries ab) := by
  obtain ⟨t, D', h1, h2, hSE, -, h3⟩ := saved_answers_partial (readReal := readReal) hL hread hb hS hq hexp
  obtain ⟨t', D'', h1', h2', -, -, ⟨w1, w2, -⟩, -⟩ := density_text_reread (readReal := readReal) hL hread hS.box.1 hb hS.support.wt hS.wtW
    (fun q h => (hq q h).wt) hexp
  obtain rfl : t = t' := Except.ok.inj (h1.symm.trans h1')
  obtain rfl : D' = D'' := Except.ok.inj (h2.symm.trans h2')
  have hdE := w2.distinctTerms hS.wtW hd
  have hx := pyxadd_right_partial (wide := false) (w := D.weight) hX hC ho hp
  refine ⟨t, D', h1, h2, fun o hso hf himp hback => ?_, fun q hsq hf p' hp' => ?_⟩
  · rcases hback with ⟨integ, hback, hi⟩ | ⟨hback, hv, hi⟩
    · exact h3 _ _ hx (xsdd_right_partial hso hi hback himp (hdE.converted w1 _) fun S => baseSupport_plain hf S _)
    · exact h3 _ _ hx (xsddSymbolic_right_partial hso hv hi hback himp (hdE.converted w1 _) fun S => baseSupport_plain hf S _)
  · exact h3 _ _ hx (xsddPool_right_partial hsq hf (hdE.converted w1 _) hp')
end

/-! ### The hypotheses are met -/

theorem savedDensity_queries : ∀ q ∈ savedDensity.queries, XOk savedDensity.domain q := by
  intro q hq
  simp only [savedDensity, List.mem_cons, List.not_mem_nil, or_false] at hq
  rcases hq with rfl | rfl
  · exact agreeQuery_ok
  · refine ⟨by decide, by decide, by simp only [Domain.covers]; decide +kernel, fun a ha => ?_, fun h => absurd h (by decide)⟩
    exact agreeQuery_ok.generic a (by simpa [atoms] using ha)

theorem xsddWeight_distinct : DistinctTerms ℝ xsddWeight := by
  refine ⟨termsOf_nodup_at ⟨fun _ => true, fun n => if n = "x" then 5 else 7⟩ ?_, fun b hb => by simp [xsddWeight, zeroBases, zeroBasesList] at hb⟩
  simp [xsddWeight, termsOf, sumTerms, factorTerms, prodTerms, powTerms, value]

/-- The problem is saved and loaded; XSDD with an exact back-end, XSDD without one, and XSDD with a used pool then return the volume of the original. -/
example : ∃ t D', savedDensity.dumps tenthsLib unaryShow = .ok t ∧ Density.loads tenthsLib unaryRead t = .ok D' ∧
    ∀ g ∈ [StatefulEngine.pure (sampleOpts false).computeVolume, StatefulEngine.pure nonConvexOpts.computeVolume, xsddPoolEngine (poolSample true) exPool],
      g.volume D'.engine true = .ok 15 := by
  obtain ⟨t, D', h1, h2, h3, h4⟩ := saved_xsdd_partial (D := savedDensity) (Rep := Tenth) (fun q h => tenthsLib_read q h)
    (fun q _ => unary_ok q) factDomain_tenths (agree_shared true) savedDensity_queries savedDensity_text xsddWeight_distinct exLaw (C := exFull) rfl
    id_ordLaw exPool_reachable
  have hv := (agree_concrete _ (List.mem_cons_self ..)).1
  refine ⟨t, D', h1, h2, fun g hg => ?_⟩
  simp only [List.mem_cons, List.not_mem_nil, or_false] at hg
  rcases hg with rfl | rfl | rfl
  · exact (h3 _ (sampleOpts_sound false) rfl (fun a b h => by simpa [sampleOpts] using h)
      (.inl ⟨_, rfl, fun _ _ _ _ _ _ _ _ => .inl rfl⟩)).1.trans hv
  · exact (h3 _ nonConvexOpts_sound rfl (fun a b h => by simpa [nonConvexOpts, sampleOpts] using h)
      (.inr ⟨rfl, bami_vtreeOk (fun _ => List.Perm.refl _) (fun _ => List.Perm.refl _) [], fun _ e vs M _ _ _ _ _ _ => ⟨_, rfl, fun _ => rfl⟩⟩)).1.trans hv
  · exact (h4 _ (poolSample_sound true) rfl _ exPool_reachable).1.trans hv

end Pywmi
