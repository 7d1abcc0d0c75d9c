import Verif.Props.XsddCount

set_option linter.unusedSectionVars false
set_option linter.unusedSimpArgs false

/-!
# C57: the XSDD engine with a convex back-end computes the weighted model integral
-/

namespace Pywmi
open Formula Prog MeasureTheory

/-! ### Regions -/

theorem volume_regions {D : Domain} (hD : BoxOk D) {f : Formula} (hf : XOk D f) {As : List Formula}
    {rs : List (Formula × Finset String)} (hc : Counted D f As rs) {w : Formula}
    (hw : ∀ σ τ : Env ℝ, σ.r = τ.r → value σ w = value τ w) :
    D.volumeOf true (density f w) =
      (rs.map fun q => 2 ^ (D.bools.toFinset.card - q.2.card) *
        intReals D.reals (D.restricted true (density q.1 w)) env0).sum := by
  have ht : ∀ g (β : String → Bool), Tame D.reals (D.restricted true (density g w)) ⟨β, env0.r⟩ := fun g β =>
    tame_of_bound hD (.inl rfl) (density_le g w) β
  have hm : ∀ g, EnvMeas (D.restricted true (density g w)) := fun g => restricted_meas D true (density_meas g w)
  have hint : ∀ g (β : String → Bool), Integrable fun x => D.restricted true (density g w) ((⟨β, env0.r⟩ : Env ℝ).setReals D.reals x) :=
    fun g β => (ht g β).integrable (hm g)
  have hintT : ∀ T : Finset String, Integrable fun x => D.restricted true (density f w) ((env0.withBools T).setReals D.reals x) :=
    fun T => hint f _
  have hint0 : ∀ g, Integrable fun x => D.restricted true (density g w) (env0.setReals D.reals x) := fun g => hint g _
  rw [Domain.volumeOf, wmiOf, sumBools_eq (bools_nodup hD.wf)]
  simp only [intReals]
  rw [← integral_finsetSum _ fun T _ => hintT T]
  have e2 : (rs.map fun q => 2 ^ (D.bools.toFinset.card - q.2.card) *
        ∫ x : Fin D.reals.length → ℝ, D.restricted true (density q.1 w) (env0.setReals D.reals x)).sum =
      ∫ x : Fin D.reals.length → ℝ, ∑ i : Fin rs.length, 2 ^ (D.bools.toFinset.card - (rs[i.1]).2.card) *
        D.restricted true (density (rs[i.1]).1 w) (env0.setReals D.reals x) := by
    rw [integral_finsetSum _ fun i _ => (hint0 _).const_mul _,
      ← Fin.sum_univ_fun_getElem rs fun q => 2 ^ (D.bools.toFinset.card - q.2.card) *
        ∫ x : Fin D.reals.length → ℝ, D.restricted true (density q.1 w) (env0.setReals D.reals x)]
    exact Finset.sum_congr rfl fun i _ => (integral_const_mul _ _).symm
  rw [e2]
  refine integral_congr_ae ?_
  filter_upwards [hf.off_ae hD.wf env0] with x hx
  rw [Fin.sum_univ_fun_getElem rs fun q => (2 : ℝ) ^ (D.bools.toFinset.card - q.2.card) *
        D.restricted true (density q.1 w) (env0.setReals D.reals x)]
  set σ := env0.setReals D.reals x with hσ
  have hT : ∀ T : Finset String, (env0.withBools T).setReals D.reals x = σ.withBools T := fun T => rfl
  simp only [hT]
  by_cases hb : D.inBox σ
  · have hb' : ∀ T, D.inBox (σ.withBools T) := fun T => hb
    have r1 : ∀ T g, D.restricted true (density g w) (σ.withBools T) = if truth (σ.withBools T) g = true then value σ w else 0 := by
      intro T g
      rw [Domain.restricted, if_pos fun _ => hb' T, density, hw (σ.withBools T) σ rfl]
    have r2 : ∀ g, D.restricted true (density g w) σ = if truth σ g = true then value σ w else 0 := by
      intro g
      rw [Domain.restricted, if_pos fun _ => hb, density]
    simp only [r1, r2]
    rw [← Finset.sum_filter, Finset.sum_const, hc.count σ hx, nsmul_eq_mul, Nat.cast_list_sum, List.map_map,
      ← List.sum_map_mul_right]
    congr 1
    refine List.map_congr_left fun q _ => ?_
    by_cases h : truth σ q.1 = true <;> simp [h]
  · have z1 : ∀ T g, D.restricted true (density g w) (σ.withBools T) = 0 := fun T g =>
      if_neg fun h => hb (h rfl)
    have z2 : ∀ g, D.restricted true (density g w) σ = 0 := fun g => if_neg fun h => hb (h rfl)
    simp [z1, z2]

/-- SPEC: a polynomial on the points that satisfy linear inequalities. -/
noncomputable def regionFn (is : List Dict) (p : Dict) (σ : Env ℝ) : ℝ :=
  if ∀ d ∈ is, polyEval σ.r d ≤ 0 then polyEval σ.r p else 0

/-- SPEC: a convex integration back-end returns the integral of a polynomial over the part of the box that satisfies linear
inequalities; it may raise a ZeroDivisionError when that is zero. -/
def ConvexExact (integ : Domain → List Dict → Dict → Except PyErr ℝ) : Prop :=
  ∀ (D : Domain) (is : List Dict) (p : Dict), BoxOk D → D.bools = [] →
    (∀ d ∈ is, WFLin d ∧ ∀ m ∈ d, m.1.length ≤ 1 ∧ ∀ n ∈ m.1, n ∈ D.reals) →
    WFPoly p → (∀ m ∈ p, ∀ n ∈ m.1, n ∈ D.reals) →
    integ D is p = .ok (D.volumeOf true (regionFn is p)) ∨
      (integ D is p = .error .zeroDivision ∧ D.volumeOf true (regionFn is p) = 0)

/-- There is such a back-end. -/
example : ConvexExact fun D is p => .ok (D.volumeOf true (regionFn is p)) := fun _ _ _ _ _ _ _ _ => .inl rfl

/-- SPEC: the assumptions on the external parts of an engine. -/
structure XsddOpts.Sound {E : Type} (o : XsddOpts E) (eval : E → (String → ℝ) → ℝ) : Prop where
  mgr : ∀ ex u, Vtree.load ex = some u → u.leaves.Nodup → (∀ n ∈ u.leaves, n ≠ 0) → (o.mgr ex).Ok u
  ord : ∀ l, (o.ord l).Perm l
  tie : ∀ l, (o.tie l).Perm l
  setOrd : ∀ l, (o.setOrd l).Perm l
  alg : o.alg.Sound eval
  realF : ∀ v ρ, eval (o.realF v) ρ = v
  toFloat : ∀ e v, (∀ ρ, eval e ρ = v) → o.toFloat e = .ok v
  simp : SimpOk o.simp ℝ
  simpOk : ∀ D f, XOk D f → XOk D (o.simp f)

section
variable {E : Type} {o : XsddOpts E} {eval : E → (String → ℝ) → ℝ}

theorem realDomain_facts {D : Domain} (hD : BoxOk D) :
    BoxOk (XsddOpts.realDomain D D.reals) ∧ (XsddOpts.realDomain D D.reals).bools = [] ∧
      (XsddOpts.realDomain D D.reals).reals = D.reals := by
  have hn := reals_nodup hD.wf
  have hty : dictOf (D.reals.map fun v => (v, Ty.real)) = D.reals.map fun v => (v, Ty.real) :=
    dictOf_nodup (by simpa [List.map_map, Function.comp_def] using hn)
  have hkeys : (D.reals.map fun v => (v, Ty.real)).map (·.1) = D.reals := by simp [List.map_map, Function.comp_def]
  have hlook : ∀ v ∈ D.reals, (D.reals.map fun v => (v, Ty.real)).lookup v = some .real := fun v hv =>
    lookup_mem_nodup (by rw [hkeys]; exact hn) (List.mem_map.mpr ⟨v, hv, rfl⟩)
  refine ⟨⟨⟨hn, ?_, ?_, hD.wf.domNodup, ?_⟩, hD.box⟩, ?_, ?_⟩
  · simp only [XsddOpts.realDomain, hty, hkeys]; exact hn
  · intro v; simp only [XsddOpts.realDomain, hty, hkeys]
  · intro v
    simp only [XsddOpts.realDomain, hty]
    rw [hD.wf.mem_real]
    simp [Domain.reals]
  · refine List.filter_eq_nil_iff.mpr fun v hv => ?_
    show ¬ decide ((dictOf (D.reals.map fun v => (v, Ty.real))).lookup v = some .bool) = true
    rw [hty, hlook v hv]
    decide
  · refine List.filter_eq_self.mpr fun v hv => ?_
    show decide ((dictOf (D.reals.map fun v => (v, Ty.real))).lookup v = some .real) = true
    rw [hty, hlook v hv]
    decide

theorem integrateConvex_correct (ho : o.Sound eval) {integ : Domain → List Dict → Dict → Except PyErr ℝ} (hi : ConvexExact integ)
    {D : Domain} (hD : BoxOk D) {f : Formula} (hf : XOk D f) {As : List Formula} {rs : List (Formula × Finset String)}
    (hc : Counted D f As rs) {q : Formula × Finset String} (hq : q ∈ rs) {d : Dict} (hd : d ≠ []) (hwf : WFPoly d)
    (hvd : ∀ p ∈ d, ∀ n ∈ p.1, n ∈ D.reals) {w : Formula} (hw : polyToSmt d = .ok w) :
    o.integrateConvex integ D q.1 w = .ok (intReals D.reals (D.restricted true (density q.1 w)) env0) := by
  obtain ⟨hb, hbools, hreals⟩ := realDomain_facts hD
  obtain ⟨ds, h1, h2, h3⟩ := getInequalities_region (K := ℝ) hc.linear ho.setOrd (hc.regions q hq).1
  obtain ⟨w', p, hw', hp, hpw, hpn, hps⟩ := polyFromSmt_toSmt hd hwf
  rw [hw] at hw'; cases hw'
  obtain ⟨w', hw', hpt, hz, hval⟩ := polyToSmt_correct (K := ℝ) hd
  rw [hw] at hw'; cases hw'
  obtain ⟨p', hp', hpv⟩ := polyFromSmt_correct_partial (K := ℝ) hpt hz
  rw [hp] at hp'; cases hp'
  have hpvars : ∀ m ∈ p, ∀ n ∈ m.1, n ∈ D.reals := fun m hm n hn => by
    have h := hps m.1
    rw [lookup_of_mem (k := m.1) (v := m.2) hpw.1 hm, Option.getD_some] at h
    cases hl : d.lookup m.1 with
    | none => rw [hl] at h; exact absurd h (hpn m hm)
    | some c => exact hvd _ (mem_of_lookup hl) n hn
  have hvol : (XsddOpts.realDomain D D.reals).volumeOf true (regionFn ds p) =
      intReals D.reals (D.restricted true (density q.1 w)) env0 := by
    have hr : (XsddOpts.realDomain D D.reals).restricted true (regionFn ds p) = D.restricted true (regionFn ds p) := rfl
    rw [Domain.volumeOf, wmiOf, hbools, hreals, sumBools, hr]
    refine integral_congr_ae ?_
    filter_upwards [hf.off_ae hD.wf env0] with x hx
    set σ := env0.setReals D.reals x
    have hiff := h3 σ (hc.strict σ hx)
    have : regionFn ds p σ = density q.1 w σ := by
      simp only [regionFn, density, hpv]
      by_cases h : truth σ q.1 = true
      · rw [if_pos (hiff.mp h), if_pos h]
      · rw [if_neg fun h' => h (hiff.mpr h'), if_neg h]
    simp only [Domain.restricted, this]
  have hrv : D.realVars = .ok D.reals := hD.wf.realVars
  have ht : o.tryConvex integ D q.1 w = integ (XsddOpts.realDomain D D.reals) ds p := by
    simp only [XsddOpts.tryConvex, hrv, h1, hp]
  have hlaw := hi _ ds p hb hbools (fun d hd => ⟨(h2 d hd).1, fun m hm => ⟨((h2 d hd).2 m hm).1, fun n hn => by
    obtain ⟨a, ha, hs⟩ := ((h2 d hd).2 m hm).2 n hn
    rw [hreals]; exact hc.vars a ha _ hs⟩⟩) hpw (by rw [hreals]; exact hpvars)
  rw [hvol] at hlaw
  simp only [XsddOpts.integrateConvex, ht]
  rcases hlaw with h | ⟨h, h0⟩
  · rw [h]
  · rw [h, h0]

theorem truth_mkAnd_pair (σ : Env ℝ) (a b : Formula) : truth σ (mkAnd [a, b]) = (truth σ a && truth σ b) := by
  simp [mkAnd, truth, truthAll]

theorem foldE_sum {α : Type} (v : α → ℝ) {f : E → α → Except PyErr E} {as : List α}
    (h : ∀ a ∈ as, ∀ b, ∃ b', f b a = .ok b' ∧ ∀ ρ, eval b' ρ = eval b ρ + v a) :
    ∀ b, ∃ b', foldE f b as = .ok b' ∧ ∀ ρ, eval b' ρ = eval b ρ + (as.map v).sum := by
  induction as with
  | nil => intro b; exact ⟨b, rfl, by simp⟩
  | cons a as ih =>
    intro b
    obtain ⟨b1, h1, h2⟩ := h a (by simp) b
    obtain ⟨b2, h3, h4⟩ := ih (fun x hx => h x (by simp [hx])) b1
    exact ⟨b2, by simp only [foldE, h1, h3], fun ρ => by rw [h4, h2, List.map_cons, List.sum_cons]; ring⟩

/-- The term of a piece. -/
def pieceTerm (k : PExpr) : Formula :=
  match XsddOpts.keySmt k with
  | .ok f => f
  | .error _ => .realC 0

theorem pieceTerm_spec {V : String → Prop} {k : PExpr} (hg : k.Good) (ho : k.Over V) :
    ∃ d, k = .poly d ∧ d ≠ [] ∧ WFPoly d ∧ (∀ p ∈ d, ∀ n ∈ p.1, V n) ∧ XsddOpts.keySmt k = .ok (pieceTerm k) ∧
      polyToSmt d = .ok (pieceTerm k) ∧ ∀ σ : Env ℝ, value σ (pieceTerm k) = k.eval σ.r := by
  obtain ⟨d, rfl, hd⟩ := hg
  have hne : d ≠ [] := List.ne_nil_of_length_pos (by rw [ho.1]; exact Nat.one_pos)
  obtain ⟨w, hw, _, _, hv⟩ := polyToSmt_correct (K := ℝ) hne
  have : pieceTerm (.poly d) = w := by simp only [pieceTerm, XsddOpts.keySmt, hw]
  rw [this]
  exact ⟨d, rfl, hne, hd, ho.2, hw, hw, hv⟩

theorem convexPiece_correct (ho : o.Sound eval) {integ : Domain → List Dict → Dict → Except PyErr ℝ} (hi : ConvexExact integ)
    {D : Domain} (hD : BoxOk D) {base : Formula} {p : PExpr × Formula} (hf : XOk D (mkAnd [p.2, base]))
    (hprop : atoms (mkAnd [p.2, base]) = [] ∨ ∃ a ∈ atoms (mkAnd [p.2, base]), Proper a) (hg : p.1.Good)
    (hv : p.1.Over (· ∈ D.reals)) (vol : E) :
    ∃ r, o.convexPiece integ D base vol p = .ok r ∧
      ∀ ρ, eval r ρ = eval vol ρ + D.volumeOf true (density (mkAnd [p.2, base]) (pieceTerm p.1)) := by
  obtain ⟨g, L, s, rs, h1, h2, h3, hc⟩ := compiled_count ho.mgr ho.ord ho.tie hf hprop
  obtain ⟨d, hk, hd, hwf, hvd, hkey, hsmt, hval⟩ := pieceTerm_spec hg hv
  simp only [XsddOpts.convexPiece, h1, h2, h3]
  rw [volume_regions hD hf hc fun σ τ h => by rw [hval, hval, h]]
  refine foldE_sum _ (fun q hq vol => ?_) vol
  have hbv : D.boolVars = .ok D.bools := hD.wf.boolVars
  have hcard : D.bools.toFinset.card = D.bools.length := List.toFinset_card_of_nodup (bools_nodup hD.wf)
  refine ⟨_, by simp only [XsddOpts.convexRegion, hbv, hkey, integrateConvex_correct ho hi hD hf hc hq hd hwf hvd hsmt]; rfl,
    fun ρ => ?_⟩
  rw [ho.alg.plus, ho.realF]
  congr 1
  have hle : q.2.card ≤ D.bools.length := hcard ▸ Finset.card_le_card (hc.regions q hq).2
  rw [hcard, ← Nat.cast_sub hle, zpow_natCast, mul_comm]

/-! ### The engine -/

/-- SPEC: the weights an engine can handle: polynomial pieces, no clash when pieces are merged (see C46), and conditions made
of Boolean variables and linear comparisons. -/
structure XWeight (o : XsddOpts E) (D : Domain) (w : Formula) : Prop where
  wt : wt .real w = true
  vars : D.covers w
  conds : ∀ c ∈ condsOf w, XOk D c
  clash : ∃ P, (pieceW o.simp (Pieces.clashFree o.simp)).walk w = .ok P

theorem volumeCore_correct (ho : o.Sound eval) {integ : Domain → List Dict → Dict → Except PyErr ℝ} (hi : ConvexExact integ)
    (hback : o.backend = some integ) {e : EngineObj} {w base : Formula} (hw : e.weight = some w) (hD : BoxOk e.domain)
    (hxw : XWeight o e.domain w) (hbase : o.baseSupport e.support w = .ok base) (hb : XOk e.domain base)
    (hprop : e.domain.reals = [] ∨ ∃ a ∈ atoms base, Proper a) :
    o.volumeCore e = .ok (e.domain.volumeOf true (density base w)) := by
  obtain ⟨P, hP⟩ := hxw.clash
  have hconv := Pieces.splitUp_correct_partial ho.simp w hxw.wt P hP
  have hmade := splitUp_made (XOk.supportInv (ho.simpOk e.domain)) (V := (· ∈ e.domain.reals)) w
    (fun p hp hr => by
      have := hxw.vars p hp
      rw [hr] at this
      exact mem_reals.mpr this) hxw.conds P hconv.run
  have hpiece : ∀ p ∈ P, ∀ b, ∃ b', o.convexPiece integ e.domain base b p = .ok b' ∧
      ∀ ρ, eval b' ρ = eval b ρ + e.domain.volumeOf true (density (mkAnd [p.2, base]) (pieceTerm p.1)) := by
    intro p hp b
    obtain ⟨hov, hx⟩ := hmade p hp
    have hf := (XOk.two hx hb).1
    refine convexPiece_correct ho hi hD hf ?_ (hconv.good.1 p hp) hov b
    rcases hprop with h | ⟨a, ha, hpa⟩
    · exact .inl (hf.noReals h)
    · exact .inr ⟨a, by rw [atoms_mkAnd]; exact mem_atomsList.mpr ⟨base, by simp, ha⟩, hpa⟩
  obtain ⟨r, hr, hev⟩ := foldE_sum _ hpiece o.alg.zero
  have hsum : ∀ ρ, eval r ρ = e.domain.volumeOf true (density base w) := by
    intro ρ
    rw [hev]
    have hz : eval o.alg.zero ρ = 0 := by simp [Algebra.zero, ho.alg.real]
    rw [hz, zero_add, ← volumeOf_sum P (fun p => density (mkAnd [p.2, base]) (pieceTerm p.1)) (fun p _ => density_meas _ _)
      (fun p _ β => tame_of_bound hD (.inl rfl) (density_le _ _) β)]
    congr 1
    funext σ
    rw [density, ← hconv.val σ, piecesVal]
    by_cases h : truth σ base = true
    · rw [if_pos h]
      congr 1
      refine List.map_congr_left fun p hp => ?_
      obtain ⟨_, _, _, _, _, _, _, hval⟩ := pieceTerm_spec (hconv.good.1 p hp) (hmade p hp).1
      rw [density, hval, pieceVal, truth_mkAnd_pair, h, Bool.and_true]
    · rw [if_neg h]
      refine List.sum_eq_zero fun x hx => ?_
      obtain ⟨p, hp, rfl⟩ := List.mem_map.mp hx
      rw [density, truth_mkAnd_pair, if_neg (by simp [h])]
  simp only [XsddOpts.volumeCore, hw, hbase, hconv.run, XsddOpts.fromPieces, hback, hr]
  exact ho.toFloat _ _ hsum

end
end Pywmi
