import Verif.Props.Convex
import Verif.Props.PieceZero

set_option linter.unusedSectionVars false
set_option linter.unusedSimpArgs false

/-!
# C78: cases of the convex integration back-ends
-/

namespace Pywmi
open Formula Prog MeasureTheory

/-! ## A LattE -/

namespace Latte

/-- The text of an answer. -/
def answerText (q : ℚ) : List Char := "Answer: ".toList ++ (intText q.num ++ '/' :: natText q.den)

theorem answerText_found (q : ℚ) : Found (answerText q) (intText q.num) (natText q.den) := by
  have hA : ∀ {c : Char}, Dig c → c ≠ 'A' := fun {c} h e => by
    subst e
    exact absurd h (by decide)
  have hno : 'A' ∉ "nswer: ".toList ++ (intText q.num ++ '/' :: natText q.den) := by
    intro h
    rcases List.mem_append.mp h with h | h
    · exact absurd h (by decide)
    · rcases List.mem_append.mp h with h | h
      · rcases intText_chars _ _ h with h | h
        · exact absurd h (by decide)
        · exact hA h rfl
      · rcases List.mem_cons.mp h with h | h
        · exact absurd h (by decide)
        · exact hA ((natText_digits _).2 _ h) rfl
  refine ⟨[], [], answerText q, (List.nil_append _).symm, .inl rfl, List.not_mem_nil, ⟨[' '], [], ?_, List.cons_ne_nil _ _, ?_, ?_,
    (natText_digits _).1, (natText_digits _).2, fun c hc => (by cases hc)⟩, ?_, ?_⟩
  · rw [List.append_nil]
    exact List.append_assoc "Answer:".toList [' '] _
  · intro c hc
    simp only [List.mem_singleton] at hc
    subst hc
    simp [White]
  · unfold intText
    split
    · exact ⟨['-'], _, rfl, .inr rfl, (natText_digits _).1, (natText_digits _).2⟩
    · exact ⟨[], _, rfl, .inl rfl, (natText_digits _).1, (natText_digits _).2⟩
  · intro x y h hy
    simp only [List.nil_eq, List.append_eq_nil_iff] at h
    exact absurd h.2 hy
  · intro x y h hx _ a b hh
    obtain ⟨t, rfl⟩ := hh.ne
    cases x with
    | nil => exact hx rfl
    | cons c x =>
      have h0 : answerText q = 'A' :: ("nswer: ".toList ++ (intText q.num ++ '/' :: natText q.den)) :=
        List.cons_append
      have h' := h0.symm.trans h
      rw [List.cons_append, List.cons.injEq] at h'
      exact hno (h'.2 ▸ by simp)

open Classical in
/-- A program that prints the integral whenever it is rational, and fails otherwise. -/
noncomputable def ideal (polyFile hrepFile : List Char) : Option (List Char) :=
  match LatteReader.poly polyFile, LatteReader.hrep hrepFile with
  | some ms, some (n + 1, rows) =>
    if h : ∃ q : ℚ, (q : ℝ) = ∫ x in polytope n rows, monosAt ms x then some (answerText h.choose) else none
  | _, _ => none

/-- There is a program as assumed. -/
theorem ideal_sound : LatteSound ideal := by
  intro pf hf n rows ms out h1 h2 _ _ hrun
  simp only [ideal, h1, h2] at hrun
  split at hrun
  · rename_i h
    cases hrun
    refine .inl ⟨_, _, _, _, answerText_found _, int_intText _, nat_natText _, h.choose.den_nz, ?_⟩
    refine Eq.trans ?_ h.choose_spec
    exact_mod_cast congrArg (fun q : ℚ => (q : ℝ)) (Rat.num_div_den h.choose)
  · cases hrun

end Latte

/-! ## The box -/

/-- One real variable between 0 and 1. -/
def boxX : Domain := ⟨["x"], [("x", .real)], [("x", some 0, some 1)]⟩

theorem boxX_box : BoxOk boxX where
  wf := by refine ⟨by decide, by decide, fun v => ?_, by decide, fun v => ?_⟩ <;> simp [boxX]
  box v b h := by
    simp only [boxX, List.lookup] at h
    split at h
    · simp only [Option.some.injEq] at h
      exact ⟨_, _, h.symm, by norm_num⟩
    · cases h

theorem boxX_reals : boxX.reals = ["x"] := by decide

/-- `0 <= x <= 2`. -/
def upToTwo : List Dict := [[(["x"], 1), ([], -2)], [(["x"], -1)]]

theorem upToTwo_linear : LinearOver boxX upToTwo := by
  intro d hd
  simp only [upToTwo, List.mem_cons, List.not_mem_nil, or_false] at hd
  rcases hd with rfl | rfl
  · refine ⟨⟨by simp [KeysNodup], by simp⟩, ?_⟩
    simp [boxX_reals]
  · refine ⟨⟨by simp [KeysNodup], by simp⟩, ?_⟩
    simp [boxX_reals]

theorem boxX_get (x : Fin boxX.reals.length → ℝ) : (env0.setReals boxX.reals x).r "x" = x ⟨0, by decide⟩ :=
  setReals_get (σ := env0) (reals_nodup boxX_box.wf) (x := x) ⟨0, by decide⟩

theorem upToTwo_region : regionSet boxX upToTwo = Set.Icc (fun _ => 0) fun _ => 2 := by
  ext x
  have hi : ∀ i : Fin boxX.reals.length, i = ⟨0, by decide⟩ := fun i => by
    have := i.2
    simp only [boxX_reals, List.length_singleton] at this
    exact Fin.ext (by simpa using this)
  have h1 : polyEval (env0.setReals boxX.reals x).r [(["x"], 1), ([], -2)] = x ⟨0, by decide⟩ - 2 := by
    simp [polyEval, monoEval, boxX_get]; ring
  have h2 : polyEval (env0.setReals boxX.reals x).r [(["x"], -1)] = -x ⟨0, by decide⟩ := by
    simp [polyEval, monoEval, boxX_get]
  simp only [regionSet, upToTwo, Set.mem_ofPred_eq, List.forall_mem_cons, h1, h2, List.not_mem_nil, false_implies, implies_true,
    and_true, Set.mem_Icc, Pi.le_def]
  constructor
  · rintro ⟨a, b⟩
    exact ⟨fun i => by rw [hi i]; linarith, fun i => by rw [hi i]; linarith⟩
  · rintro ⟨a, b⟩
    exact ⟨by linarith [b ⟨0, by decide⟩], by linarith [a ⟨0, by decide⟩]⟩

theorem boxX_interval (c : ℝ) (hc : 0 ≤ c) : (volume (Set.Icc (fun _ : Fin boxX.reals.length => (0 : ℝ)) fun _ => c)).toReal = c := by
  rw [Real.volume_Icc_pi, Finset.prod_const, Finset.card_univ, Fintype.card_fin, boxX_reals, List.length_singleton, pow_one, sub_zero,
    ENNReal.toReal_ofReal hc]

theorem upToTwo_volume : boxX.volumeOf false (regionFn upToTwo [([], 1)]) = 2 := by
  rw [volumeOf_region (by decide), upToTwo_region]
  have : ∀ x : Fin boxX.reals.length → ℝ, polyEval (env0.setReals boxX.reals x).r [([], 1)] = 1 := fun x => by simp [polyEval, monoEval]
  simp only [this, setIntegral_const, smul_eq_mul, mul_one]
  exact boxX_interval 2 (by norm_num)

theorem upToTwo_boxed : boxX.volumeOf true (regionFn upToTwo [([], 1)]) = 1 := by
  have e : boxX.volumeOf true (regionFn upToTwo [([], 1)]) = ∫ x, (Set.Icc (fun _ : Fin boxX.reals.length => (0 : ℝ)) fun _ => 1).indicator (fun _ => (1 : ℝ)) x := by
    rw [volumeOf_real (by decide)]
    refine integral_congr_ae (Filter.Eventually.of_forall fun x => ?_)
    have hi : ∀ i : Fin boxX.reals.length, i = ⟨0, by decide⟩ := fun i => by
      have := i.2
      simp only [boxX_reals, List.length_singleton] at this
      exact Fin.ext (by simpa using this)
    have hbox : boxX.inBox (env0.setReals boxX.reals x) ↔ x ∈ Set.Icc (fun _ : Fin boxX.reals.length => (0 : ℝ)) fun _ => 1 := by
      have e : boxX.inBox (env0.setReals boxX.reals x) ↔ 0 ≤ x ⟨0, by decide⟩ ∧ x ⟨0, by decide⟩ ≤ 1 := by
        rw [← boxX_get x]
        simp [Domain.inBox, boxX, Domain.inBounds]
      rw [e, Set.mem_Icc, Pi.le_def, Pi.le_def]
      exact ⟨fun h => ⟨fun i => by rw [hi i]; exact h.1, fun i => by rw [hi i]; exact h.2⟩, fun h => ⟨h.1 _, h.2 _⟩⟩
    have hreg : x ∈ Set.Icc (fun _ : Fin boxX.reals.length => (0 : ℝ)) (fun _ => 1) → x ∈ regionSet boxX upToTwo := fun h => by
      rw [upToTwo_region]
      exact ⟨h.1, fun i => (h.2 i).trans (by norm_num)⟩
    simp only [Domain.restricted]
    by_cases h : boxX.inBox (env0.setReals boxX.reals x)
    · rw [if_pos fun _ => h, Set.indicator_of_mem (hbox.mp h), regionFn,
        if_pos (show ∀ d ∈ upToTwo, polyEval (env0.setReals boxX.reals x).r d ≤ 0 from hreg (hbox.mp h))]
      simp [polyEval, monoEval]
    · rw [if_neg fun h' => h (h' rfl), Set.indicator_of_notMem fun h' => h (hbox.mpr h')]
  rw [e, integral_indicator measurableSet_Icc, setIntegral_const, smul_eq_mul, mul_one]
  exact boxX_interval 1 (by norm_num)

open Classical in
/-- **C78**: the LattE back-end does not look at the box of the domain: for `0 <= x <= 2` and `x` in `[0, 1]` it returns 2, also
with a LattE and a solver that are right; the part in the box has length 1. -/
theorem latte_ignores_box :
    Latte.integrate Latte.ideal (fun f => decide (∃ σ : Env ℝ, truth σ f = true)) boxX upToTwo [([], 1)] = .ok 2 ∧
      boxX.volumeOf true (regionFn upToTwo [([], 1)]) = 1 := by
  refine ⟨?_, upToTwo_boxed⟩
  have hfin : volume (regionSet boxX upToTwo) ≠ ⊤ := by
    rw [upToTwo_region]
    exact isCompact_Icc.measure_lt_top.ne
  obtain ⟨h1, h2⟩ := latte_correct Latte.ideal_sound (sat := fun f => decide (∃ σ : Env ℝ, truth σ f = true))
    (fun f h σ => by simpa using (of_decide_eq_false h) ∘ fun h' => ⟨σ, h'⟩) boxX_box.wf (by decide) upToTwo_linear (p := [([], 1)])
    (by simp) hfin
  cases h : Latte.integrate Latte.ideal (fun f => decide (∃ σ : Env ℝ, truth σ f = true)) boxX upToTwo [([], 1)] with
  | ok v =>
    have := h1 v h
    rw [upToTwo_volume] at this
    exact congrArg _ (by exact_mod_cast this)
  | error e =>
    rcases h2 e h with ⟨-, hm⟩ | ⟨-, ⟨pf, hf, rows, ms, hr, k1, k2, k3⟩, -⟩
    · simp [upToTwo] at hm
    · simp only [Latte.ideal, k1, k2, k3, upToTwo_volume] at hr
      rw [dif_pos ⟨2, by norm_num⟩] at hr
      cases hr

/-! ## XSDD -/

section
variable {E : Type} {o : XsddOpts E} {eval : E → (String → ℝ) → ℝ}

/-- **C78**: XSDD with LattE as back-end: a number that is returned is the weighted model integral. -/
theorem xsdd_latte_partial (ho : o.Sound eval) {run : List Char → List Char → Option (List Char)} (hrun : LatteSound run)
    {sat : Formula → Bool} (hsat : ∀ f, sat f = false → ∀ σ : Env ℝ, truth σ f = false)
    (hback : o.backend = some (latteBackend run sat))
    (himp : ∀ a b, o.implies a b = .ok true → ∀ σ : Env ℝ, truth σ a = true → truth σ b = true)
    {e : EngineObj} {w : Formula} (hw : e.weight = some w) (hD : BoxOk e.domain) (hxw : XWeight o e.domain w)
    (hS : XOk e.domain e.support) {v : ℝ} (h : o.computeVolume e true = .ok v) :
    v = e.domain.volumeOf true (density e.support w) :=
  (computeVolume_sound_partial ho (latte_sound hrun hsat) hback himp hw hD hxw hS).1 h

/-- **C78**: XSDD with another engine as back-end: if that engine is never wrong on conjunctions of linear comparisons with
polynomial weights, and raises no ZeroDivisionError, then a number that is returned is the weighted model integral. -/
theorem xsdd_engine_partial (ho : o.Sound eval) {vol : EngineObj → Bool → Except PyErr ℝ} (hvol : EngineSound vol)
    (hback : o.backend = some (engineIntegrate vol))
    (himp : ∀ a b, o.implies a b = .ok true → ∀ σ : Env ℝ, truth σ a = true → truth σ b = true)
    {e : EngineObj} {w : Formula} (hw : e.weight = some w) (hD : BoxOk e.domain) (hxw : XWeight o e.domain w)
    (hS : XOk e.domain e.support) {v : ℝ} (h : o.computeVolume e true = .ok v) :
    v = e.domain.volumeOf true (density e.support w) :=
  (computeVolume_sound_partial ho (engine_sound hvol) hback himp hw hD hxw hS).1 h

theorem foldE_error {α β : Type} {f : β → α → Except PyErr β} {a : α} {e : PyErr} (h : ∀ b, f b a = .error e) :
    ∀ {as : List α}, a ∈ as → ∀ b, ∃ e', foldE f b as = .error e' := by
  intro as
  induction as with
  | nil => intro h; cases h
  | cons c as ih =>
    intro hm b
    simp only [foldE]
    rcases List.mem_cons.mp hm with rfl | hm
    · rw [h b]; exact ⟨e, rfl⟩
    · cases f b c with
      | error e' => exact ⟨e', rfl⟩
      | ok b' => exact ih hm b'

/-- A piece that is zero makes an engine as back-end raise. -/
theorem convexPiece_zero (ho : o.Sound eval) (vol : EngineObj → Bool → Except PyErr ℝ) {D : Domain} (hD : BoxOk D) {base : Formula}
    {p : PExpr × Formula} (hf : XOk D (mkAnd [p.2, base]))
    (hprop : atoms (mkAnd [p.2, base]) = [] ∨ ∃ a ∈ atoms (mkAnd [p.2, base]), Proper a) (hg : p.1.Good)
    (hv : p.1.Over (· ∈ D.reals)) (hzero : ∀ ρ : String → ℝ, p.1.eval ρ = 0)
    (hsat : ∃ σ : Env ℝ, OffBoundary σ (mkAnd [p.2, base]) ∧ truth σ (mkAnd [p.2, base]) = true) (b : E) :
    o.convexPiece (engineIntegrate vol) D base b p = .error .typeError := by
  obtain ⟨g, L, s, rs, h1, h2, h3, hc⟩ := compiled_count ho.mgr ho.ord ho.tie hf hprop
  obtain ⟨d, hk, hd, hwf, hvd, hkey, hsmt, hval⟩ := pieceTerm_spec hg hv
  obtain ⟨hb, hbools, hreals⟩ := realDomain_facts hD
  obtain ⟨σ, hoff, hσ⟩ := hsat
  have hrs : rs ≠ [] := by
    rintro rfl
    have hcount := hc.count σ hoff
    rw [List.map_nil, List.sum_nil, Finset.card_eq_zero] at hcount
    have hmem : (D.bools.toFinset.filter fun n => σ.b n = true) ∈
        D.bools.toFinset.powerset.filter fun T => truth (σ.withBools T) (mkAnd [p.2, base]) = true := by
      rw [Finset.mem_filter, Finset.mem_powerset]
      refine ⟨Finset.filter_subset _ _, ?_⟩
      refine Eq.trans (truth_congr hf.wt fun v hvf => ?_) hσ
      obtain ⟨n, ty⟩ := v
      have hcov := hf.vars _ hvf
      cases ty with
      | real => rfl
      | bool =>
        have hn : n ∈ D.bools := mem_bools.mpr hcov
        simp [Agree, Env.withBools, hn]
    rw [hcount] at hmem
    simp at hmem
  obtain ⟨w', q, hw', hq, hqw, hqn, hqs⟩ := polyFromSmt_toSmt hd hwf
  rw [hsmt] at hw'; cases hw'
  have hq0 : q = [] := by
    by_contra hne
    obtain ⟨⟨k, c⟩, hm⟩ := List.exists_mem_of_ne_nil q hne
    have hl := hqs k
    rw [lookup_of_mem (k := k) (v := c) hqw.1 hm, Option.getD_some] at hl
    have hlen : d.length = 1 := by rw [hk] at hv; exact hv.1
    obtain ⟨⟨k', c'⟩, rfl⟩ := List.length_eq_one_iff.mp hlen
    have h0 : (c' : ℝ) = 0 := by
      have := hzero fun _ => 1
      rw [hk] at this
      simpa [PExpr.eval, polyEval, monoEval] using this
    have h0' : c' = 0 := by exact_mod_cast h0
    refine hqn _ hm (hl.trans ?_)
    subst h0'
    rw [List.lookup_cons]
    split <;> simp
  subst hq0
  have hone : ∀ r ∈ rs, ∀ b, o.convexRegion (engineIntegrate vol) D p.1 b r = .error .typeError := by
    intro r hr b
    obtain ⟨ds, e1, e2, e3⟩ := getInequalities_region (K := ℝ) hc.linear ho.setOrd (hc.regions r hr).1
    have hrv : D.realVars = .ok D.reals := hD.wf.realVars
    have hbv : D.boolVars = .ok D.bools := hD.wf.boolVars
    have ht : o.tryConvex (engineIntegrate vol) D r.1 (pieceTerm p.1) = .error .typeError := by
      simp only [XsddOpts.tryConvex, hrv, e1, hq]
      refine (engine_correct hb hbools (fun d hd => ⟨(e2 d hd).1, fun m hm => ⟨((e2 d hd).2 m hm).1, fun n hn => ?_⟩⟩) (by simp)).2 rfl vol
      obtain ⟨a, ha, hs⟩ := ((e2 d hd).2 m hm).2 n hn
      rw [hreals]; exact hc.vars a ha _ hs
    simp only [XsddOpts.convexRegion, hbv, hkey, XsddOpts.integrateConvex, ht]
  simp only [XsddOpts.convexPiece, h1, h2, h3]
  cases rs with
  | nil => exact absurd rfl hrs
  | cons r rs => simp only [foldE, hone r (by simp) b]

/-- **C78**: with an engine as back-end, XSDD raises for a weight with a piece that is zero. -/
theorem xsdd_engine_zero_piece (ho : o.Sound eval) (vol : EngineObj → Bool → Except PyErr ℝ)
    (hback : o.backend = some (engineIntegrate vol)) (hprune : o.findConflicts = false)
    {e : EngineObj} {w : Formula} (hw : e.weight = some w) (hD : BoxOk e.domain) (hxw : XWeight o e.domain w)
    (hS : XOk e.domain e.support) (hprop : ∃ a ∈ atoms e.support, Proper a)
    {P : Pieces} (hP : splitUp o.simp w = .ok P) {p : PExpr × Formula} (hp : p ∈ P) (hzero : ∀ ρ : String → ℝ, p.1.eval ρ = 0)
    (hsat : ∃ σ : Env ℝ, OffBoundary σ (mkAnd [p.2, e.support]) ∧ truth σ (mkAnd [p.2, e.support]) = true) :
    ∃ err, o.computeVolume e false = .error err := by
  obtain ⟨P', hP'⟩ := hxw.clash
  have hconv := Pieces.splitUp_correct_partial ho.simp w hxw.wt P' hP'
  have hPP : P = P' := by have := hconv.run; rw [hP] at this; cases this; rfl
  subst hPP
  have hmade := splitUp_made (XOk.supportInv (ho.simpOk e.domain)) (V := (· ∈ e.domain.reals)) w
    (fun p hp hr => by
      have := hxw.vars p hp
      rw [hr] at this
      exact mem_reals.mpr this) hxw.conds P hP
  obtain ⟨a, ha, hpa⟩ := hprop
  have hpiece := fun b => convexPiece_zero ho vol hD (XOk.two (hmade p hp).2 hS).1
    (.inr ⟨a, by rw [atoms_mkAnd]; exact mem_atomsList.mpr ⟨e.support, by simp, ha⟩, hpa⟩) (hconv.good.1 p hp) (hmade p hp).1 hzero hsat b
  obtain ⟨err, he⟩ := foldE_error hpiece hp o.alg.zero
  refine ⟨err, ?_⟩
  simp only [XsddOpts.computeVolume, Bool.false_eq_true, if_false, XsddOpts.volumeCore, hw, XsddOpts.baseSupport, hprune, hP,
    XsddOpts.fromPieces, hback, he]

/-- A back-end with 0 for the zero polynomial. -/
noncomputable def patchZero (integ : Domain → List Dict → Dict → Except PyErr ℝ) (D : Domain) (is : List Dict) (p : Dict) : Except PyErr ℝ :=
  if p = [] then .ok 0 else integ D is p

theorem patchZero_exact {vol : EngineObj → Bool → Except PyErr ℝ} (h : EngineExact vol) : ConvexExact (patchZero (engineIntegrate vol)) := by
  intro D is p hD hb hl _ hv
  left
  unfold patchZero
  split
  · rename_i hp
    subst hp
    have : regionFn is [] = fun _ => 0 := by
      funext σ
      simp [regionFn, polyEval]
    rw [volumeOf_real hb, this]
    simp [Domain.restricted]
  · rename_i hp
    obtain ⟨S, w, hS, ha, hw, hvol, heq⟩ := (engine_correct hD hb hl hv).1 hp
    rw [heq vol, ← hvol]
    exact h D S w hb hS ha hw

/-- The zero polynomial is not asked for a piece that is not zero. -/
theorem convexPiece_patch (o : XsddOpts E) (integ : Domain → List Dict → Dict → Except PyErr ℝ) (D : Domain) (base : Formula) (b : E)
    {p : PExpr × Formula} {V : String → Prop} (hg : p.1.Good) (hv : p.1.Over V) (hnz : p.1.NZ) :
    o.convexPiece (patchZero integ) D base b p = o.convexPiece integ D base b p := by
  obtain ⟨d, hk, hd, hwf, hvd, hkey, hsmt, hval⟩ := pieceTerm_spec hg hv
  obtain ⟨w', q, hw', hq, hqw, hqn, hqs⟩ := polyFromSmt_toSmt hd hwf
  rw [hsmt] at hw'; cases hw'
  have hq0 : q ≠ [] := by
    rintro rfl
    rw [hk] at hnz
    obtain ⟨k, c, rfl, hc⟩ := hnz
    have := hqs k
    simp at this
    exact hc this.symm
  have ht : ∀ r, o.tryConvex (patchZero integ) D r (pieceTerm p.1) = o.tryConvex integ D r (pieceTerm p.1) := by
    intro r
    simp only [XsddOpts.tryConvex, hq, patchZero, if_neg hq0]
  have hr : o.convexRegion (patchZero integ) D p.1 = o.convexRegion integ D p.1 := by
    funext b q
    simp only [XsddOpts.convexRegion, hkey, XsddOpts.integrateConvex, ht]
  simp only [XsddOpts.convexPiece, hr]

theorem foldE_congr_mem {α β : Type} {f g : β → α → Except PyErr β} : ∀ {as : List α}, (∀ a ∈ as, ∀ b, f b a = g b a) →
    ∀ b, foldE f b as = foldE g b as := by
  intro as
  induction as with
  | nil => intro _ _; rfl
  | cons a as ih =>
    intro h b
    simp only [foldE, h a (by simp) b]
    cases g b a with
    | error e => rfl
    | ok b' => exact ih (fun x hx => h x (by simp [hx])) b'

/-- **C78**: XSDD with another engine as back-end is right when that engine is right on conjunctions of linear comparisons with
polynomial weights, for every weight that is not zero everywhere.  The other hypotheses are those of C57. -/
theorem xsdd_engine_correct_partial (ho : o.Sound eval) {vol : EngineObj → Bool → Except PyErr ℝ} (hvol : EngineExact vol)
    (hback : o.backend = some (engineIntegrate vol))
    (himp : ∀ a b, o.implies a b = .ok true → ∀ σ : Env ℝ, truth σ a = true → truth σ b = true)
    {e : EngineObj} {w : Formula} (hw : e.weight = some w) (hD : BoxOk e.domain) (hxw : XWeight o e.domain w)
    (hS : XOk e.domain e.support) (hne : ∃ σ : Env ℝ, value σ w ≠ 0) :
    ((∃ b base, e.domain.getBounds = .ok b ∧ o.baseSupport (.and [e.support, b]) w = .ok base) →
      o.computeVolume e true = .ok (e.domain.volumeOf true (density e.support w))) ∧
    ((∃ base, o.baseSupport e.support w = .ok base) → e.domain.confined false (density e.support w) →
      (e.domain.reals = [] ∨ ∃ a ∈ atoms e.support, Proper a) →
      o.computeVolume e false = .ok (e.domain.volumeOf false (density e.support w))) := by
  obtain ⟨P, hP⟩ := hxw.clash
  have hconv := Pieces.splitUp_correct_partial ho.simp w hxw.wt P hP
  have hmade := splitUp_made (XOk.supportInv (ho.simpOk e.domain)) (V := (· ∈ e.domain.reals)) w
    (fun p hp hr => by
      have := hxw.vars p hp
      rw [hr] at this
      exact mem_reals.mpr this) hxw.conds P hconv.run
  have hnz : Pieces.NoZero P := by
    refine (splitUp_zeroAlone w P hconv.run).resolve_right ?_
    rintro ⟨c, rfl⟩
    obtain ⟨σ, hσ⟩ := hne
    refine hσ ((hconv.val σ).symm.trans ?_)
    simp [piecesVal, pieceVal, PExpr.zero, PExpr.eval, polyConst, polyEval]
  let o' : XsddOpts E := { o with backend := some (patchZero (engineIntegrate vol)) }
  have ho' : o'.Sound eval := ⟨ho.mgr, ho.ord, ho.tie, ho.setOrd, ho.alg, ho.realF, ho.toFloat, ho.simp, ho.simpOk⟩
  have hcore : ∀ e' : EngineObj, e'.weight = some w → e'.domain = e.domain → o'.volumeCore e' = o.volumeCore e' := by
    intro e' hw' hd
    have hbase : ∀ S, o'.baseSupport S w = o.baseSupport S w := fun S => rfl
    simp only [XsddOpts.volumeCore, hw', hbase, hd]
    cases o.baseSupport e'.support w with
    | error err => rfl
    | ok base =>
      have hrun : splitUp o'.simp w = .ok P := hconv.run
      simp only [hrun, hconv.run, XsddOpts.fromPieces, hback]
      have : foldE (o'.convexPiece (patchZero (engineIntegrate vol)) e.domain base) o'.alg.zero P =
          foldE (o.convexPiece (engineIntegrate vol) e.domain base) o.alg.zero P :=
        foldE_congr_mem (fun p hp b => convexPiece_patch o (engineIntegrate vol) e.domain base b (hconv.good.1 p hp) (hmade p hp).1 (hnz p hp)) _
      simp only [show o'.backend = some (patchZero (engineIntegrate vol)) from rfl, this]
      rfl
  have hvolEq : ∀ ab, o'.computeVolume e ab = o.computeVolume e ab := by
    intro ab
    simp only [XsddOpts.computeVolume]
    split
    · cases hb : e.domain.getBounds with
      | error err => rfl
      | ok b => exact hcore _ hw rfl
    · exact hcore e hw rfl
  have := computeVolume_correct_partial ho' (patchZero_exact hvol) rfl himp hw hD ⟨hxw.wt, hxw.vars, hxw.conds, hxw.clash⟩ hS
  rw [hvolEq, hvolEq] at this
  exact this

end

/-! ## The hypotheses are met -/

/-- The engines of `sampleOpts` with another engine as back-end. -/
noncomputable def engineOpts (vol : EngineObj → Bool → Except PyErr ℝ) : XsddOpts ((String → ℝ) → ℝ) :=
  { sampleOpts false with backend := some (engineIntegrate vol) }

theorem engineOpts_sound (vol : EngineObj → Bool → Except PyErr ℝ) : (engineOpts vol).Sound fun e ρ => e ρ :=
  let h := sampleOpts_sound false
  ⟨h.mgr, h.ord, h.tie, h.setOrd, h.alg, h.realF, h.toFloat, h.simp, h.simpOk⟩

theorem zeroWeight_ok (vol : EngineObj → Bool → Except PyErr ℝ) : XWeight (engineOpts vol) sampleDomain (.realC 0) where
  wt := by decide
  vars p hp := by simp [syms] at hp
  conds c hc := by simp [condsOf] at hc
  clash := by
    have h : ((pieceW id (Pieces.clashFree id)).walk (.realC 0)).toBool = true := by decide +kernel
    show ∃ P, (pieceW id (Pieces.clashFree id)).walk (.realC 0) = .ok P
    cases hp : (pieceW id (Pieces.clashFree id)).walk (.realC 0) with
    | error e => rw [hp] at h; cases h
    | ok P => exact ⟨P, rfl⟩

/-- **C78**: such a weight is the constant 0: its integral is 0, and XSDD raises, whatever the engine used as back-end. -/
theorem xsdd_engine_zero_weight (vol : EngineObj → Bool → Except PyErr ℝ) :
    ∃ err, (engineOpts vol).computeVolume ⟨sampleDomain, xsddSupport, some (.realC 0)⟩ false = .error err := by
  have hP : splitUp id (.realC 0) = .ok [(.poly [([], 0)], .boolC true)] := by decide +kernel
  refine xsdd_engine_zero_piece (engineOpts_sound vol) vol rfl rfl rfl sampleDomain_box (zeroWeight_ok vol) xsddSupport_ok ?_ hP
    (p := (.poly [([], 0)], .boolC true)) (by simp) (fun ρ => by simp [PExpr.eval, polyEval]) ?_
  · refine ⟨.le (.sym "x" .real) (.realC 1), by simp [xsddSupport, atoms, atomsList], env0,
      ⟨fun _ => false, fun _ => 2⟩, ?_, ?_, ?_, ?_⟩ <;> simp [strictAt, value, truth, env0]
  · refine ⟨⟨fun n => n == "a", fun n => if n = "x" then 2 else 0⟩, ?_, ?_⟩
    · intro a ha
      simp [mkAnd, xsddSupport, atoms, atomsList] at ha
      rcases ha with rfl | rfl <;> simp [strictAt, value]
    · simp [mkAnd, xsddSupport, truth, truthAll, truthAny, value]

/-- An engine that is right. -/
theorem exact_engine : EngineExact fun e ab => .ok (e.domain.volumeOf ab (density e.support (e.weight.getD (.realC 1)))) :=
  fun _ _ _ _ _ _ _ => rfl

/-- The hypotheses of `xsdd_engine_correct_partial` are met. -/
example : (engineOpts fun e ab => .ok (e.domain.volumeOf ab (density e.support (e.weight.getD (.realC 1))))).computeVolume
      ⟨sampleDomain, xsddSupport, some xsddWeight⟩ true = .ok (sampleDomain.volumeOf true (density xsddSupport xsddWeight)) := by
  obtain ⟨b, hb, _⟩ := bounds_ok sampleDomain_box
  have hx := xsddWeight_ok false
  exact (xsdd_engine_correct_partial (engineOpts_sound _) exact_engine rfl (fun a b h => by simpa [engineOpts, sampleOpts] using h)
    (e := ⟨sampleDomain, xsddSupport, some xsddWeight⟩) rfl sampleDomain_box ⟨hx.wt, hx.vars, hx.conds, hx.clash⟩ xsddSupport_ok
    ⟨⟨fun _ => false, fun _ => 1⟩, by simp [xsddWeight, value, truth]⟩).1 ⟨b, _, hb, rfl⟩

end Pywmi
