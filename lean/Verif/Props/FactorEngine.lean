import Verif.Props.FactorTerm
import Verif.Props.XsddEngine

set_option linter.unusedSectionVars false
set_option linter.unusedSimpArgs false

/-!
# C49: the factorised engine
-/

namespace Pywmi
open Formula Prog MeasureTheory Sdd FactCtx

variable {E : Type}

/-! ### Bounded supports -/

theorem Conjunct.trans {a f g : Formula} (h : Conjunct a f) (h' : Conjunct f g) : Conjunct a g := by
  induction h' with
  | here => exact h
  | inside as x hx _ ih => exact .inside as x hx ih

theorem Bounded.of_conjunct {D : Domain} {f g : Formula} (h : Bounded D f) (hc : Conjunct f g) : Bounded D g := fun v hv => by
  obtain ⟨l, u, hl, hu⟩ := h v hv
  exact ⟨l, u, hl.imp (·.trans hc) (·.trans hc), hu.imp (·.trans hc) (·.trans hc)⟩

theorem Conjunct.mem_atoms {a l r f : Formula} (ha : a = .le l r ∨ a = .lt l r) (h : Conjunct a f) : a ∈ atoms f := by
  induction h with
  | here => rcases ha with rfl | rfl <;> simp [atoms]
  | inside as x hx _ ih => exact mem_atomsList.mpr ⟨x, hx, ih⟩

theorem Bounded.proper {D : Domain} {f : Formula} (h : Bounded D f) : D.reals = [] ∨ ∃ a ∈ atoms f, Proper a := by
  by_cases hr : D.reals = []
  · exact .inl hr
  · obtain ⟨v, hv⟩ := List.exists_mem_of_ne_nil _ hr
    obtain ⟨M, _, hM⟩ := bounded_walls h
    obtain ⟨a, l, r, h1, _, _, h4, _, h6, _⟩ := (hM v hv).1
    exact .inr ⟨a, h4.mem_atoms h1, h6⟩

theorem boundList_conj {D : Domain} : ∀ (ds : List (String × Bounds)) (fs : List Formula), D.boundList ds = .ok fs →
    ∀ v l u, (v, ((some l, some u) : Bounds)) ∈ ds → D.varTypes.lookup v = some .real →
      Formula.le (.realC l) (.sym v .real) ∈ fs ∧ Formula.le (.sym v .real) (.realC u) ∈ fs := by
  intro ds
  induction ds with
  | nil => intro fs _ v l u h; cases h
  | cons p ds ih =>
    obtain ⟨x, lb, ub⟩ := p
    intro fs hfs v l u hv ht
    rw [Domain.boundList] at hfs
    cases hs : D.getSymbol x with
    | error e => rw [hs] at hfs; cases hfs
    | ok s =>
      cases hr : D.boundList ds with
      | error e => rw [hs, hr] at hfs; cases hfs
      | ok rest =>
        rw [hs, hr] at hfs
        simp only [Except.ok.injEq] at hfs
        subst hfs
        rcases List.mem_cons.mp hv with h | h
        · cases h
          simp only [Domain.getSymbol, dictGet, ht, Except.ok.injEq] at hs
          subst hs
          simp
        · obtain ⟨h1, h2⟩ := ih rest hr v l u h ht
          simp [h1, h2]

theorem conjunct_mkAnd {as : List Formula} {x : Formula} (hx : x ∈ as) : Conjunct x (mkAnd as) := by
  match as, hx with
  | [a], hx => rw [List.mem_singleton.mp hx]; exact .here
  | a :: b :: as, hx => exact .inside _ x hx .here

theorem bounds_bounded {D : Domain} (hD : BoxOk D) {b : Formula} (h : D.getBounds = .ok b) : Bounded D b := fun v hv => by
  obtain ⟨p, hp, rfl⟩ := List.mem_map.mp ((hD.wf.mem_real v).mpr hv)
  obtain ⟨l, u, hlu, _⟩ := hD.box p.1 p.2 (lookup_mem_nodup hD.wf.domNodup hp)
  simp only [Domain.getBounds] at h
  cases hbl : D.boundList D.varDomains with
  | error e => rw [hbl] at h; cases h
  | ok fs =>
    rw [hbl] at h
    simp only [Except.ok.injEq] at h
    subst h
    obtain ⟨h1, h2⟩ := boundList_conj _ _ hbl p.1 l u (by rw [← hlu]; exact hp) (mem_reals.mp hv).2
    exact ⟨l, u, .inl (conjunct_mkAnd h1), .inl (conjunct_mkAnd h2)⟩

theorem baseSupport_conjunct {o : XsddOpts E} {S w base : Formula} (h : o.baseSupport S w = .ok base) : Conjunct S base := by
  unfold XsddOpts.baseSupport at h
  split at h
  · split at h
    · cases h
    · cases h; exact .inside _ S (by simp) .here
  · cases h; exact .here

/-! ### The terms of the pieces -/

theorem termSupports_good : ∀ (P : Pieces) (Q : List (Dict × List Formula)),
    (∀ p ∈ P, ∃ m, p.1 = .poly [m]) → (P.Pairwise fun p q => p.1.eq q.1 = false) →
    (∀ q ∈ Q, ∀ p ∈ P, p.1 ≠ .poly q.1) →
    ∃ ts, FactOpts.termSupports P Q = .ok ts ∧ ts = Q ++ P.map fun p => (match p.1 with | .poly d => d | .int _ => [], [p.2]) := by
  intro P
  induction P with
  | nil => intro Q _ _ _; exact ⟨Q, rfl, by simp⟩
  | cons p P ih =>
    intro Q hs hp hQ
    obtain ⟨k, c⟩ := p
    obtain ⟨m, hm⟩ := hs (k, c) (by simp)
    simp only at hm
    subst hm
    have hlook : Q.lookup [m] = none := by
      rw [List.lookup_eq_none_iff]
      intro q hq
      have := hQ q hq (.poly [m], c) (by simp)
      simp only [ne_eq, PExpr.poly.injEq] at this
      simpa using this
    have hset : assocSet Q [m] [c] = Q ++ [([m], [c])] := by
      clear ih hs hp hlook
      induction Q with
      | nil => rfl
      | cons q Q ihq =>
        have := hQ q (by simp) (.poly [m], c) (by simp)
        simp only [ne_eq, PExpr.poly.injEq] at this
        rw [assocSet, if_neg fun h => this h.symm, ihq fun q hq => hQ q (by simp [hq])]
        rfl
    obtain ⟨ts, h1, h2⟩ := ih (Q ++ [([m], [c])]) (fun p hp => hs p (by simp [hp])) (List.pairwise_cons.mp hp).2 (by
      intro q hq p' hp'
      rcases List.mem_append.mp hq with h | h
      · exact hQ q h p' (by simp [hp'])
      · rw [List.mem_singleton.mp h]
        intro he
        have := (List.pairwise_cons.mp hp).1 p' hp'
        rw [he] at this
        simp [PExpr.eq, polyEq, List.lookup] at this)
    refine ⟨ts, ?_, by rw [h2]; simp⟩
    rw [FactOpts.termSupports, ← h1]
    simp [getTerms, FactOpts.addSupport, hlook, setUnion, hset]

section
variable {o : FactOpts E} {eval : E → (String → ℝ) → ℝ}

/-- SPEC: the diagrams of the pieces branch on the same Boolean variables in all elements of a node. -/
def FactOpts.SmoothRuns (o : FactOpts E) (base w : Formula) : Prop :=
  ∀ P, splitUp o.simp w = .ok P → ∀ p ∈ P, ∀ g L s, extractLiterals (mkAnd [p.2, base]) = .ok (g, L) →
    compileToSdd o.mgr g L (o.labelVtree L []) = .ok s → FSmooth L.nameOf s

theorem addTerm_correct (ho : o.Sound eval) {D : Domain} (hD : D.WF) {base : Formula} (hb : XOk D base) (hbd : Bounded D base)
    {k : PExpr} {c : Formula} (hc : XOk D c) (hg : k.Good) (hv : k.Over (· ∈ D.reals))
    (hsm : ∀ g L s, extractLiterals (mkAnd [c, base]) = .ok (g, L) →
      compileToSdd o.mgr g L (o.labelVtree L []) = .ok s → FSmooth L.nameOf s) (vol : E) :
    ∃ r, o.addTerm D [] base vol (match k with | .poly d => d | .int _ => [], [c]) = .ok r ∧
      ∀ ρ, eval r ρ = eval vol ρ + D.volumeOf false (density (mkAnd [c, base]) (pieceTerm k)) := by
  have hf := (XOk.two hc hb).1
  have hbf : Bounded D (mkAnd [c, base]) := hbd.of_conjunct (.inside _ base (by simp) .here)
  have hprop : atoms (mkAnd [c, base]) = [] ∨ ∃ a ∈ atoms (mkAnd [c, base]), Proper a :=
    hbf.proper.imp hf.noReals id
  obtain ⟨g, L, s, h1, h2, h3⟩ := compiled_facts ho.base.mgr ho.vtree hf hprop
  obtain ⟨d, rfl, _, _, hd, _, _, hval⟩ := pieceTerm_spec hg hv
  obtain ⟨v, v1, v2⟩ := termVolume_correct ho hD hf hbf h3 (compileToSdd_trimmed ho.trims h2) (hsm g L s h1 h2)
    (t := d) hv.1.le hd hval
  have hso : o.setOrd [c] = [c] := List.perm_singleton.mp (ho.base.setOrd [c])
  refine ⟨o.alg.plus vol v, ?_, fun ρ => by rw [ho.base.alg.plus, v2]⟩
  simp only [FactOpts.addTerm, hso, mkOr, h1, h2, v1]

theorem FactOpts.volumeCore_correct (ho : o.Sound eval) {e : EngineObj} {w base : Formula} (hw : e.weight = some w)
    (hD : e.domain.WF) (hxw : XWeight o.toXsddOpts e.domain w) (hlab : extractLabels w = .ok ([], w))
    (hbase : o.baseSupport e.support w = .ok base) (hb : XOk e.domain base) (hbd : Bounded e.domain base)
    (hsm : o.SmoothRuns base w) :
    o.volumeCore e = .ok (e.domain.volumeOf false (density base w)) := by
  obtain ⟨P, hP⟩ := hxw.clash
  have hconv := Pieces.splitUp_correct_partial ho.base.simp w hxw.wt P hP
  have hmade := splitUp_made (XOk.supportInv (ho.base.simpOk e.domain)) (V := (· ∈ e.domain.reals)) w
    (fun p hp hr => by
      have := hxw.vars p hp
      rw [hr] at this
      exact mem_reals.mpr this) hxw.conds P hconv.run
  obtain ⟨ts, t1, t2⟩ := termSupports_good P [] (fun p hp => by
      obtain ⟨d, hd, _⟩ := hconv.good.1 p hp
      have := (hmade p hp).1
      rw [hd] at this
      obtain ⟨m, hm⟩ := List.length_eq_one_iff.mp this.1
      exact ⟨m, by rw [hd, hm]⟩) hconv.good.2 (by simp)
  rw [List.nil_append] at t2
  subst t2
  have hpiece : ∀ p ∈ P, ∀ b, ∃ b', o.addTerm e.domain [] base b (match p.1 with | .poly d => d | .int _ => [], [p.2]) = .ok b' ∧
      ∀ ρ, eval b' ρ = eval b ρ + e.domain.volumeOf false (density (mkAnd [p.2, base]) (pieceTerm p.1)) := fun p hp b =>
    addTerm_correct ho hD hb hbd (hmade p hp).2 (hconv.good.1 p hp) (hmade p hp).1 (hsm P hconv.run p hp) b
  obtain ⟨r, hr, hev⟩ := foldE_sum (f := fun b (p : PExpr × Formula) => o.addTerm e.domain [] base b (match p.1 with | .poly d => d | .int _ => [], [p.2]))
    _ hpiece o.alg.zero
  have hsum : ∀ ρ, eval r ρ = e.domain.volumeOf false (density base w) := by
    intro ρ
    rw [hev]
    have hz : eval o.alg.zero ρ = 0 := by simp [Algebra.zero, ho.base.alg.real]
    rw [hz, zero_add, ← volumeOf_sum P (fun p => density (mkAnd [p.2, base]) (pieceTerm p.1)) (fun p _ => density_meas _ _)
      (fun p _ β => by
        have : e.domain.restricted false (density (mkAnd [p.2, base]) (pieceTerm p.1)) = density (mkAnd [p.2, base]) (pieceTerm p.1) := by
          funext σ
          simp [Domain.restricted]
        rw [this]
        exact Bounded.tame hD (hbd.of_conjunct (.inside _ base (by simp) .here)) _ _)]
    congr 1
    funext σ
    rw [density, ← hconv.val σ, piecesVal]
    by_cases h : truth σ base = true
    · rw [if_pos h]
      congr 1
      refine List.map_congr_left fun p hp => ?_
      obtain ⟨_, _, _, _, _, _, _, hval⟩ := pieceTerm_spec (hconv.good.1 p hp) (hmade p hp).1
      rw [density, hval, pieceVal, truth_mkAnd_pair, h, Bool.and_true]
    · rw [if_neg h]
      refine List.sum_eq_zero fun x hx => ?_
      obtain ⟨p, hp, rfl⟩ := List.mem_map.mp hx
      rw [density, truth_mkAnd_pair, if_neg (by simp [h])]
  have hfold : ∀ (b : E) (P : Pieces), foldE (o.addTerm e.domain [] base) b
      (P.map fun p => (match p.1 with | .poly d => d | .int _ => [], [p.2])) =
      foldE (fun b p => o.addTerm e.domain [] base b (match p.1 with | .poly d => d | .int _ => [], [p.2])) b P := by
    intro b P
    induction P generalizing b with
    | nil => rfl
    | cons p P ih =>
      rw [List.map_cons, foldE, foldE]
      cases o.addTerm e.domain [] base b (match p.1 with | .poly d => d | .int _ => [], [p.2]) with
      | error e => rfl
      | ok b => exact ih b
  simp only [FactOpts.volumeCore, hw, hbase, hlab, hconv.run, FactOpts.fromTerms, t1, hfold, hr]
  exact ho.base.toFloat _ _ hsum

/-- C49.  The factorised engine computes the volume of the density: with the bounds of the domain added, inside the box, and
without them, over the whole space when every real variable has constant bounds among the conjuncts of the support.  This
holds for every order of the tags, of the groups, of the sets and of ties, and for every vtree that lists each literal once.
Excluded: weights with a label or a clash (C46), equalities and comparisons of equal terms, and diagrams whose nodes have
elements with different Boolean variables (`SmoothRuns`; the result is wrong there, see `FactorExamples`).  The full statement
has no such exclusions. -/
theorem FactOpts.computeVolume_correct_partial (ho : o.Sound eval)
    (himp : ∀ a b, o.implies a b = .ok true → ∀ σ : Env ℝ, truth σ a = true → truth σ b = true)
    {e : EngineObj} {w : Formula} (hw : e.weight = some w) (hD : BoxOk e.domain) (hxw : XWeight o.toXsddOpts e.domain w)
    (hlab : extractLabels w = .ok ([], w)) (hS : XOk e.domain e.support) :
    (∀ b base, e.domain.getBounds = .ok b → o.baseSupport (.and [e.support, b]) w = .ok base → o.SmoothRuns base w →
      o.computeVolume e true = .ok (e.domain.volumeOf true (density e.support w))) ∧
    (∀ base, o.baseSupport e.support w = .ok base → Bounded e.domain e.support → o.SmoothRuns base w →
      o.computeVolume e false = .ok (e.domain.volumeOf false (density e.support w))) := by
  constructor
  · intro b base hb hbase hsm
    obtain ⟨b', hb', hxb, htb, _⟩ := bounds_ok hD
    rw [hb] at hb'; cases hb'
    obtain ⟨k1, k2, _⟩ := baseSupport_correct ho.base.setOrd himp (XOk.two hS hxb).1 hxw.wt hbase
    simp only [FactOpts.computeVolume, if_true, hb]
    rw [FactOpts.volumeCore_correct ho (e := e.withConstraint b) (base := base) hw hD.wf hxw hlab hbase k1
      ((bounds_bounded hD hb).of_conjunct ((Conjunct.inside _ b (by simp) .here).trans (baseSupport_conjunct hbase))) hsm]
    show Except.ok (e.domain.volumeOf false (density base w)) = _
    congr 1
    rw [Domain.volumeOf, Domain.volumeOf]
    congr 1
    funext σ
    have := k2 σ
    rw [truth_mkAnd_pair] at this
    unfold Domain.restricted
    by_cases hσ : e.domain.inBox σ
    · rw [if_pos (by simp), if_pos fun _ => hσ]
      rw [(htb σ).mpr hσ, Bool.and_true] at this
      simp only [density, this]
    · rw [if_pos (by simp), if_neg fun h => hσ (h rfl)]
      have hf : truth σ b = false := by
        cases h : truth σ b
        · rfl
        · exact absurd ((htb σ).mp h) hσ
      rw [hf, Bool.and_false] at this
      simp only [density, this]
      rfl
  · intro base hbase hbd hsm
    obtain ⟨k1, k2, _⟩ := baseSupport_correct ho.base.setOrd himp hS hxw.wt hbase
    simp only [FactOpts.computeVolume, Bool.false_eq_true, if_false]
    rw [FactOpts.volumeCore_correct ho hw hD.wf hxw hlab hbase k1 (hbd.of_conjunct (baseSupport_conjunct hbase)) hsm]
    have hden : density base w = density e.support w := by funext σ; simp only [density, k2]
    rw [hden]

/-- With at most one Boolean variable every diagram is smooth. -/
theorem FactOpts.smoothRuns_of_bools (ho : o.Sound eval) {D : Domain} {w base : Formula} (hxw : XWeight o.toXsddOpts D w)
    (hb : XOk D base) (hbd : Bounded D base) (h1 : D.bools.length ≤ 1) : o.SmoothRuns base w := by
  intro P hP p hp g L s he hs
  have hmade := splitUp_made (XOk.supportInv (ho.base.simpOk D)) (V := (· ∈ D.reals)) w
    (fun p hp hr => by
      have := hxw.vars p hp
      rw [hr] at this
      exact mem_reals.mpr this) hxw.conds P hP
  have hf := (XOk.two (hmade p hp).2 hb).1
  have hbf : Bounded D (mkAnd [p.2, base]) := hbd.of_conjunct (.inside _ base (by simp) .here)
  obtain ⟨g', L', s', e1, e2, e3⟩ := compiled_facts ho.base.mgr ho.vtree hf (hbf.proper.imp hf.noReals id)
  rw [he] at e1; cases e1
  rw [hs] at e2; cases e2
  obtain ⟨x, hx⟩ : ∃ x, ∀ y ∈ D.bools, y = x := by
    match hl : D.bools, h1 with
    | [], _ => exact ⟨"", by simp⟩
    | [x], _ => exact ⟨x, by simp⟩
  refine fsmooth_of_card (x := x) fun n _ => ?_
  unfold LiteralInfo.nameOf
  split
  · rename_i y hy
    rw [hx y (e3.bools n y hy)]
  · simp

/-- C49, for domains with at most one Boolean variable: no condition on the diagrams. -/
theorem FactOpts.computeVolume_oneBool_partial (ho : o.Sound eval)
    (himp : ∀ a b, o.implies a b = .ok true → ∀ σ : Env ℝ, truth σ a = true → truth σ b = true)
    {e : EngineObj} {w : Formula} (hw : e.weight = some w) (hD : BoxOk e.domain) (hxw : XWeight o.toXsddOpts e.domain w)
    (hlab : extractLabels w = .ok ([], w)) (hS : XOk e.domain e.support) (h1 : e.domain.bools.length ≤ 1) :
    ((∃ b base, e.domain.getBounds = .ok b ∧ o.baseSupport (.and [e.support, b]) w = .ok base) →
      o.computeVolume e true = .ok (e.domain.volumeOf true (density e.support w))) ∧
    ((∃ base, o.baseSupport e.support w = .ok base) → Bounded e.domain e.support →
      o.computeVolume e false = .ok (e.domain.volumeOf false (density e.support w))) := by
  obtain ⟨c1, c2⟩ := FactOpts.computeVolume_correct_partial ho himp hw hD hxw hlab hS
  constructor
  · rintro ⟨b, base, hb, hbase⟩
    obtain ⟨b', hb', hxb, _⟩ := bounds_ok hD
    rw [hb] at hb'; cases hb'
    obtain ⟨k1, _⟩ := baseSupport_correct ho.base.setOrd himp (XOk.two hS hxb).1 hxw.wt hbase
    exact c1 b base hb hbase (FactOpts.smoothRuns_of_bools ho hxw k1
      ((bounds_bounded hD hb).of_conjunct ((Conjunct.inside _ b (by simp) .here).trans (baseSupport_conjunct hbase))) h1)
  · rintro ⟨base, hbase⟩ hbd
    obtain ⟨k1, _⟩ := baseSupport_correct ho.base.setOrd himp hS hxw.wt hbase
    exact c2 base hbase hbd (FactOpts.smoothRuns_of_bools ho hxw k1 (hbd.of_conjunct (baseSupport_conjunct hbase)) h1)

end

end Pywmi
