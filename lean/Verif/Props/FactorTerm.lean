import Verif.Props.FactorCompile

set_option linter.unusedSectionVars false
set_option linter.unusedSimpArgs false

/-!
# The volume of one term of the weight, integrated along the diagram
-/

namespace Pywmi
open Formula Prog MeasureTheory Sdd FactCtx

variable {E : Type}

/-- SPEC: `parse_condition` turns a linear comparison, or the negation of one, into an expression over its variables that has
value one where it holds and zero where it does not, except on the boundary. -/
def ParseExact (parse : Formula → Except PyErr E) (eval : E → (String → ℝ) → ℝ) : Prop :=
  ∀ f l r q, (f = .le l r ∨ f = .lt l r) → linTerm l = true → linTerm r = true → linFromSmt f = .ok q →
    ∀ g, (g = f ∨ g = mkNot f) → ∃ e, parse g = .ok e ∧ Nice (eval e) ∧
      (∀ ρ ρ' : String → ℝ, (∀ v ∈ linVars q, ρ v = ρ' v) → eval e ρ = eval e ρ') ∧
      ∀ σ : Env ℝ, strictAt σ f → eval e σ.r = ind (truth σ g)

/-- SPEC: `integrate` integrates bounded measurable functions that vanish outside a box. -/
def IntegrateExact (integ : Domain → E → List String → Except PyErr E) (eval : E → (String → ℝ) → ℝ) : Prop :=
  ∀ (D : Domain) e vs M, D.WF → vs.Nodup → vs ≠ [] → (∀ v ∈ vs, v ∈ D.reals) → Nice (eval e) → Within M vs.toFinset (eval e) →
    ∃ e', integ D e vs = .ok e' ∧ ∀ ρ, eval e' ρ = margin vs.toFinset (eval e) ρ

/-- SPEC: the assumptions on the external parts of a factorised engine. -/
structure FactOpts.Sound (o : FactOpts E) (eval : E → (String → ℝ) → ℝ) : Prop where
  base : o.toXsddOpts.Sound eval
  trims : ∀ ex, (o.mgr ex).Trims
  tagOrd : ∀ T, (o.tagOrd T).Nodup ∧ (o.tagOrd T).toFinset = T
  vtree : VtreeOk fun L => o.labelVtree L []
  parse : ParseExact o.parse eval
  integrate : IntegrateExact o.integrate eval

/-! ### Groups of a single term -/

theorem groupVars_get {groups : List VarGroup} {i : ℕ} (hi : i < groups.length) : groupVars groups i = (groups[i]).1.toFinset := by
  simp [groupVars, List.getElem?_eq_getElem hi]

theorem groupPoly_get {groups : List VarGroup} {i : ℕ} (hi : i < groups.length) : groupPoly groups i = (groups[i]).2 := by
  simp [groupPoly, List.getElem?_eq_getElem hi]

theorem mem_realGroups {groups : List VarGroup} {i : ℕ} : i ∈ realGroups groups ↔ ∃ hi : i < groups.length, (groups[i]).1 ≠ [] := by
  simp only [realGroups, Finset.mem_filter, Finset.mem_range]
  constructor
  · rintro ⟨hi, h⟩
    exact ⟨hi, by simpa [List.getElem?_eq_getElem hi] using h⟩
  · rintro ⟨hi, h⟩
    exact ⟨hi, by simpa [List.getElem?_eq_getElem hi] using h⟩

/-! ### Literals -/

section
variable {o : FactOpts E} {eval : E → (String → ℝ) → ℝ} {D : Domain} {f : Formula} {L : LiteralInfo} {s : Sdd}

/-- What holds of the expression of a literal. -/
structure LitExpr (eval : E → (String → ℝ) → ℝ) (L : LiteralInfo) (l : ℤ) (e : E) : Prop where
  nice : Nice (eval e)
  own : ∀ ρ ρ' : String → ℝ, (∀ c q, L.at? l.natAbs = some (.atom c) → linFromSmt c = .ok q → ∀ v ∈ linVars q, ρ v = ρ' v) →
    eval e ρ = eval e ρ'
  zero : ∀ c, L.at? l.natAbs = some (.atom c) → ∀ σ : Env ℝ, strictAt σ c → eval e σ.r = ind (truth σ (if l < 0 then mkNot c else c))
  share : ∀ σ : Env ℝ, L.Off σ → eval e σ.r * ((2 : ℝ) ^ (L.nameOf l.natAbs).card)⁻¹ =
    if l < 0 then 1 - L.share σ l.natAbs else L.share σ l.natAbs

theorem litExpr_exists (ho : o.Sound eval) (hc : CompiledAs D f L s) {groups : List VarGroup} {l2g : List (ℤ × List ℕ)}
    {order : Option (List ℕ)} {l : ℤ} (hl : 1 ≤ l.natAbs ∧ l.natAbs ≤ L.literals.length) :
    ∃ e, (o.ctx D L [] groups l2g order).walkLiteral l = .ok (e, L.nameOf l.natAbs) ∧ LitExpr eval L l e := by
  obtain ⟨v, hv⟩ := LiteralInfo.at?_some hl
  have hA := ho.base.alg
  cases v with
  | bool x =>
    refine ⟨o.alg.one, ?_, ?_⟩
    · simp only [walkLiteral, FactOpts.ctx, LiteralInfo.litValue_eq hc.link.1 hv, List.lookup, LiteralInfo.nameOf, hv]
    · have e1 : ∀ ρ, eval o.alg.one ρ = 1 := fun ρ => by simp [Algebra.one, hA.real]
      refine ⟨(Nice.const 1).congr e1, fun ρ ρ' _ => by rw [e1, e1], (fun c h => by rw [hv] at h; cases h), fun σ _ => ?_⟩
      rw [e1]
      simp only [LiteralInfo.nameOf, LiteralInfo.share, hv, Finset.card_singleton]
      split <;> norm_num
  | atom c =>
    obtain ⟨hm, l', r', h1, h2, h3⟩ := hc.lin.atom hc.link hv
    obtain ⟨q, hq, _⟩ := linFromSmt_linear (K := ℝ) h2 h3 h1
    obtain ⟨e, p1, p2, p3, p4⟩ := ho.parse c l' r' q h1 h2 h3 hq (if l < 0 then mkNot c else c) (by split <;> simp)
    refine ⟨e, ?_, p2, ?_, ?_, ?_⟩
    · simp only [walkLiteral, FactOpts.ctx, LiteralInfo.litValue_eq hc.link.1 hv, LiteralInfo.nameOf, hv, p1]
    · exact fun ρ ρ' h => p3 ρ ρ' (h c q hv hq)
    · intro c' hc' σ hσ
      rw [hv] at hc'; cases hc'
      exact p4 σ hσ
    · intro σ hσ
      rw [p4 σ (hσ c hm)]
      simp only [LiteralInfo.nameOf, LiteralInfo.share, hv, Finset.card_empty, pow_zero, inv_one, mul_one]
      split <;> simp [ind_not]

theorem CompiledAs.atomVars (hc : CompiledAs D f L s) {n : ℕ} {c : Formula} {q : Dict} (hv : L.at? n = some (.atom c))
    (hq : linFromSmt c = .ok q) : ∀ v ∈ linVars q, v ∈ D.reals := by
  obtain ⟨hm, l, r, h1, h2, h3⟩ := hc.lin.atom hc.link hv
  intro v hvq
  obtain ⟨p, hp, hvp⟩ := List.mem_flatMap.mp hvq
  have := (linFromSmt_vars (polyTerm_wt l (linTerm_polyTerm l h2)) (polyTerm_wt r (linTerm_polyTerm r h3)) h1).1 q hq p hp v hvp
  exact hc.reals c hm (v, .real) (by rcases h1 with rfl | rfl <;> exact this)

/-- The table of groups, as the integrator reads it. -/
def tableGroups (d : List (ℤ × List ℕ)) (l : ℤ) : Finset ℕ := ((d.lookup l).getD []).toFinset

/-- SPEC: the table of groups of the literals. -/
structure TableOk (L : LiteralInfo) (groups : List VarGroup) (d : List (ℤ × List ℕ)) : Prop where
  atom : ∀ (k : ℤ) c q, L.at? k.natAbs = some (.atom c) → linFromSmt c = .ok q →
    d.lookup k = some ((linVars q).map (groupOf groups))
  none : ∀ k : ℤ, (∀ c, L.at? k.natAbs ≠ some (.atom c)) → d.lookup k = none

theorem TableOk.mem {groups : List VarGroup} {d : List (ℤ × List ℕ)} (h : TableOk L groups d) (hL : L.Linked) (hlin : L.Linear)
    {l : ℤ} {t : ℕ} : t ∈ tableGroups d l ↔ ∃ c q, L.at? l.natAbs = some (.atom c) ∧ linFromSmt c = .ok q ∧ ∃ v ∈ linVars q, groupOf groups v = t := by
  by_cases hv : ∃ c, L.at? l.natAbs = some (.atom c)
  · obtain ⟨c, hv⟩ := hv
    obtain ⟨hm, l', r', h1, h2, h3⟩ := hlin.atom hL hv
    obtain ⟨q, hq, _⟩ := linFromSmt_linear (K := ℝ) h2 h3 h1
    simp only [tableGroups, h.atom l c q hv hq, Option.getD_some, List.mem_toFinset, List.mem_map]
    constructor
    · intro hx; exact ⟨c, q, hv, hq, hx⟩
    · rintro ⟨c', q', hc', hq', hx⟩
      rw [hv] at hc'; cases hc'
      rw [hq] at hq'; cases hq'
      exact hx
  · push Not at hv
    simp only [tableGroups, h.none l hv, Option.getD_none, List.toFinset_nil, Finset.notMem_empty, false_iff]
    rintro ⟨c, q, h1, _⟩
    exact hv c h1

theorem fine_of (ho : o.Sound eval) (hD : D.WF) (hc : CompiledAs D f L s) {t : Dict} (ht : t.length ≤ 1)
    (htv : ∀ m ∈ t, ∀ v ∈ m.1, v ∈ D.reals) {d : List (ℤ × List ℕ)} (hd : TableOk L (varGroups t D.reals) d)
    {order : Option (List ℕ)} (hord : ∀ os, order = some os → os.Nodup ∧ ∀ i, i < (varGroups t D.reals).length → i ∈ os) (M : ℝ) :
    ∃ ex : ℤ → E, (o.ctx D L [] (varGroups t D.reals) d order).Fine eval (tableGroups d) {n | 1 ≤ n ∧ n ≤ L.literals.length}
        (realGroups (varGroups t D.reals)) (groupVars (varGroups t D.reals)) (groupPoly (varGroups t D.reals)) ex L.nameOf M ∧
      ∀ l : ℤ, 1 ≤ l.natAbs ∧ l.natAbs ≤ L.literals.length → LitExpr eval L l (ex l) := by
  obtain ⟨g1, g2, g3, g4, g5, g6⟩ := varGroups_correct (K := ℝ) (d := t) (reals_nodup hD)
  set groups := varGroups t D.reals with hgroups
  have g3' : ∀ v, (∃ g ∈ groups, v ∈ g.1) ↔ v ∈ D.reals := fun v => by
    rw [g3 v]
    constructor
    · rintro (h | ⟨m, hm, h⟩)
      · exact h
      · exact htv m hm v h
    · exact .inl
  have hlit : ∀ l : ℤ, ∃ e, (1 ≤ l.natAbs ∧ l.natAbs ≤ L.literals.length →
      (o.ctx D L [] groups d order).walkLiteral l = .ok (e, L.nameOf l.natAbs) ∧ LitExpr eval L l e) := fun l => by
    by_cases hl : 1 ≤ l.natAbs ∧ l.natAbs ≤ L.literals.length
    · obtain ⟨e, he⟩ := litExpr_exists ho hc hl
      exact ⟨e, fun _ => he⟩
    · exact ⟨o.alg.one, fun h => absurd h hl⟩
  choose ex hex using hlit
  refine ⟨ex, ?_, fun l hl => (hex l hl).2⟩
  have hown : ∀ {l : ℤ} {c q}, L.at? l.natAbs = some (.atom c) → linFromSmt c = .ok q → ∀ v ∈ linVars q,
      groupOf groups v ∈ tableGroups d l ∧ groupOf groups v ∈ realGroups groups ∧ v ∈ groupVars groups (groupOf groups v) :=
    fun {l c q} hv hq v hvq => by
      obtain ⟨_, hl, hm⟩ := groupOf_spec ((g3' v).mpr (hc.atomVars hv hq v hvq))
      refine ⟨(hd.mem hc.link hc.lin).mpr ⟨c, q, hv, hq, v, hvq, rfl⟩, mem_realGroups.mpr ⟨hl, List.ne_nil_of_mem hm⟩, ?_⟩
      rw [groupVars_get hl]; exact List.mem_toFinset.mpr hm
  refine ⟨ho.base.alg, rfl, fun l _ hl => (hex l hl).1, fun l _ hl => (hex l hl).2.nice, fun l _ hl ρ ρ' h => ?_, fun l hl i hi => ?_,
    fun i _ j _ hij => LiteralInfo.nameOf_disjoint hc.link hij, fun i hi => ?_, fun i hi => ?_, fun i hi m hm v hv => ?_,
    fun i hi j hj hij => ?_, fun T _ => ho.tagOrd T, fun os hos => ?_⟩
  · exact (hex l hl).2.own ρ ρ' fun c q hv hq v hvq => by
      obtain ⟨a1, _, a3⟩ := hown hv hq v hvq
      exact h _ a1 v a3
  · obtain ⟨c, q, hv, hq, v, hvq, rfl⟩ := (hd.mem hc.link hc.lin).mp hi
    exact (hown hv hq v hvq).2.1
  · obtain ⟨hi, hne⟩ := mem_realGroups.mp hi
    refine ⟨(groups[i]).1, ?_, fun e he hw => ?_⟩
    · simp only [FactCtx.group, FactOpts.ctx, List.getElem?_eq_getElem hi, groupPoly_get hi]
    · rw [groupVars_get hi] at hw ⊢
      have hlen := g6 ht _ (List.getElem_mem hi)
      refine ho.integrate D e (groups[i]).1 M hD ?_ hne (fun v hv => (g3' v).mp ⟨_, List.getElem_mem hi, hv⟩) he hw
      match hgi : (groups[i]).1, hlen with
      | [], _ => simp
      | [_], _ => simp
  · obtain ⟨hi, hne⟩ := mem_realGroups.mp hi
    rw [groupVars_get hi]
    exact ⟨_, List.mem_toFinset.mpr (List.head_mem hne)⟩
  · obtain ⟨hi, hne⟩ := mem_realGroups.mp hi
    rw [groupPoly_get hi] at hm
    rw [groupVars_get hi]
    exact List.mem_toFinset.mpr (g2 _ (List.getElem_mem hi) m hm v hv)
  · obtain ⟨hi, _⟩ := mem_realGroups.mp hi
    obtain ⟨hj, _⟩ := mem_realGroups.mp hj
    rw [groupVars_get hi, groupVars_get hj, Finset.disjoint_left]
    intro v h1 h2
    exact hij ((groupOf_eq g1 hi (List.mem_toFinset.mp h1)).symm.trans (groupOf_eq g1 hj (List.mem_toFinset.mp h2)))
  · obtain ⟨h1, h2⟩ := hord os hos
    exact ⟨h1, fun i hi => h2 i (mem_realGroups.mp hi).1⟩

theorem fcirc_off (hc : CompiledAs D f L s) {ex : ℤ → E}
    (hex : ∀ l : ℤ, 1 ≤ l.natAbs ∧ l.natAbs ≤ L.literals.length → LitExpr eval L l (ex l)) {σ : Env ℝ} (hσ : L.Off σ) :
    fcirc (shareOf eval ex L.nameOf) s σ.r = s.circuit (L.share σ) := by
  unfold fcirc
  rw [← wcirc_circuit]
  exact wcirc_congr s hc.wf fun l _ hl => (hex l (hc.vars _ hl)).share σ hσ

theorem covered_of (hc : CompiledAs D f L s) {groups : List VarGroup} (hg : groups.Pairwise fun g h => ∀ v ∈ g.1, v ∉ h.1)
    (hgv : ∀ g ∈ groups, ∀ v ∈ g.1, v ∈ D.reals) {d : List (ℤ × List ℕ)} (hd : TableOk L groups d) {ex : ℤ → E}
    (hex : ∀ l : ℤ, 1 ≤ l.natAbs ∧ l.natAbs ≤ L.literals.length → LitExpr eval L l (ex l)) {M : ℝ}
    (hM : ∀ v ∈ D.reals, Wall f v (fun x => M < x) ∧ Wall f v (fun x => x < -M)) {T : Finset ℕ} (hT : T ⊆ realGroups groups) :
    Covered (tableGroups d) (groupVars groups) M (shareOf eval ex L.nameOf) T s := by
  intro i hi v hv
  obtain ⟨hi, _⟩ := mem_realGroups.mp (hT hi)
  rw [groupVars_get hi, List.mem_toFinset] at hv
  have key : ∀ {P : ℝ → Prop}, Wall f v P →
      s.Every (fun l => i ∈ tableGroups d l ∧ ∀ ρ : String → ℝ, P (ρ v) → shareOf eval ex L.nameOf l ρ = 0) := fun {P} hw => by
    obtain ⟨a, l, r, h1, h2, h3, h4, h5, h6, h7⟩ := hw
    obtain ⟨c, n, n1, n2, n3⟩ := hc.bound a l r h1 h4
    have wl := polyTerm_wt l (linTerm_polyTerm l h2)
    have wr := polyTerm_wt r (linTerm_polyTerm r h3)
    refine (every_of_entails hc.wf n3).mono fun k _ hk => ?_
    subst hk
    have hn : L.at? ((n : ℤ).natAbs) = some (.atom c) := by simpa using n2
    refine ⟨?_, fun ρ hρ => ?_⟩
    · obtain ⟨q, hq, hne⟩ := proper_vars h2 h3 h1 h6 n1
      obtain ⟨x, hx⟩ := List.exists_mem_of_ne_nil _ hne
      refine (hd.mem hc.link hc.lin).mpr ⟨c, q, hn, hq, x, hx, ?_⟩
      obtain ⟨p, hp, hxp⟩ := List.mem_flatMap.mp hx
      obtain ⟨_, l', r', k1, k2, k3⟩ := hc.lin.atom hc.link n2
      have hs := (linFromSmt_vars (polyTerm_wt l' (linTerm_polyTerm l' k2)) (polyTerm_wt r' (linTerm_polyTerm r' k3)) k1).1 q hq p hp x hxp
      have hs' := normalizeAtom_syms wl wr h1 n1 (x, .real) (by rcases k1 with rfl | rfl <;> exact hs)
      have hs'' : (x, Ty.real) ∈ syms a := by rcases h1 with rfl | rfl <;> exact hs'
      rw [h5, List.mem_singleton] at hs''
      cases hs''
      exact groupOf_eq hg hi hv
    · obtain ⟨s1, s2⟩ := h7 ⟨fun _ => false, ρ⟩ hρ
      have hne : value (⟨fun _ => false, ρ⟩ : Env ℝ) l ≠ value ⟨fun _ => false, ρ⟩ r := by rcases h1 with rfl | rfl <;> exact s1
      have e := (hex n (by simpa using LiteralInfo.at?_le n2)).zero c hn ⟨fun _ => false, ρ⟩ (normalizeAtom_strict wl wr h1 n1 _ hne)
      rw [if_neg (by omega), (normalizeAtom_sound (K := ℝ) wl wr h1 n1).2 _ hne, s2] at e
      show eval (ex n) ρ * _ = 0
      rw [e]; simp
  exact ⟨key (hM v (hgv _ (List.getElem_mem hi) v hv)).1, key (hM v (hgv _ (List.getElem_mem hi) v hv)).2⟩

theorem volumeOf_margin (hD : D.WF) (hf : XOk D f) (hb : Bounded D f) {w : Formula} {t : Dict} (hw : ∀ σ : Env ℝ, value σ w = polyEval σ.r t)
    (htv : ∀ m ∈ t, ∀ v ∈ m.1, v ∈ D.reals) {F : (String → ℝ) → ℝ}
    (hF : ∀ σ : Env ℝ, OffBoundary σ f →
      2 ^ D.bools.toFinset.card * F σ.r = ((D.bools.toFinset.powerset.filter fun T => truth (σ.withBools T) f = true).card : ℝ)) (ρ : String → ℝ) :
    2 ^ D.bools.toFinset.card * margin D.reals.toFinset (fun ρ => polyEval ρ t * F ρ) ρ = D.volumeOf false (density f w) := by
  have hint : ∀ T : Finset String, Integrable fun x => density f w ((env0.withBools T).setReals D.reals x) := fun T =>
    (hb.tame hD w _).integrable (density_meas f w)
  have hr : D.restricted false (density f w) = density f w := by funext σ; simp [Domain.restricted]
  rw [Domain.volumeOf, hr, wmiOf, sumBools_eq (bools_nodup hD)]
  simp only [intReals]
  rw [← integral_finsetSum _ fun T _ => hint T, margin_reals (reals_nodup hD) _ ⟨fun _ => false, ρ⟩, ← integral_const_mul]
  refine integral_congr_ae ?_
  filter_upwards [hf.off_ae hD ⟨fun _ => false, ρ⟩] with x hx
  set σ := (⟨fun _ => false, ρ⟩ : Env ℝ).setReals D.reals x with hσ
  have agree : ∀ v ∈ D.reals, (env0.setReals D.reals x).r v = σ.r v := fun v hv => by
    obtain ⟨i, hi, he⟩ := List.mem_iff_getElem.mp hv
    have e1 : (env0.setReals D.reals x).r D.reals[(⟨i, hi⟩ : Fin _)] = x ⟨i, hi⟩ := setReals_get (reals_nodup hD) ⟨i, hi⟩
    have e2 : σ.r D.reals[(⟨i, hi⟩ : Fin _)] = x ⟨i, hi⟩ := setReals_get (reals_nodup hD) ⟨i, hi⟩
    simp only [Fin.getElem_fin, he] at e1 e2
    rw [e1, e2]
  have ht : ∀ T : Finset String, density f w ((env0.withBools T).setReals D.reals x) =
      if truth (σ.withBools T) f = true then polyEval σ.r t else 0 := fun T => by
    have e1 : truth ((env0.withBools T).setReals D.reals x) f = truth (σ.withBools T) f := by
      refine truth_congr hf.wt fun p hp => ?_
      have hp' := hf.vars p hp
      obtain ⟨n, ty⟩ := p
      cases ty with
      | bool => rfl
      | real => exact agree n (mem_reals.mpr hp')
    have e2 : polyEval ((env0.withBools T).setReals D.reals x).r t = polyEval σ.r t :=
      polyEval_agreeing fun m hm v hv => agree v (htv m hm v hv)
    rw [density, hw, e1, e2]
  simp only [ht]
  rw [← Finset.sum_filter, Finset.sum_const, nsmul_eq_mul, ← hF σ hx]
  ring

/-- **C49**, one term: the volume computed along the diagram of a bounded formula is the integral of the term over the formula, with a
factor two for every Boolean variable. -/
theorem termVolume_correct (ho : o.Sound eval) (hD : D.WF) (hf : XOk D f) (hb : Bounded D f) (hc : CompiledAs D f L s) (htr : s.Trimmed)
    (hsm : FSmooth L.nameOf s) {t : Dict} (ht : t.length ≤ 1) (htv : ∀ m ∈ t, ∀ v ∈ m.1, v ∈ D.reals) {w : Formula}
    (hw : ∀ σ : Env ℝ, value σ w = polyEval σ.r t) :
    ∃ v, o.termVolume D [] t L s = .ok v ∧ ∀ ρ, eval v ρ = D.volumeOf false (density f w) := by
  obtain ⟨g1, g2, g3, g4, g5, g6⟩ := varGroups_correct (K := ℝ) (d := t) (reals_nodup hD)
  have g3' : ∀ v, (∃ g ∈ varGroups t D.reals, v ∈ g.1) ↔ v ∈ D.reals := fun v => by
    rw [g3 v]
    constructor
    · rintro (h | ⟨m, hm, h⟩)
      · exact h
      · exact htv m hm v h
    · exact .inl
  have hA := ho.base.alg
  obtain ⟨d, d1, d2, d3⟩ := literalGroups_spec hc.link hc.lin (groups := varGroups t D.reals) fun p hp q hq v hv => by
    obtain ⟨l, r, h1, h2, h3⟩ := hc.lin p hp
    obtain ⟨m, hm, hvm⟩ := List.mem_flatMap.mp hv
    have := (linFromSmt_vars (polyTerm_wt l (linTerm_polyTerm l h2)) (polyTerm_wt r (linTerm_polyTerm r h3)) h1).1 q hq m hm v hvm
    exact (g3' v).mpr (hc.reals p.1 (List.mem_map_of_mem hp) (v, .real) (by rcases h1 with e | e <;> rw [e] <;> exact this))
  have hd : TableOk L (varGroups t D.reals) d := ⟨d2, d3⟩
  obtain ⟨os, o1, o2, o3⟩ := groupOrder_spec (reals := D.reals) (groups := varGroups t D.reals) fun g hg v hv => (g3' v).mp ⟨g, hg, hv⟩
  obtain ⟨order, hor, hord⟩ : ∃ order, (if o.ordered then (groupOrder D.reals (varGroups t D.reals)).map some else .ok none) = Except.ok order ∧
      ∀ os, order = some os → os.Nodup ∧ ∀ i, i < (varGroups t D.reals).length → i ∈ os := by
    by_cases h : o.ordered = true
    · refine ⟨some os, by rw [if_pos h, o1]; rfl, fun os' h' => ?_⟩
      cases h'
      exact ⟨o2, o3⟩
    · exact ⟨none, by rw [if_neg h], fun _ h' => by cases h'⟩
  obtain ⟨M, _, hM⟩ := bounded_walls hb
  obtain ⟨ex, hfine, hex⟩ := fine_of ho hD hc ht htv hd hord M
  have hcov : Covered (tableGroups d) (groupVars (varGroups t D.reals)) M (shareOf eval ex L.nameOf) (realGroups (varGroups t D.reals)) s :=
    covered_of hc g1 (fun g hg v hv => (g3' v).mp ⟨g, hg, hv⟩) hd hex hM subset_rfl
  have htags : (o.ctx D L [] (varGroups t D.reals) d order).tagsOf s = s.liveGroups (tableGroups d) := nodeGroups_eq _ htr
  have hsub : s.liveGroups (tableGroups d) ⊆ realGroups (varGroups t D.reals) := fun i hi => by
    obtain ⟨l, l1, l2⟩ := liveGroups_vars hi
    exact hfine.sub l (hc.vars _ l1) l2
  obtain ⟨e, e1, e2⟩ := hfine.recursive hc.wf htr (fun n hn => hc.vars n hn) hsm (s.liveGroups (tableGroups d)) subset_rfl
    (fun i hi => hcov i (hsub hi))
  have e2' : ∀ ρ, eval e ρ = 2 ^ (fnames L.nameOf s).card * groupInt (groupVars (varGroups t D.reals)) (groupPoly (varGroups t D.reals))
      (realGroups (varGroups t D.reals)) (fcirc (shareOf eval ex L.nameOf) s) ρ := fun ρ => by
    rw [e2]
    by_cases hff : s = .ff
    · have hz : fcirc (shareOf eval ex L.nameOf) s = fun _ => 0 := by subst hff; rfl
      rw [hz, groupInt_zero, groupInt_zero]
    · congr 2
      refine Finset.Subset.antisymm hsub fun i hi => ?_
      obtain ⟨v, hv⟩ := hfine.nonempty i hi
      exact Sdd.Every.mem_groups (fun l hl => hl.1) htr hff (hcov i hi v hv).1
  have hnames : fnames L.nameOf s ⊆ D.bools.toFinset := fun x hx => by
    obtain ⟨l, l1, l2⟩ := liveGroups_vars hx
    unfold LiteralInfo.nameOf at l2
    split at l2
    · rename_i y hy
      rw [Finset.mem_singleton] at l2
      subst l2
      exact List.mem_toFinset.mpr (hc.bools _ x hy)
    · simp at l2
  have hcard : D.bools.toFinset.card = D.bools.length := List.toFinset_card_of_nodup (bools_nodup hD)
  have hle : (fnames L.nameOf s).card ≤ D.bools.length := hcard ▸ Finset.card_le_card hnames
  obtain ⟨pw, p1, p2⟩ := (algebra_power hA (o.alg.real 2)).1 (D.bools.length - (fnames L.nameOf s).card)
  rw [Nat.cast_sub hle] at p1
  obtain ⟨cst, c1, c2⟩ := constantGroup_spec hA g5
  have hrv : D.realVars = .ok D.reals := hD.realVars
  have hbv : D.boolVars = .ok D.bools := hD.boolVars
  refine ⟨_, by simp only [FactOpts.termVolume, hrv, hor, d1, htags, e1, hbv, p1, c1]; rfl, fun ρ => ?_⟩
  rw [hA.times, hA.times, c2, e2', p2, hA.real]
  have hV : (realGroups (varGroups t D.reals)).biUnion (groupVars (varGroups t D.reals)) = D.reals.toFinset := by
    ext v
    simp only [Finset.mem_biUnion, List.mem_toFinset, ← g3' v]
    constructor
    · rintro ⟨i, hi, hv⟩
      obtain ⟨hi, _⟩ := mem_realGroups.mp hi
      rw [groupVars_get hi, List.mem_toFinset] at hv
      exact ⟨_, List.getElem_mem hi, hv⟩
    · intro h
      obtain ⟨_, hl, hm⟩ := groupOf_spec h
      exact ⟨_, mem_realGroups.mpr ⟨hl, List.ne_nil_of_mem hm⟩, by rw [groupVars_get hl]; exact List.mem_toFinset.mpr hm⟩
  rw [← volumeOf_margin hD hf hb hw htv (F := fcirc (shareOf eval ex L.nameOf) s) (fun σ hσ => by
    rw [fcirc_off hc hex (hc.off σ hσ), hc.count σ hσ]) ρ, hcard]
  have hconst : Free D.reals.toFinset fun ρ : String → ℝ => ((List.filter (fun g => g.1 = []) (varGroups t D.reals)).map fun g => polyEval ρ g.2).prod :=
    fun ρ ρ' _ => by
      refine congrArg _ (List.map_congr_left fun g hg => polyEval_agreeing fun m hm v hv => ?_)
      obtain ⟨hg1, hg2⟩ := List.mem_filter.mp hg
      have := g2 g hg1 m hm v hv
      rw [of_decide_eq_true hg2] at this
      cases this
  have hmul : margin D.reals.toFinset (fun ρ => polyEval ρ t * fcirc (shareOf eval ex L.nameOf) s ρ) ρ =
      ((List.filter (fun g => g.1 = []) (varGroups t D.reals)).map fun g => polyEval ρ g.2).prod *
        groupInt (groupVars (varGroups t D.reals)) (groupPoly (varGroups t D.reals)) (realGroups (varGroups t D.reals))
          (fcirc (shareOf eval ex L.nameOf) s) ρ := by
    rw [groupInt, hV, ← margin_mul_left hconst]
    refine margin_congr (fun ρ => ?_) ρ
    rw [← mul_assoc, ← g4 ρ, ← prod_groups (varGroups t D.reals) fun g => polyEval ρ g.2]
    congr 2
    refine Finset.prod_congr rfl fun i hi => ?_
    obtain ⟨hi, _⟩ := mem_realGroups.mp hi
    rw [groupPoly_get hi, List.getElem?_eq_getElem hi, Option.getD_some]
  rw [hmul]
  have h2 : ((2 : ℝ) ^ D.bools.length) = 2 ^ (fnames L.nameOf s).card * 2 ^ (D.bools.length - (fnames L.nameOf s).card) := by
    rw [← pow_add]; congr 1; omega
  rw [h2]
  push_cast
  ring

end
end Pywmi
