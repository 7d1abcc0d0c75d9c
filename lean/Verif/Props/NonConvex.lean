import Verif.Props.FactorExamples

set_option linter.unusedSectionVars false
set_option linter.unusedSimpArgs false

/-!
# C42, C57: the diagram engine without a convex back-end
-/

namespace Pywmi
open Formula Prog MeasureTheory Sdd FactCtx

variable {E : Type} {eval : E → (String → ℝ) → ℝ}

/-- What the semiring over expressions computes, at every point. -/
theorem nonConvex_fcirc {A : Algebra E} (hA : A.Sound eval) {L : LiteralInfo} (hL : L.Linked) {ex : ℤ → E}
    (hex : ∀ l : ℤ, 1 ≤ l.natAbs ∧ l.natAbs ≤ L.literals.length → nonConvexWeight A L l = .ok (ex l, L.nameOf l.natAbs))
    {s : Sdd} (hs : s.WF) (hv : ∀ n ∈ s.vars, 1 ≤ n ∧ n ≤ L.literals.length) :
    ∃ r, (nonConvexSemi A L).amc s = .ok r ∧ r.2 = L.names s.vars ∧
      (Smooth L s → ∀ ρ, eval r.1 ρ = 2 ^ r.2.card * fcirc (shareOf eval ex L.nameOf) s ρ) := by
  have hplus : ∃ plus : E × Finset String → E × Finset String → E × Finset String,
      ∀ a b, smoothPlus A a b = .ok (plus a b) ∧ (plus a b).2 = a.2 ∪ b.2 ∧
        ((a.2.card ≠ b.2.card ∨ a.2 = b.2) → ∀ (ρ : String → ℝ) (x y : ℝ), eval a.1 ρ = 2 ^ a.2.card * x →
          eval b.1 ρ = 2 ^ b.2.card * y → eval (plus a b).1 ρ = 2 ^ (plus a b).2.card * (x + y)) := by
    have h := fun a b => smoothPlus_spec hA a b
    exact ⟨fun a b => (h a b).choose, fun a b => (h a b).choose_spec⟩
  obtain ⟨plus, hplus⟩ := hplus
  refine SddWalker.walk_rel (w := (nonConvexSemi A L).walker)
    (P := fun s r => r.2 = L.names s.vars ∧
      (Smooth L s → ∀ ρ, eval r.1 ρ = 2 ^ r.2.card * fcirc (shareOf eval ex L.nameOf) s ρ))
    (fun n => 1 ≤ n ∧ n ≤ L.literals.length) ?_ ?_ ?_ ?_ hs hv
  · exact ⟨_, rfl, rfl, fun _ ρ => by simp [nonConvexSemi, Algebra.one, hA.real, fcirc, wcirc]⟩
  · exact ⟨_, rfl, rfl, fun _ ρ => by simp [nonConvexSemi, Algebra.zero, hA.real, fcirc, wcirc]⟩
  · intro l h0 hl
    refine ⟨_, hex l hl, by simp [LiteralInfo.names, Sdd.vars], fun _ ρ => ?_⟩
    simp only [fcirc, wcirc, shareOf]
    field_simp
  · intro es rs hwf hv' hf
    clear hv'
    refine ⟨_, Semi.combine_total (S := nonConvexSemi A L) (times := fun a b => (A.times a.1 b.1, a.2 ∪ b.2)) (plus := plus)
      (fun _ _ => rfl) (fun a b => (hplus a b).1) rs, ?_⟩
    have hdis : ∀ e ∈ es, Disjoint e.1.vars e.2.vars := by cases hwf with | dec _ _ _ h _ => exact h
    -- the products
    have hprod : List.Forall₂ (fun (e : Sdd × Sdd) (x : E × Finset String) => x.2 = L.names (e.1.vars ∪ e.2.vars) ∧
        (Smooth L e.1 → Smooth L e.2 → ∀ ρ,
          eval x.1 ρ = 2 ^ x.2.card * (fcirc (shareOf eval ex L.nameOf) e.1 ρ * fcirc (shareOf eval ex L.nameOf) e.2 ρ))) es
        (rs.map fun p => (A.times p.1.1 p.2.1, p.1.2 ∪ p.2.2)) := by
      clear hwf
      induction hf with
      | nil => exact .nil
      | @cons e r es rs h hf ih =>
        obtain ⟨⟨p1, p2⟩, s1, s2⟩ := h
        refine .cons ⟨by simp only; rw [p1, s1, LiteralInfo.names_union], fun q1 q2 ρ => ?_⟩ (ih fun x hx => hdis x (by simp [hx]))
        have hd : Disjoint r.1.2 r.2.2 := by
          rw [p1, s1]; exact LiteralInfo.names_disjoint hL (hdis e (by simp))
        simp only [hA.times, p2 q1 ρ, s2 q2 ρ, Finset.card_union_of_disjoint hd, pow_add]
        ring
    -- the sums
    have hsum : ∀ (xs : List (E × Finset String)) (es : List (Sdd × Sdd)) (pre : List (Sdd × Sdd)) (acc : E × Finset String),
        List.Forall₂ (fun (e : Sdd × Sdd) (x : E × Finset String) => x.2 = L.names (e.1.vars ∪ e.2.vars) ∧
        (Smooth L e.1 → Smooth L e.2 → ∀ ρ,
          eval x.1 ρ = 2 ^ x.2.card * (fcirc (shareOf eval ex L.nameOf) e.1 ρ * fcirc (shareOf eval ex L.nameOf) e.2 ρ))) es xs → pre ≠ [] →
        acc.2 = L.names (Sdd.varsList pre) →
        (Smooth L (.dec (pre ++ es)) → ∀ ρ,
          eval acc.1 ρ = 2 ^ acc.2.card * fcirc (shareOf eval ex L.nameOf) (.dec pre) ρ) →
        (xs.foldl plus acc).2 = L.names (Sdd.varsList (pre ++ es)) ∧
        (Smooth L (.dec (pre ++ es)) → ∀ ρ,
          eval (xs.foldl plus acc).1 ρ = 2 ^ (xs.foldl plus acc).2.card * fcirc (shareOf eval ex L.nameOf) (.dec (pre ++ es)) ρ) := by
      intro xs
      induction xs with
      | nil =>
        intro es pre acc hf _ h1 h2
        cases hf
        rw [List.append_nil] at h2 ⊢
        exact ⟨h1, h2⟩
      | cons x xs ih =>
        intro es pre acc hf hne h1 h2
        cases hf with
        | @cons e _ es _ h hf =>
          obtain ⟨hp1, hp2, hp3⟩ := hplus acc x
          have e1 : pre ++ e :: es = (pre ++ [e]) ++ es := by simp
          rw [e1] at h2 ⊢
          refine ih es (pre ++ [e]) (plus acc x) hf (by simp) ?_ fun hsm ρ => ?_
          · rw [hp2, h1, h.1, varsList_append, LiteralInfo.names_union L (Sdd.varsList pre)]
            simp [Sdd.varsList]
          · have hsm' := hsm
            cases hsm with
            | dec _ q1 q2 q3 =>
              have hor := q3 pre e es (by simp) hne
              rw [← h1, ← h.1] at hor
              rw [hp3 hor ρ _ _ (h2 hsm' ρ) (h.2 (q1 e (by simp)) (q2 e (by simp)) ρ)]
              congr 1
              simp [fcirc_dec]
    generalize (rs.map fun p => (A.times p.1.1 p.2.1, p.1.2 ∪ p.2.2)) = ys at hprod
    clear hf hwf hdis
    cases hprod with
    | nil => exact ⟨by simp [Semi.total, nonConvexSemi, Sdd.vars, Sdd.varsList, LiteralInfo.names],
        fun _ ρ => by simp [Semi.total, nonConvexSemi, Algebra.zero, hA.real, fcirc, wcirc, wcircSum]⟩
    | @cons e x es xs h hrest =>
      have := hsum xs es [e] x hrest (by simp) (by rw [h.1]; simp [Sdd.varsList]) fun hsm ρ => by
        cases hsm with
        | dec _ q1 q2 q3 =>
          rw [h.2 (q1 e (by simp)) (q2 e (by simp)) ρ]
          simp [fcirc, wcirc, wcircSum]
      exact this



/-- With at most one Boolean variable there is nothing to smooth. -/
theorem smooth_of_card {L : LiteralInfo} {s : Sdd} {x : String} (h : ∀ n ∈ s.vars, L.nameOf n ⊆ {x}) : Smooth L s := by
  induction s using Sdd.induct with
  | tt => exact .tt
  | ff => exact .ff
  | lit l => exact .lit l
  | dec es ih =>
    have hsub : ∀ V : Finset ℕ, V ⊆ (Sdd.dec es).vars → L.names V = ∅ ∨ L.names V = {x} := fun V hV =>
      Finset.subset_singleton_iff.mp fun y hy => by
        obtain ⟨n, hn, hy⟩ := Finset.mem_biUnion.mp hy
        exact h n (hV hn) hy
    refine .dec es (fun e he => (ih e he).1 fun n hn => h n ((vars_mem he).1 hn)) (fun e he => (ih e he).2 fun n hn => h n ((vars_mem he).2 hn))
      fun pre e post hes _ => ?_
    have he : e ∈ es := by rw [hes]; simp
    have h1 := hsub (Sdd.varsList pre) (by rw [hes]; simp only [Sdd.vars, varsList_append]; exact Finset.subset_union_left)
    have h2 := hsub (e.1.vars ∪ e.2.vars) (Finset.union_subset (vars_mem he).1 (vars_mem he).2)
    rcases h1 with h1 | h1 <;> rcases h2 with h2 | h2 <;> rw [h1, h2] <;> simp

section
variable {D : Domain} {f : Formula} {L : LiteralInfo} {s : Sdd}

theorem nonConvexWeight_exists {A : Algebra E} (hA : A.Sound eval) (hc : CompiledAs D f L s) {l : ℤ}
    (hl : 1 ≤ l.natAbs ∧ l.natAbs ≤ L.literals.length) :
    ∃ e, nonConvexWeight A L l = .ok (e, L.nameOf l.natAbs) ∧ LitExpr eval L l e := by
  obtain ⟨v, hv⟩ := LiteralInfo.at?_some hl
  cases v with
  | bool x =>
    refine ⟨A.one, ?_, ?_⟩
    · simp only [nonConvexWeight, LiteralInfo.litValue_eq hc.link.1 hv, LiteralInfo.nameOf, hv]
    · have e1 : ∀ ρ, eval A.one ρ = 1 := fun ρ => by simp [Algebra.one, hA.real]
      refine ⟨(Nice.const 1).congr e1, fun ρ ρ' _ => by rw [e1, e1], (fun c h => by rw [hv] at h; cases h), fun σ _ => ?_⟩
      rw [e1]
      simp only [LiteralInfo.nameOf, LiteralInfo.share, hv, Finset.card_singleton]
      split <;> norm_num
  | atom c =>
    obtain ⟨hm, l', r', h1, h2, h3⟩ := hc.lin.atom hc.link hv
    obtain ⟨q, hq, _⟩ := linFromSmt_linear (K := ℝ) h2 h3 h1
    obtain ⟨e, p1, p2, p3, p4⟩ := defaultParse_exact hA c l' r' q h1 h2 h3 hq (if l < 0 then mkNot c else c) (by split <;> simp)
    refine ⟨e, ?_, p2, ?_, ?_, ?_⟩
    · unfold defaultParse at p1
      simp only [nonConvexWeight, LiteralInfo.litValue_eq hc.link.1 hv, LiteralInfo.nameOf, hv]
      split at p1
      · cases p1
      · rename_i d hd
        cases p1
        rw [hd]
    · exact fun ρ ρ' h => p3 ρ ρ' (h c q hv hq)
    · intro c' hc' σ hσ
      rw [hv] at hc'; cases hc'
      exact p4 σ hσ
    · intro σ hσ
      rw [p4 σ (hσ c hm)]
      simp only [LiteralInfo.nameOf, LiteralInfo.share, hv, Finset.card_empty, pow_zero, inv_one, mul_one]
      split <;> simp [ind_not]

theorem fcirc_within (hc : CompiledAs D f L s) {ex : ℤ → E}
    (hex : ∀ l : ℤ, 1 ≤ l.natAbs ∧ l.natAbs ≤ L.literals.length → LitExpr eval L l (ex l)) {M : ℝ}
    (hM : ∀ v ∈ D.reals, Wall f v (fun x => M < x) ∧ Wall f v (fun x => x < -M)) :
    Within M D.reals.toFinset (fcirc (shareOf eval ex L.nameOf) s) := by
  have key : ∀ {v : String} {P : ℝ → Prop}, Wall f v P →
      s.Every (fun l => ∀ ρ : String → ℝ, P (ρ v) → shareOf eval ex L.nameOf l ρ = 0) := fun {v P} hw => by
    obtain ⟨a, l, r, h1, h2, h3, h4, h5, h6, h7⟩ := hw
    obtain ⟨c, n, n1, n2, n3⟩ := hc.bound a l r h1 h4
    have wl := polyTerm_wt l (linTerm_polyTerm l h2)
    have wr := polyTerm_wt r (linTerm_polyTerm r h3)
    refine (every_of_entails hc.wf n3).mono fun k _ hk => ?_
    subst hk
    intro ρ hρ
    have hn : L.at? ((n : ℤ).natAbs) = some (.atom c) := by simpa using n2
    obtain ⟨s1, s2⟩ := h7 ⟨fun _ => false, ρ⟩ hρ
    have hne : value (⟨fun _ => false, ρ⟩ : Env ℝ) l ≠ value ⟨fun _ => false, ρ⟩ r := by rcases h1 with rfl | rfl <;> exact s1
    have e := (hex n (by simpa using LiteralInfo.at?_le n2)).zero c hn ⟨fun _ => false, ρ⟩ (normalizeAtom_strict wl wr h1 n1 _ hne)
    rw [if_neg (by omega), (normalizeAtom_sound (K := ℝ) wl wr h1 n1).2 _ hne, s2] at e
    show eval (ex n) ρ * _ = 0
    rw [e]; simp
  intro ρ v hv hm
  rw [List.mem_toFinset] at hv
  rcases lt_abs.mp hm with hm | hm
  · exact wcirc_zero ((key (hM v hv).1).mono fun l _ hl => hl ρ hm)
  · exact wcirc_zero ((key (hM v hv).2).mono fun l _ hl => hl ρ (by linarith))

/-- What is integrated for one piece, and the result. -/
theorem nonConvexPiece_facts {o : XsddOpts E} (ho : o.Sound eval) (hvt : VtreeOk o.vtree)
    (hD : D.WF) {base : Formula} (hb : XOk D base) (hbd : Bounded D base) {p : PExpr × Formula}
    (hx : XOk D p.2) (hg : p.1.Good) (hv : p.1.Over (· ∈ D.reals))
    (hsm : ∀ g L s, extractLiterals (mkAnd [p.2, base]) = .ok (g, L) → compileToSdd o.mgr g L (o.vtree L) = .ok s → Smooth L s) :
    ∃ g L s d r, ∃ M : ℝ, extractLiterals (mkAnd [p.2, base]) = .ok (g, L) ∧ compileToSdd o.mgr g L (o.vtree L) = .ok s ∧
      XOk D (mkAnd [p.2, base]) ∧ CompiledAs D (mkAnd [p.2, base]) L s ∧ p.1 = .poly d ∧ (nonConvexSemi o.alg L).amc s = .ok r ∧
      r.2.card ≤ D.bools.length ∧ Nice (fun ρ => eval r.1 ρ * polyEval ρ d) ∧
      Within M D.reals.toFinset (fun ρ => eval r.1 ρ * polyEval ρ d) ∧
      ∀ ρ, margin D.reals.toFinset (fun ρ => eval r.1 ρ * polyEval ρ d) ρ * 2 ^ (D.bools.length - r.2.card) =
        D.volumeOf false (density (mkAnd [p.2, base]) (pieceTerm p.1)) := by
  obtain ⟨k, c⟩ := p
  have hf := (XOk.two hx hb).1
  have hbf : Bounded D (mkAnd [c, base]) := hbd.of_conjunct (.inside _ base (by simp) .here)
  obtain ⟨g, L, s, h1, h2, h3⟩ := compiled_facts ho.mgr hvt hf (hbf.proper.imp hf.noReals id)
  obtain ⟨d, rfl, _, _, hd, _, _, hval⟩ := pieceTerm_spec hg hv
  have hA := ho.alg
  have hexx : ∀ l : ℤ, ∃ e, (1 ≤ l.natAbs ∧ l.natAbs ≤ L.literals.length) →
      nonConvexWeight o.alg L l = .ok (e, L.nameOf l.natAbs) ∧ LitExpr eval L l e := fun l => by
    by_cases hl : 1 ≤ l.natAbs ∧ l.natAbs ≤ L.literals.length
    · obtain ⟨e, he⟩ := nonConvexWeight_exists hA h3 hl
      exact ⟨e, fun _ => he⟩
    · exact ⟨o.alg.one, fun h => absurd h hl⟩
  choose ex hex using hexx
  obtain ⟨r, r1, r2, r3⟩ := nonConvex_fcirc hA h3.link (fun l hl => (hex l hl).1) h3.wf h3.vars
  have r3 := r3 (hsm g L s h1 h2)
  obtain ⟨M, _, hM⟩ := bounded_walls hbf
  have hwin := fcirc_within h3 (fun l hl => (hex l hl).2) hM
  have hnice : Nice (fcirc (shareOf eval ex L.nameOf) s) := fcirc_nice h3.wf fun l _ hl =>
    ((hex l (h3.vars _ hl)).2.nice).mul (Nice.const _)
  have hev : ∀ ρ, eval r.1 ρ * polyEval ρ d = 2 ^ r.2.card * (polyEval ρ d * fcirc (shareOf eval ex L.nameOf) s ρ) := fun ρ => by
    rw [r3]
    ring
  have hnames : L.names s.vars ⊆ D.bools.toFinset := fun x hx => by
    obtain ⟨n, _, hn⟩ := Finset.mem_biUnion.mp hx
    unfold LiteralInfo.nameOf at hn
    split at hn
    · rename_i y hy
      rw [Finset.mem_singleton] at hn
      subst hn
      exact List.mem_toFinset.mpr (h3.bools _ x hy)
    · simp at hn
  have hcard : D.bools.toFinset.card = D.bools.length := List.toFinset_card_of_nodup (bools_nodup hD)
  have hle : r.2.card ≤ D.bools.length := by rw [r2]; exact hcard ▸ Finset.card_le_card hnames
  refine ⟨g, L, s, d, r, M, h1, h2, hf, h3, rfl, r1, hle, ((Nice.const _).mul ((polyEval_nice d).mul hnice)).congr hev,
    fun ρ x hx hm => by simp only; rw [hev, hwin ρ x hx hm]; ring, fun ρ => ?_⟩
  rw [← volumeOf_margin hD hf hbf hval hd (F := fcirc (shareOf eval ex L.nameOf) s) (fun σ hσ => by
    rw [fcirc_off h3 (fun l hl => (hex l hl).2) (h3.off σ hσ), h3.count σ hσ]) ρ, hcard]
  rw [margin_congr hev, margin_mul_left (Free.const _)]
  have h2 : ((2 : ℝ) ^ D.bools.length) = 2 ^ r.2.card * 2 ^ (D.bools.length - r.2.card) := by
    rw [← pow_add]; congr 1; omega
  rw [h2]
  ring

/-- The volume of one piece. -/
theorem nonConvexPiece_correct {o : XsddOpts E} (ho : o.Sound eval) (hvt : VtreeOk o.vtree) (hint : IntegrateExact o.integrate eval)
    (hD : D.WF) (hne : D.reals ≠ []) {base : Formula} (hb : XOk D base) (hbd : Bounded D base) {p : PExpr × Formula}
    (hx : XOk D p.2) (hg : p.1.Good) (hv : p.1.Over (· ∈ D.reals))
    (hsm : ∀ g L s, extractLiterals (mkAnd [p.2, base]) = .ok (g, L) → compileToSdd o.mgr g L (o.vtree L) = .ok s → Smooth L s) (vol : E) :
    ∃ r, o.nonConvexPiece D base vol p = .ok r ∧
      ∀ ρ, eval r ρ = eval vol ρ + D.volumeOf false (density (mkAnd [p.2, base]) (pieceTerm p.1)) := by
  obtain ⟨g, L, s, d, r, M, h1, h2, _, _, hp, r1, hle, hn, hw, hm⟩ := nonConvexPiece_facts ho hvt hD hb hbd hx hg hv hsm
  have hA := ho.alg
  have hev : ∀ ρ, eval (o.alg.times r.1 (polyToExpr o.alg d)) ρ = eval r.1 ρ * polyEval ρ d := fun ρ => by
    rw [hA.times, polyToExpr_eval hA]
  obtain ⟨v, v1, v2⟩ := hint D (o.alg.times r.1 (polyToExpr o.alg d)) D.reals M hD (reals_nodup hD) hne (fun _ h => h)
    (hn.congr hev) (fun ρ x hx hm => by rw [hev]; exact hw ρ x hx hm)
  obtain ⟨pw, p1, p2⟩ := (algebra_power hA (o.alg.real 2)).1 (D.bools.length - r.2.card)
  rw [Nat.cast_sub hle] at p1
  have hrv : D.realVars = .ok D.reals := hD.realVars
  have hbv : D.boolVars = .ok D.bools := hD.boolVars
  refine ⟨_, by simp only [XsddOpts.nonConvexPiece, h1, h2, r1, hp, hrv, v1, hbv, p1]; rfl, fun ρ => ?_⟩
  rw [hA.plus, hA.times, v2, p2, hA.real, ← hm ρ, margin_congr hev]
  push_cast
  ring

end

section
variable {o : XsddOpts E}

/-- SPEC: the additions along the diagrams of the pieces have sets of Boolean variables that differ in size or are equal. -/
def XsddOpts.SmoothRuns (o : XsddOpts E) (base w : Formula) : Prop :=
  ∀ P, splitUp o.simp w = .ok P → ∀ p ∈ P, ∀ g L s, extractLiterals (mkAnd [p.2, base]) = .ok (g, L) →
    compileToSdd o.mgr g L (o.vtree L) = .ok s → Smooth L s

/-- The volumes of the pieces add up to the volume. -/
theorem pieces_volume {D : Domain} (hD : D.WF) {base w : Formula} (hbd : Bounded D base) {P : Pieces} {simp : Formula → Formula}
    (hconv : Pieces.Conv ℝ simp w P) (hmade : ∀ p ∈ P, p.1.Over (· ∈ D.reals) ∧ XOk D p.2) :
    (P.map fun p => D.volumeOf false (density (mkAnd [p.2, base]) (pieceTerm p.1))).sum = D.volumeOf false (density base w) := by
  rw [← volumeOf_sum P (fun p => density (mkAnd [p.2, base]) (pieceTerm p.1)) (fun p _ => density_meas _ _)
    (fun p _ β => by
      have : D.restricted false (density (mkAnd [p.2, base]) (pieceTerm p.1)) = density (mkAnd [p.2, base]) (pieceTerm p.1) := by
        funext σ
        simp [Domain.restricted]
      rw [this]
      exact Bounded.tame hD (hbd.of_conjunct (.inside _ base (by simp) .here)) _ _)]
  congr 1
  funext σ
  rw [density, ← hconv.val σ, piecesVal]
  by_cases h : truth σ base = true
  · rw [if_pos h]
    congr 1
    refine List.map_congr_left fun p hp => ?_
    obtain ⟨_, _, _, _, _, _, _, hval⟩ := pieceTerm_spec (hconv.good.1 p hp) (hmade p hp).1
    rw [density, hval, pieceVal, truth_mkAnd_pair, h, Bool.and_true]
  · rw [if_neg h]
    refine List.sum_eq_zero fun x hx => ?_
    obtain ⟨p, hp, rfl⟩ := List.mem_map.mp hx
    rw [density, truth_mkAnd_pair, if_neg (by simp [h])]

theorem nonConvex_core (ho : o.Sound eval) (hvt : VtreeOk o.vtree) (hint : IntegrateExact o.integrate eval) (hback : o.backend = none)
    {e : EngineObj} {w base : Formula} (hw : e.weight = some w) (hD : e.domain.WF) (hne : e.domain.reals ≠ [])
    (hxw : XWeight o e.domain w) (hbase : o.baseSupport e.support w = .ok base) (hb : XOk e.domain base)
    (hbd : Bounded e.domain base) (hsm : o.SmoothRuns base w) :
    o.volumeCore e = .ok (e.domain.volumeOf false (density base w)) := by
  obtain ⟨P, hP⟩ := hxw.clash
  have hconv := Pieces.splitUp_correct_partial ho.simp w hxw.wt P hP
  have hmade := splitUp_made (XOk.supportInv (ho.simpOk e.domain)) (V := (· ∈ e.domain.reals)) w
    (fun p hp hr => by
      have := hxw.vars p hp
      rw [hr] at this
      exact mem_reals.mpr this) hxw.conds P hconv.run
  have hpiece : ∀ p ∈ P, ∀ b, ∃ b', o.nonConvexPiece e.domain base b p = .ok b' ∧
      ∀ ρ, eval b' ρ = eval b ρ + e.domain.volumeOf false (density (mkAnd [p.2, base]) (pieceTerm p.1)) := fun p hp b =>
    nonConvexPiece_correct ho hvt hint hD hne hb hbd (hmade p hp).2 (hconv.good.1 p hp) (hmade p hp).1 (hsm P hconv.run p hp) b
  obtain ⟨r, hr, hev⟩ := foldE_sum _ hpiece o.alg.zero
  have hsum : ∀ ρ, eval r ρ = e.domain.volumeOf false (density base w) := by
    intro ρ
    rw [hev]
    have hz : eval o.alg.zero ρ = 0 := by simp [Algebra.zero, ho.alg.real]
    rw [hz, zero_add, pieces_volume hD hbd hconv hmade]
  simp only [XsddOpts.volumeCore, hw, hbase, hconv.run, XsddOpts.fromPieces, hback, hr]
  exact ho.toFloat _ _ hsum

/-- C57, without a convex back-end.  The engine computes the volume of the density by integrating one expression per piece: with
the bounds of the domain added, inside the box, and without them, over the whole space when every real variable has constant
bounds among the conjuncts of the support.  Excluded: domains without real variables, weights with a clash (C46), equalities and
comparisons of equal terms, and diagrams that are not smooth (`nonConvex_count_wrong`).  The full
statement has no such exclusions. -/
theorem nonConvex_correct_partial (ho : o.Sound eval) (hvt : VtreeOk o.vtree) (hint : IntegrateExact o.integrate eval)
    (hback : o.backend = none)
    (himp : ∀ a b, o.implies a b = .ok true → ∀ σ : Env ℝ, truth σ a = true → truth σ b = true)
    {e : EngineObj} {w : Formula} (hw : e.weight = some w) (hD : BoxOk e.domain) (hne : e.domain.reals ≠ [])
    (hxw : XWeight o e.domain w) (hS : XOk e.domain e.support) :
    (∀ b base, e.domain.getBounds = .ok b → o.baseSupport (.and [e.support, b]) w = .ok base → o.SmoothRuns base w →
      o.computeVolume e true = .ok (e.domain.volumeOf true (density e.support w))) ∧
    (∀ base, o.baseSupport e.support w = .ok base → Bounded e.domain e.support → o.SmoothRuns base w →
      o.computeVolume e false = .ok (e.domain.volumeOf false (density e.support w))) := by
  constructor
  · intro b base hb hbase hsm
    obtain ⟨b', hb', hxb, htb, _⟩ := bounds_ok hD
    rw [hb] at hb'; cases hb'
    obtain ⟨k1, k2, _⟩ := baseSupport_correct ho.setOrd himp (XOk.two hS hxb).1 hxw.wt hbase
    simp only [XsddOpts.computeVolume, if_true, hb]
    rw [nonConvex_core ho hvt hint hback (e := e.withConstraint b) (base := base) hw hD.wf hne hxw hbase k1
      ((bounds_bounded hD hb).of_conjunct ((Conjunct.inside _ b (by simp) .here).trans (baseSupport_conjunct hbase))) hsm]
    show Except.ok (e.domain.volumeOf false (density base w)) = _
    congr 1
    rw [Domain.volumeOf, Domain.volumeOf]
    congr 1
    funext σ
    have := k2 σ
    rw [truth_mkAnd_pair] at this
    unfold Domain.restricted
    by_cases hσ : e.domain.inBox σ
    · rw [if_pos (by simp), if_pos fun _ => hσ]
      rw [(htb σ).mpr hσ, Bool.and_true] at this
      simp only [density, this]
    · rw [if_pos (by simp), if_neg fun h => hσ (h rfl)]
      have hf : truth σ b = false := by
        cases h : truth σ b
        · rfl
        · exact absurd ((htb σ).mp h) hσ
      rw [hf, Bool.and_false] at this
      simp only [density, this]
      rfl
  · intro base hbase hbd hsm
    obtain ⟨k1, k2, _⟩ := baseSupport_correct ho.setOrd himp hS hxw.wt hbase
    simp only [XsddOpts.computeVolume, Bool.false_eq_true, if_false]
    rw [nonConvex_core ho hvt hint hback hw hD.wf hne hxw hbase k1 (hbd.of_conjunct (baseSupport_conjunct hbase)) hsm]
    have hden : density base w = density e.support w := by funext σ; simp only [density, k2]
    rw [hden]

/-- With at most one Boolean variable every diagram is smooth. -/
theorem XsddOpts.smoothRuns_of_bools (ho : o.Sound eval) (hvt : VtreeOk o.vtree) {D : Domain} {w base : Formula} (hxw : XWeight o D w)
    (hb : XOk D base) (hbd : Bounded D base) (h1 : D.bools.length ≤ 1) : o.SmoothRuns base w := by
  intro P hP p hp g L s he hs
  have hmade := splitUp_made (XOk.supportInv (ho.simpOk D)) (V := (· ∈ D.reals)) w
    (fun p hp hr => by
      have := hxw.vars p hp
      rw [hr] at this
      exact mem_reals.mpr this) hxw.conds P hP
  have hf := (XOk.two (hmade p hp).2 hb).1
  have hbf : Bounded D (mkAnd [p.2, base]) := hbd.of_conjunct (.inside _ base (by simp) .here)
  obtain ⟨g', L', s', e1, e2, e3⟩ := compiled_facts ho.mgr hvt hf (hbf.proper.imp hf.noReals id)
  rw [he] at e1; cases e1
  rw [hs] at e2; cases e2
  obtain ⟨x, hx⟩ : ∃ x, ∀ y ∈ D.bools, y = x := by
    match hl : D.bools, h1 with
    | [], _ => exact ⟨"", by simp⟩
    | [x], _ => exact ⟨x, by simp⟩
  refine smooth_of_card (x := x) fun n _ => ?_
  unfold LiteralInfo.nameOf
  split
  · rename_i y hy
    rw [hx y (e3.bools n y hy)]
  · simp

/-- C57, without a convex back-end, for domains with at most one Boolean variable: no condition on the diagrams. -/
theorem nonConvex_oneBool_partial (ho : o.Sound eval) (hvt : VtreeOk o.vtree) (hint : IntegrateExact o.integrate eval)
    (hback : o.backend = none)
    (himp : ∀ a b, o.implies a b = .ok true → ∀ σ : Env ℝ, truth σ a = true → truth σ b = true)
    {e : EngineObj} {w : Formula} (hw : e.weight = some w) (hD : BoxOk e.domain) (hne : e.domain.reals ≠ [])
    (hxw : XWeight o e.domain w) (hS : XOk e.domain e.support) (h1 : e.domain.bools.length ≤ 1) :
    ((∃ b base, e.domain.getBounds = .ok b ∧ o.baseSupport (.and [e.support, b]) w = .ok base) →
      o.computeVolume e true = .ok (e.domain.volumeOf true (density e.support w))) ∧
    ((∃ base, o.baseSupport e.support w = .ok base) → Bounded e.domain e.support →
      o.computeVolume e false = .ok (e.domain.volumeOf false (density e.support w))) := by
  obtain ⟨c1, c2⟩ := nonConvex_correct_partial ho hvt hint hback himp hw hD hne hxw hS
  constructor
  · rintro ⟨b, base, hb, hbase⟩
    obtain ⟨b', hb', hxb, _⟩ := bounds_ok hD
    rw [hb] at hb'; cases hb'
    obtain ⟨k1, _⟩ := baseSupport_correct ho.setOrd himp (XOk.two hS hxb).1 hxw.wt hbase
    exact c1 b base hb hbase (XsddOpts.smoothRuns_of_bools ho hvt hxw k1
      ((bounds_bounded hD hb).of_conjunct ((Conjunct.inside _ b (by simp) .here).trans (baseSupport_conjunct hbase))) h1)
  · rintro ⟨base, hbase⟩ hbd
    obtain ⟨k1, _⟩ := baseSupport_correct ho.setOrd himp hS hxw.wt hbase
    exact c2 base hbase hbd (XsddOpts.smoothRuns_of_bools ho hvt hxw k1 (hbd.of_conjunct (baseSupport_conjunct hbase)) h1)

/-- An engine with reference implementations of the external parts, without a convex back-end. -/
noncomputable def nonConvexOpts : XsddOpts ((String → ℝ) → ℝ) :=
  { sampleOpts false with
    backend := none
    vtree := fun L => Bami.bami id id L []
    integrate := fun _ e vs => .ok (margin vs.toFinset e) }

theorem nonConvexOpts_sound : nonConvexOpts.Sound fun e ρ => e ρ := { sampleOpts_sound false with }

/-- The hypotheses of `nonConvex_oneBool_partial` and `nonConvex_correct_partial` are met. -/
example :
    nonConvexOpts.computeVolume ⟨factDomain, factSupport, some xsddWeight⟩ true =
      .ok (factDomain.volumeOf true (density factSupport xsddWeight)) ∧
    nonConvexOpts.computeVolume ⟨factDomain, factSupport, some xsddWeight⟩ false =
      .ok (factDomain.volumeOf false (density factSupport xsddWeight)) := by
  obtain ⟨b, hb, _⟩ := bounds_ok factDomain_box
  have hxw : XWeight nonConvexOpts factDomain xsddWeight :=
    ⟨(factWeight_ok false).wt, (factWeight_ok false).vars, (factWeight_ok false).conds, (factWeight_ok false).clash⟩
  obtain ⟨h1, h2⟩ := nonConvex_oneBool_partial nonConvexOpts_sound
    (bami_vtreeOk (fun _ => List.Perm.refl _) (fun _ => List.Perm.refl _) []) (fun _ _ _ _ _ _ _ _ _ _ => ⟨_, rfl, fun _ => rfl⟩) rfl
    (fun a b h => by simpa [nonConvexOpts, sampleOpts] using h) (e := ⟨factDomain, factSupport, some xsddWeight⟩) rfl factDomain_box
    (by decide) hxw factSupport_ok (by decide)
  exact ⟨h1 ⟨b, _, hb, rfl⟩, h2 ⟨_, rfl⟩ factSupport_bounded⟩

/-- C49: integrating group by group along the diagram gives the volume of the plain engine, which integrates all variables at the
root, whatever vtree each of them uses. -/
theorem factorised_agrees_partial {o : FactOpts E} {o' : XsddOpts E} (ho : o.Sound eval) (ho' : o'.Sound eval) (hvt : VtreeOk o'.vtree)
    (hint : IntegrateExact o'.integrate eval) (hback : o'.backend = none) (hf : o.findConflicts = false) (hf' : o'.findConflicts = false)
    (himp : ∀ a b, o.implies a b = .ok true → ∀ σ : Env ℝ, truth σ a = true → truth σ b = true)
    (himp' : ∀ a b, o'.implies a b = .ok true → ∀ σ : Env ℝ, truth σ a = true → truth σ b = true)
    {e : EngineObj} {w : Formula} (hw : e.weight = some w) (hD : BoxOk e.domain) (hne : e.domain.reals ≠ [])
    (hxw : XWeight o.toXsddOpts e.domain w) (hxw' : XWeight o' e.domain w) (hlab : extractLabels w = .ok ([], w))
    (hS : XOk e.domain e.support) (h1 : e.domain.bools.length ≤ 1) (addBounds : Bool)
    (hb : addBounds = true ∨ Bounded e.domain e.support) : o.computeVolume e addBounds = o'.computeVolume e addBounds := by
  obtain ⟨a1, a2⟩ := FactOpts.computeVolume_oneBool_partial ho himp hw hD hxw hlab hS h1
  obtain ⟨b1, b2⟩ := nonConvex_oneBool_partial ho' hvt hint hback himp' hw hD hne hxw' hS h1
  obtain ⟨b, hbb, _⟩ := bounds_ok hD
  have e1 : ∀ S, o.baseSupport S w = .ok S := fun S => by simp [XsddOpts.baseSupport, hf]
  have e2 : ∀ S, o'.baseSupport S w = .ok S := fun S => by simp [XsddOpts.baseSupport, hf']
  cases addBounds with
  | true => rw [a1 ⟨b, _, hbb, e1 _⟩, b1 ⟨b, _, hbb, e2 _⟩]
  | false =>
    have hb := hb.resolve_left (by simp)
    rw [a2 ⟨_, e1 _⟩ hb, b2 ⟨_, e2 _⟩ hb]

end

end Pywmi
