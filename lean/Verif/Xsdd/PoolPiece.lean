import Verif.Xsdd.PoolRun

set_option linter.unusedSectionVars false
set_option linter.unusedSimpArgs false

/-!
# One piece of the XSDD engine on a pool
-/

namespace Pywmi
open Formula MeasureTheory Set Prog

/-! ### Literals -/

theorem LiteralInfo.getItem_mem {L : LiteralInfo} {lit : String} {v : LitVal} (h : L.getItem lit = .ok v) : (lit, v) ∈ L.literals := by
  unfold LiteralInfo.getItem at h
  split at h
  · rename_i w hl
    cases h
    generalize L.literals = d at hl
    induction d with
    | nil => cases hl
    | cons a d ih =>
      rw [List.lookup_cons] at hl
      by_cases he : lit = a.1
      · subst he
        simp only [beq_self_eq_true, Option.some.injEq] at hl
        subst hl
        exact List.mem_cons_self
      · rw [beq_false_of_ne he] at hl
        exact List.mem_cons_of_mem _ (ih hl)
  · cases h

/-- The test made of an inequality. -/
theorem linRead_test {g : Formula} {q : Dict} (h : LinRead g q) : ∃ t, linToSmt q = .ok t ∧ TestForm t ∧ (∀ v ∈ syms t, v ∈ syms g) ∧
    ∀ σ : Env ℝ, gap σ g ≠ 0 → readTest σ t = decide (gap σ g < 0) := by
  have hok : ∃ t, linToSmt q = .ok t := by
    by_cases hq : q = []
    · subst hq; exact ⟨_, rfl⟩
    · obtain ⟨t, ht, _⟩ := linToSmt_spec (K := ℝ) h.nodup h.nz hq
      exact ⟨t, ht⟩
  obtain ⟨t, ht⟩ := hok
  obtain ⟨l, r, h1, h2, h3⟩ := linToSmt_shape h.lin ht
  have hT : TestForm t := by rcases h1 with rfl | rfl; exacts [.le h2 h3, .lt h2 h3]
  refine ⟨t, ht, hT, fun v hv => ?_, fun σ hσ => ?_⟩
  · obtain ⟨p, hp, p1, p2⟩ := linToSmt_syms ht v hv
    have hl := h.lin p hp
    obtain ⟨x, ty⟩ := v
    simp only at p1 p2
    subst p1
    have hk : p.1 = [x] := by
      match hp1 : p.1, hl, p2 with
      | [y], _, p2 => simp only [List.mem_singleton] at p2; rw [p2]
    exact h.vars x (linCoef_ne_zero h.nodup h.nz (List.mem_map.mpr ⟨p, hp, hk⟩))
  · obtain ⟨c, hc, hs⟩ := h.scale
    have hp : polyEval σ.r q ≠ 0 := by rw [hs]; exact mul_ne_zero hσ hc.ne'
    have hq : q ≠ [] := by rintro rfl; exact hp rfl
    obtain ⟨t', ht', _, hspec⟩ := linToSmt_spec (K := ℝ) h.nodup h.nz hq
    rw [ht] at ht'; cases ht'
    have hst := (linToSmt_strict h.nodup hq ht σ).mpr hp
    rw [readTest_truth hT σ (by rcases h1 with rfl | rfl <;> exact hst), Bool.eq_iff_iff, hspec, hs, decide_eq_true_eq]
    constructor
    · intro hlt; by_contra h'; push Not at h'; have := mul_nonneg h' hc.le; linarith
    · intro hlt; exact mul_neg_of_neg_of_pos hlt hc

section
variable {E : Type} [DecidableEq E] {ev : E → (String → ℝ) → ℝ} {Γ : String → Ty} {P : PxCtx E} {D : Domain}

/-- SPEC: symbols that are real variables of the domain. -/
def OverReals (D : Domain) (v : String × Ty) : Prop := v.2 = .real ∧ v.1 ∈ D.reals

/-- SPEC: a node for the expression, and the same Boolean variables. -/
def SemiRel (ev : E → (String → ℝ) → ℝ) (D : Domain) (L : LiteralInfo) (a : ((String → ℝ) → ℝ) × Finset String) (b : ℕ × Finset String)
    (p : Pool E) : Prop :=
  b.2 = a.2 ∧ Shows ev (OverReals D) (fun σ => L.Off σ) True p b.1 (fun σ => a.1 σ.r)

variable (hR : RLaw P.C ev)
include hR

theorem PxCtx.semiOne_run {L : LiteralInfo} {p : Pool E} (hp : Inv2 P.C.X Γ ev p) :
    Run (Inv2 P.C.X Γ ev) Fr2 P.semiOne p True (SemiRel ev D L (funAlgebra.one, ∅)) := by
  refine Run.seq2 (PxCtx.one_run (V := OverReals D) (ok := fun σ => L.Off σ) (ord := True) hR hp) id fun n q hq _ hn => ?_
  exact Run.ret Fr2.refl hq ⟨rfl, hn.congr fun σ _ => by simp [funAlgebra, Algebra.one]⟩

theorem PxCtx.semiZero_run {L : LiteralInfo} {p : Pool E} (hp : Inv2 P.C.X Γ ev p) :
    Run (Inv2 P.C.X Γ ev) Fr2 P.semiZero p True (SemiRel ev D L (funAlgebra.zero, ∅)) := by
  refine Run.seq2 (PxCtx.zero_run (V := OverReals D) (ok := fun σ => L.Off σ) (ord := True) hR hp) id fun n q hq _ hn => ?_
  exact Run.ret Fr2.refl hq ⟨rfl, hn.congr fun σ _ => by simp [funAlgebra, Algebra.zero]⟩

theorem PxCtx.boolWorlds_run {V : String × Ty → Prop} {ok : Env ℝ → Prop} {ord : Prop} (k : ℕ) {p : Pool E} (hp : Inv2 P.C.X Γ ev p) :
    Run (Inv2 P.C.X Γ ev) Fr2 (P.boolWorlds k) p True (fun n q => Shows ev V ok ord q n fun _ => 2 ^ k) := by
  unfold PxCtx.boolWorlds
  refine Run.seq2 (PxCtx.real_run (V := V) (ok := ok) (ord := ord) hR 2 hp) id fun n q hq _ hn => ?_
  exact (PxCtx.power_run hR k hq hn).imp id fun _ _ _ _ h => h.congr fun σ _ => by norm_num

theorem PxCtx.semiTimes_run {L : LiteralInfo} {a' b' : ((String → ℝ) → ℝ) × Finset String} {a b : ℕ × Finset String} {p : Pool E}
    (hp : Inv2 P.C.X Γ ev p) (ha : SemiRel ev D L a' a p) (hb : SemiRel ev D L b' b p) :
    Run (Inv2 P.C.X Γ ev) Fr2 (P.semiTimes a b) p True (SemiRel ev D L (funAlgebra.times a'.1 b'.1, a'.2 ∪ b'.2)) := by
  refine Run.seq2 (PxCtx.times_run hR hp ha.2 hb.2) id fun n q hq _ hn => ?_
  exact Run.ret Fr2.refl hq ⟨by simp only [ha.1, hb.1], hn.congr fun σ _ => rfl⟩

theorem PxCtx.semiPlus_run {L : LiteralInfo} {a' b' r' : ((String → ℝ) → ℝ) × Finset String} {a b : ℕ × Finset String} {p : Pool E}
    (he : smoothPlus funAlgebra a' b' = .ok r') (hp : Inv2 P.C.X Γ ev p) (ha : SemiRel ev D L a' a p) (hb : SemiRel ev D L b' b p) :
    Run (Inv2 P.C.X Γ ev) Fr2 (P.semiPlus a b) p True (SemiRel ev D L r') := by
  have hA : funAlgebra.Sound (fun e ρ => e ρ) := (sampleOpts_sound false).alg
  obtain ⟨a, A⟩ := a
  obtain ⟨b, B⟩ := b
  obtain ⟨a1, a2⟩ := ha
  obtain ⟨b1, b2⟩ := hb
  dsimp only at a1 b1 a2 b2
  subst a1 b1
  unfold smoothPlus at he
  unfold PxCtx.semiPlus
  by_cases hc : a'.2.card = b'.2.card
  · rw [if_pos hc] at he
    cases he
    rw [if_pos hc]
    refine Run.seq2 (PxCtx.plus_run hR hp a2 b2) id fun n q hq _ hn => ?_
    exact Run.ret Fr2.refl hq ⟨rfl, hn.congr fun σ _ => rfl⟩
  · rw [if_neg hc] at he
    obtain ⟨wa, x1, x2⟩ := (algebra_power hA (funAlgebra.real 2)).1 (b'.2 \ a'.2).card
    obtain ⟨wb, y1, y2⟩ := (algebra_power hA (funAlgebra.real 2)).1 (a'.2 \ b'.2).card
    have x1' : Pywmi.boolWorlds funAlgebra (b'.2 \ a'.2).card = .ok wa := x1
    have y1' : Pywmi.boolWorlds funAlgebra (a'.2 \ b'.2).card = .ok wb := y1
    rw [x1', y1'] at he
    cases he
    rw [if_neg hc]
    refine Run.seq2 (PxCtx.boolWorlds_run (V := OverReals D) (ok := fun σ => L.Off σ) (ord := True) hR _ hp) id fun n1 q1 hq1 h01 hn1 => ?_
    refine Run.seq2 (PxCtx.boolWorlds_run (V := OverReals D) (ok := fun σ => L.Off σ) (ord := True) hR _ hq1) id fun n2 q2 hq2 h12 hn2 => ?_
    refine Run.seq2 (PxCtx.times_run hR hq2 (a2.mono hp.core (h01.trans h12).toExt) (hn1.mono hq1.core h12.toExt)) id fun n3 q3 hq3 h23 hn3 => ?_
    refine Run.seq2 (PxCtx.times_run hR hq3 (b2.mono hp.core ((h01.trans h12).trans h23).toExt)
      (hn2.mono hq2.core h23.toExt)) id fun n4 q4 hq4 h34 hn4 => ?_
    refine Run.seq2 (PxCtx.plus_run hR hq4 (hn3.mono hq3.core h34.toExt) hn4) id fun n5 q5 hq5 _ hn5 => ?_
    refine Run.ret Fr2.refl hq5 ⟨rfl, hn5.congr fun σ _ => ?_⟩
    show _ = a'.1 σ.r * wa σ.r + b'.1 σ.r * wb σ.r
    rw [x2, y2]
    simp [funAlgebra]

theorem PxCtx.semiWeight_run {f : Formula} {L : LiteralInfo} {s : Sdd} (hc : CompiledAs D f L s) {l : ℤ}
    {r' : ((String → ℝ) → ℝ) × Finset String} (he : nonConvexWeight funAlgebra L l = .ok r') {p : Pool E} (hp : Inv2 P.C.X Γ ev p) :
    Run (Inv2 P.C.X Γ ev) Fr2 (P.semiWeight L l) p True (SemiRel ev D L r') := by
  have hA : funAlgebra.Sound (fun e ρ => e ρ) := (sampleOpts_sound false).alg
  unfold PxCtx.semiWeight
  have he0 := he
  unfold nonConvexWeight at he
  cases hv : litValue L l.natAbs with
  | error e => rw [hv] at he; cases he
  | ok v =>
    rw [hv] at he
    refine Run.bindLift rfl ?_
    cases v with
    | bool x =>
      cases he
      refine Run.seq2 (PxCtx.one_run (V := OverReals D) (ok := fun σ => L.Off σ) (ord := True) hR hp) id fun n q hq _ hn => ?_
      exact Run.ret Fr2.refl hq ⟨rfl, hn.congr fun σ _ => by simp [funAlgebra, Algebra.one]⟩
    | atom c =>
      have hm : c ∈ L.abstractions.map (·.1) := by
        unfold litValue at hv
        split at hv
        · cases hv
        · rename_i lit _
          exact List.mem_map_of_mem ((hc.link.2.2 _ _).mp (LiteralInfo.getItem_mem hv))
      obtain ⟨q0, hq0, rfl⟩ := List.mem_map.mp hm
      obtain ⟨t1, t2, h1, h2, h3⟩ := hc.lin q0 hq0
      obtain ⟨⟨d1, e1, v1⟩, ⟨d2, e2, v2⟩⟩ := atom_expression (K := ℝ) hA h1 h2 h3
      obtain ⟨q, hq⟩ := linRead_cmp h2 h3 h1
      have hsy : ∀ v ∈ syms q0.1, OverReals D v := fun v hv => by
        refine ⟨?_, hc.reals _ hm v hv⟩
        have : v ∈ syms t1 ++ syms t2 := by rcases h1 with h1 | h1 <;> (rw [h1] at hv; exact hv)
        rcases List.mem_append.mp this with h | h
        · exact isAllReal_syms t1 (linTerm_allReal t1 h2) v h
        · exact isAllReal_syms t2 (linTerm_allReal t2 h3) v h
      have hgap : ∀ σ : Env ℝ, strictAt σ q0.1 → gap σ q0.1 ≠ 0 ∧ (gap σ q0.1 < 0 ↔ truth σ q0.1 = true) := fun σ hσ => by
        rcases h1 with h1 | h1 <;> rw [h1] at hσ ⊢ <;> simp only [gap, truth, decide_eq_true_eq, sub_neg]
        · exact ⟨sub_ne_zero.mpr hσ, ⟨le_of_lt, fun h => lt_of_le_of_ne h hσ⟩⟩
        · exact ⟨sub_ne_zero.mpr hσ, trivial⟩
      by_cases hl : l < 0
      · simp only [if_pos hl, e2] at he
        cases he
        dsimp only
        rw [if_pos hl]
        refine Run.bindLift e2 ?_
        have hn : mkNot q0.1 = .not q0.1 := by rcases h1 with h1 | h1 <;> rw [h1] <;> rfl
        have hq' := hq.not hq.notSym
        rw [hn, hq'.from'] at e2
        cases e2
        obtain ⟨t, ht, hT, hts, htv⟩ := linRead_test hq'
        refine Run.seq2 (PxCtx.linExpr_run (ok := fun σ => L.Off σ) (ord := True) hR ht hT (fun v hv => hsy v (hts v hv)) hp) id
          fun n q hq _ hn => ?_
        refine Run.ret Fr2.refl hq ⟨rfl, hn.congr fun σ hσ => ?_⟩
        obtain ⟨g1, g2⟩ := hgap σ (hσ _ hm)
        have hv2 := v2 σ (hσ _ hm)
        dsimp only
        rw [htv σ (by simpa [gap] using g1), hv2]
        cases ht : truth σ q0.1 with
        | true =>
          have := g2.mpr ht
          simp [ind, gap, not_lt.mpr this.le]
        | false =>
          have h' : 0 ≤ gap σ q0.1 := not_lt.mp fun h => by rw [g2.mp h] at ht; cases ht
          have := lt_of_le_of_ne h' (Ne.symm g1)
          simp [ind, gap, this]
      · simp only [if_neg hl, e1] at he
        cases he
        dsimp only
        rw [if_neg hl]
        refine Run.bindLift e1 ?_
        rw [hq.from'] at e1
        cases e1
        obtain ⟨t, ht, hT, hts, htv⟩ := linRead_test hq
        refine Run.seq2 (PxCtx.linExpr_run (ok := fun σ => L.Off σ) (ord := True) hR ht hT (fun v hv => hsy v (hts v hv)) hp) id
          fun n q hq _ hn => ?_
        refine Run.ret Fr2.refl hq ⟨rfl, hn.congr fun σ hσ => ?_⟩
        obtain ⟨g1, g2⟩ := hgap σ (hσ _ hm)
        have hv1 := v1 σ (hσ _ hm)
        dsimp only
        rw [htv σ g1, hv1]
        cases ht : truth σ q0.1 with
        | true => simp [ind, g2.mpr ht]
        | false =>
          have : ¬gap σ q0.1 < 0 := fun h => by rw [g2.mp h] at ht; cases ht
          simp [ind, this]

theorem PxCtx.orLoop_run {L : LiteralInfo} : ∀ {xs' : List (((String → ℝ) → ℝ) × Finset String)} {xs : List (ℕ × Finset String)}
    {a' r' : ((String → ℝ) → ℝ) × Finset String} {a : ℕ × Finset String} {p : Pool E}, (nonConvexSemi funAlgebra L).sumFrom a' xs' = .ok r' →
    Inv2 P.C.X Γ ev p → SemiRel ev D L a' a p → List.Forall₂ (fun x' x => SemiRel ev D L x' x p) xs' xs →
    Run (Inv2 P.C.X Γ ev) Fr2 (XM.foldM P.semiPlus a xs) p True (SemiRel ev D L r')
  | [], [], a', r', a, p, he, hp, ha, _ => by
    cases he
    exact Run.ret Fr2.refl hp ha
  | x' :: xs', x :: xs, a', r', a, p, he, hp, ha, .cons h1 h2 => by
    unfold Semi.sumFrom at he
    cases e1 : (nonConvexSemi funAlgebra L).plus a' x' with
    | error e => rw [e1] at he; cases he
    | ok b' =>
      rw [e1] at he
      unfold XM.foldM
      refine Run.seq2 (PxCtx.semiPlus_run hR e1 hp ha h1) id fun b q hq hpq hb => ?_
      exact PxCtx.orLoop_run he hq hb (h2.imp fun _ _ h => ⟨h.1, h.2.mono hp.core hpq.toExt⟩)

theorem PxCtx.walker_sim {f : Formula} {L : LiteralInfo} {s : Sdd} (hc : CompiledAs D f L s) :
    PoolWalker.Sim (Inv2 P.C.X Γ ev) (nonConvexSemi funAlgebra L).walker (P.walker L) (SemiRel ev D L) where
  mono hp h hs := ⟨hs.1, hs.2.mono hp.core h.toExt⟩
  onTrue he hp := by cases he; exact PxCtx.semiOne_run hR hp
  onFalse he hp := by cases he; exact PxCtx.semiZero_run hR hp
  onLit he hp := PxCtx.semiWeight_run hR hc he hp
  onAnd he hp ha hb := by cases he; exact PxCtx.semiTimes_run hR hp ha hb
  onOr he hp h := by
    cases h with
    | nil => cases he; exact PxCtx.semiZero_run hR hp
    | cons h1 h2 =>
      cases h2 with
      | nil => cases he; exact Run.ret Fr2.refl hp h1
      | cons h2 h3 => exact PxCtx.orLoop_run hR he hp h1 (.cons h2 h3)

end
end Pywmi
