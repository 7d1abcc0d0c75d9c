import Verif.Xsdd.PoolPiece
import Verif.Xadd.History

set_option linter.unusedSectionVars false
set_option linter.unusedSimpArgs false

/-!
# The volume of the XSDD engine on a pool
-/

namespace Pywmi
open Formula MeasureTheory Set Prog

theorem nice_boxed {rs : List String} (hnd : rs.Nodup) {F : (String → ℝ) → ℝ} {M : ℝ} (hn : Nice F) (hw : Within M rs.toFinset F) :
    Boxed rs fun σ => F σ.r := by
  refine ⟨M, fun σ => ⟨?_, ae_of_all _ fun x ⟨i, hi⟩ => ?_⟩⟩
  · have hmp := volume_measurePreserving_piCongrLeft (fun _ : rs.toFinset => ℝ) (posEquiv hnd)
    have := (hmp.integrable_comp_emb (MeasurableEquiv.measurableEmbedding _)).mpr (hn.integrable hw σ.r)
    refine this.congr (ae_of_all _ fun x => ?_)
    simp only [Function.comp]
    congr 1
    funext n
    by_cases hm : n ∈ rs
    · rw [updateFinset_mem (List.mem_toFinset.mpr hm)]
      simp only [Env.setReals, List.idxOf_lt_length_iff, hm, dif_pos]
      have e : (⟨n, List.mem_toFinset.mpr hm⟩ : rs.toFinset) = posEquiv hnd ⟨rs.idxOf n, List.idxOf_lt_length_iff.mpr hm⟩ :=
        Subtype.ext (by simp [posEquiv])
      rw [e]
      exact Equiv.piCongrLeft_apply_apply (fun _ : rs.toFinset => ℝ) (posEquiv hnd) x _
    · rw [updateFinset_notMem (fun h => hm (List.mem_toFinset.mp h)), setReals_mem hm]
  · refine hw _ rs[i] (by simp) ?_
    have hi' : (σ.setReals rs x).r rs[i] = x i := by
      have hm : rs[i] ∈ rs := by simp
      simp only [Env.setReals, List.idxOf_lt_length_iff]
      rw [dif_pos hm]
      exact congrArg x (Fin.ext (List.Nodup.idxOf_getElem hnd i i.2))
    rw [hi']
    exact hi

section
variable {E : Type} [DecidableEq E] {ev : E → (String → ℝ) → ℝ} {Γ : String → Ty} {q : PoolOpts E} {D : Domain}

/-- SPEC: the assumptions on the external parts of the engine. -/
structure PoolOpts.Sound (q : PoolOpts E) (ev : E → (String → ℝ) → ℝ) : Prop where
  law : RLaw q.P.C ev
  mgr : ∀ ex u, Vtree.load ex = some u → u.leaves.Nodup → (∀ n ∈ u.leaves, n ≠ 0) → (q.o.mgr ex).Ok u
  ord : ∀ l, (q.o.ord l).Perm l
  tie : ∀ l, (q.o.tie l).Perm l
  setOrd : ∀ l, (q.o.setOrd l).Perm l
  simp : SimpOk q.o.simp ℝ
  simpOk : ∀ D f, XOk D f → XOk D (q.o.simp f)
  vtree : VtreeOk q.o.vtree
  implies : ∀ a b, q.o.implies a b = .ok true → ∀ σ : Env ℝ, truth σ a = true → truth σ b = true

/-- The engine with functions in place of nodes. -/
noncomputable def PoolOpts.ideal (q : PoolOpts E) : XsddOpts ((String → ℝ) → ℝ) where
  simp := q.o.simp
  mgr := q.o.mgr
  ord := q.o.ord
  tie := q.o.tie
  setOrd := q.o.setOrd
  alg := funAlgebra
  realF v := fun _ => v
  toFloat e := .ok (e fun _ => 0)
  integrate _ e vs := .ok (margin vs.toFinset e)
  backend := none
  vtree := q.o.vtree
  findConflicts := q.o.findConflicts
  implies := q.o.implies

theorem PoolOpts.Sound.ideal (hq : q.Sound ev) : q.ideal.Sound fun e ρ => e ρ where
  mgr := hq.mgr
  ord := hq.ord
  tie := hq.tie
  setOrd := hq.setOrd
  alg := (sampleOpts_sound false).alg
  realF _ _ := rfl
  toFloat e v h := by simp [PoolOpts.ideal, h]
  simp := hq.simp
  simpOk := hq.simpOk

/-- SPEC: a node for a number. -/
def ShowsConst (ev : E → (String → ℝ) → ℝ) (p : Pool E) (n : ℕ) (c : ℝ) : Prop :=
  Shows ev (fun _ => False) (fun _ => True) False p n fun _ => c

variable (hq : q.Sound ev)
include hq

theorem PoolOpts.piece_run (hD : D.WF) (hne : D.reals ≠ []) (hΓ : ∀ x ∈ D.reals, Γ x = .real) {base : Formula} (hb : XOk D base)
    (hbd : Bounded D base) {pc : PExpr × Formula} (hx : XOk D pc.2) (hg : pc.1.Good) (hv : pc.1.Over (· ∈ D.reals))
    (hsm : ∀ g L s, extractLiterals (mkAnd [pc.2, base]) = .ok (g, L) → compileToSdd q.o.mgr g L (q.o.vtree L) = .ok s → Smooth L s)
    {vol : ℕ} {c : ℝ} {p : Pool E} (hp : Inv2 q.P.C.X Γ ev p) (hvol : ShowsConst ev p vol c) :
    Run (Inv2 q.P.C.X Γ ev) Fr2 (q.piece D base vol pc) p True
      (fun n p' => ShowsConst ev p' n (c + D.volumeOf false (density (mkAnd [pc.2, base]) (pieceTerm pc.1)))) := by
  have hR := hq.law
  obtain ⟨g, L, s, d, r, M, h1, h2, hf, hc, hpc, r1, hle, hn, hw, hm⟩ :=
    nonConvexPiece_facts (o := q.ideal) hq.ideal hq.vtree hD hb hbd hx hg hv hsm
  have hrv : D.realVars = .ok D.reals := hD.realVars
  have hbv : D.boolVars = .ok D.bools := hD.boolVars
  unfold PoolOpts.piece
  refine Run.bindLift h1 ?_
  refine Run.bindLift h2 ?_
  refine Run.seq2 (PoolWalker.walk_run (PxCtx.walker_sim (D := D) hR hc) r1 hp) id fun a q1 hq1 h01 ha => ?_
  rw [hpc]
  dsimp only
  unfold PxCtx.polyExpr
  refine Run.seq2 (PxCtx.sumTerms_run (V := OverReals D) (ok := fun σ => L.Off σ) (ord := True) hR d hq1) id fun w q2 hq2 h12 hwn => ?_
  refine Run.seq2 (PxCtx.times_run hR hq2 (ha.2.mono hq1.core h12.toExt) hwn) id fun n q3 hq3 h23 hn3 => ?_
  refine Run.bindLift hrv ?_
  refine Run.seq2 (PxCtx.integrate_reals (D := D) hR hne (reals_nodup hD) hΓ (fun x hx => (mem_reals.mp hx).2) hq3 hn3 (fun σ => ?_)
    (nice_boxed (reals_nodup hD) hn hw)) id fun v q4 hq4 h34 hv4 => ?_
  · filter_upwards [hf.off_ae hD σ] with x hx using hc.off _ hx
  refine Run.bindLift hbv ?_
  have hpow : (2 : ℝ) ^ (D.bools.length - r.2.card) ≠ 0 := pow_ne_zero _ two_ne_zero
  have hv4' : ShowsConst ev q4 v (D.volumeOf false (density (mkAnd [pc.2, base]) (pieceTerm pc.1)) / 2 ^ (D.bools.length - r.2.card)) := by
    refine (hv4.weaken (fun v ⟨⟨h1, h2⟩, h3⟩ => h3 v.1 h2 (Prod.ext rfl h1)) (fun _ h => h) id).congr fun σ _ => ?_
    rw [eq_div_iff hpow, ← hm σ.r, margin_reals (reals_nodup hD)]
    rfl
  have e : (D.bools.length : ℚ) - a.2.card = ((D.bools.length - r.2.card : ℕ) : ℚ) := by rw [ha.1, Nat.cast_sub hle]
  rw [e]
  refine Run.seq2 (PxCtx.boolWorlds_run (V := fun _ => False) (ok := fun _ => True) (ord := False) hR _ hq4) id fun b q5 hq5 h45 hb5 => ?_
  refine Run.seq2 (PxCtx.times_run hR hq5 (hv4'.mono hq4.core h45.toExt) hb5) id fun t q6 hq6 h56 ht6 => ?_
  refine (PxCtx.plus_run hR hq6 (hvol.mono hp.core (((((h01.trans h12).trans h23).trans h34).trans h45).trans h56).toExt) ht6).imp id
    fun m q7 _ _ h7 => h7.congr fun σ _ => ?_
  rw [div_mul_cancel₀ _ hpow, hpc]

theorem PoolOpts.registerLiterals_run {base : Formula} (hb : XOk D base) (hbd : Bounded D base) {p : Pool E}
    (hp : Inv2 q.P.C.X Γ ev p) : Run (Inv2 q.P.C.X Γ ev) Fr2 (q.registerLiterals base) p True (fun _ _ => True) := by
  have hR := hq.law
  have hprop := hbd.proper.imp hb.noReals id
  obtain ⟨g, L, s, h1, h2, hc⟩ := compiled_facts (vt := q.o.vtree) hq.mgr hq.vtree hb hprop
  obtain ⟨_, _, _, _, _, _, habs⟩ := extractLiterals_correct (K := ℝ) hb.wt h1
  obtain ⟨t, ht, hperm, -⟩ := hq.vtree L hc.link (fun p hp => by
      obtain ⟨l, r, h1, h2, h3⟩ := hc.lin p hp
      obtain ⟨d, hd, _⟩ := linFromSmt_linear (K := ℝ) h2 h3 h1
      exact ⟨d, hd⟩) (by
      rcases hprop with h0 | ⟨a, ha, hp⟩
      · left
        rw [List.eq_nil_iff_forall_not_mem]
        intro p hp
        obtain ⟨a, ha, _⟩ := (habs p.1).mp (List.mem_map_of_mem hp)
        rw [h0] at ha; cases ha
      · right
        obtain ⟨⟨l, r, h1, h2, h3⟩, h4⟩ := litOk_atoms base hb.lit a ha
        obtain ⟨c, hc, _⟩ := normalizeAtom_correct (K := ℝ) h2 h3 h1
        obtain ⟨q, hq, hqc⟩ := List.mem_map.mp ((habs c).mpr ⟨a, ha, hc⟩)
        obtain ⟨d, hd, hv⟩ := proper_vars h2 h3 h1 hp hc
        exact ⟨q, hq, d, hqc ▸ hd, hv⟩)
  unfold PoolOpts.registerLiterals
  refine Run.bindLift h1 ?_
  refine Run.bindLift ht ?_
  refine XM.foldM_run (g := fun _ _ => ()) (Q := fun _ _ _ => True) (c := ()) t.leaves ?_ hp trivial
  intro lit hlit _ _ p1 hp1 _
  unfold PoolOpts.registerLiteral
  obtain ⟨⟨lit', v⟩, hmem, rfl⟩ := List.mem_map.mp (hperm.subset hlit)
  have hv : L.getItem lit' = .ok v := by
    unfold LiteralInfo.getItem
    rw [lookup_mem_nodup hc.link.1.1 hmem]
  refine Run.bindLift hv ?_
  cases v with
  | bool x => exact Run.ret Fr2.refl hp1 trivial
  | atom f =>
    obtain ⟨l, r, g1, g2, g3⟩ := hc.lin _ ((hc.link.2.2 _ _).mp hmem)
    have hT : TestForm f := by rcases g1 with rfl | rfl; exacts [.le g2 g3, .lt g2 g3]
    exact Run.seq2 (boolTest2 hR hp1 hT) id fun _ q2 hq2 _ _ => Run.ret Fr2.refl hq2 trivial

theorem PoolOpts.core_run {e : EngineObj} {w base : Formula} (hw : e.weight = some w) (hD : e.domain.WF) (hne : e.domain.reals ≠ [])
    (hΓ : ∀ x ∈ e.domain.reals, Γ x = .real) (hxw : XWeight q.ideal e.domain w) (hbase : q.o.baseSupport e.support w = .ok base)
    (hb : XOk e.domain base) (hbd : Bounded e.domain base) (hsm : q.ideal.SmoothRuns base w) {p : Pool E}
    (hp : Inv2 q.P.C.X Γ ev p) :
    Run (Inv2 q.P.C.X Γ ev) Ext (q.volumeCore e) p True (fun v _ => (v : ℝ) = e.domain.volumeOf false (density base w)) := by
  have ho := hq.ideal
  have hR := hq.law
  obtain ⟨P, hP⟩ := hxw.clash
  have hconv := Pieces.splitUp_correct_partial ho.simp w hxw.wt P hP
  have hmade := splitUp_made (XOk.supportInv (ho.simpOk e.domain)) (V := (· ∈ e.domain.reals)) w
    (fun p hp hr => by
      have := hxw.vars p hp
      rw [hr] at this
      exact mem_reals.mpr this) hxw.conds P hconv.run
  have e0 : q.volumeCore e = (do
      let base ← XM.lift (q.o.baseSupport e.support w)
      let ps ← XM.lift (splitUp q.o.simp w)
      q.registerLiterals base
      let v ← q.fromPieces e.domain base ps
      q.P.toFloat v) := by
    unfold PoolOpts.volumeCore
    rw [hw]
  rw [e0]
  refine Run.bindLift hbase ?_
  refine Run.bindLift hconv.run ?_
  refine Run.seqE ((PoolOpts.registerLiterals_run hq hb hbd hp).fr2E) id fun _ q1 hq1 _ _ => ?_
  unfold PoolOpts.fromPieces
  have hloop : Run (Inv2 q.P.C.X Γ ev) Fr2 (do let z ← q.P.zero; XM.foldM (q.piece e.domain base) z P) q1 True
      (fun n p' => ShowsConst ev p' n (P.foldl (fun c pc => c + e.domain.volumeOf false (density (mkAnd [pc.2, base]) (pieceTerm pc.1))) 0)) := by
    refine Run.seq2 (PxCtx.zero_run (V := fun _ => False) (ok := fun _ => True) (ord := False) hR hq1) id fun z q2 hq2 _ hz => ?_
    refine XM.foldM_run (g := fun c pc => c + e.domain.volumeOf false (density (mkAnd [pc.2, base]) (pieceTerm pc.1)))
      (Q := fun c n p' => ShowsConst ev p' n c) P ?_ hq2 hz
    intro pc hpc c n p1 hp1 hn
    exact PoolOpts.piece_run hq hD hne hΓ hb hbd (hmade pc hpc).2 (hconv.good.1 pc hpc) (hmade pc hpc).1 (hsm P hconv.run pc hpc) hp1 hn
  refine Run.seqE hloop.fr2E id fun n q2 hq2 _ hn => ?_
  refine (PxCtx.toFloat_run hR hq2 hn).imp id fun v _ _ _ hv => ?_
  rw [hv]
  have hfold : ∀ (l : Pieces) (a : ℝ), l.foldl (fun c pc => c + e.domain.volumeOf false (density (mkAnd [pc.2, base]) (pieceTerm pc.1))) a =
      a + (l.map fun pc => e.domain.volumeOf false (density (mkAnd [pc.2, base]) (pieceTerm pc.1))).sum := by
    intro l
    induction l with
    | nil => intro a; simp
    | cons x l ih => intro a; rw [List.foldl_cons, ih, List.map_cons, List.sum_cons, add_assoc]
  rw [hfold, zero_add]
  exact pieces_volume hD hbd hconv hmade
end
end Pywmi
