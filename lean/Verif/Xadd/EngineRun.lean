import Verif.Xadd.Engine
import Verif.Xadd.Clear
import Verif.Xadd.Tail
import Verif.Props.XsddEngine

set_option linter.unusedSectionVars false
set_option linter.unusedSimpArgs false

/-!
# Elimination of all variables, and the volume of the pyxadd engine
-/

namespace Pywmi
open Formula MeasureTheory Set

section
variable {E : Type} [DecidableEq E] {X : XCtx E} {C : RCtx E} {ev : E → (String → ℝ) → ℝ} {Γ : String → Ty}

/-- Sequencing with `Ext`. -/
theorem Run.seqE {α β : Type} {I : Pool E → Prop} {m : XM E α} {f : α → XM E β} {p : Pool E} {s safe : Prop}
    {P : α → Pool E → Prop} {Q : β → Pool E → Prop} (h1 : Run I Ext m p s P) (hs : safe → s)
    (h2 : ∀ a q, I q → Ext p q → P a q → Run I Ext (f a) q safe Q) : Run I Ext (m >>= f) p safe Q :=
  Run.bind (R := Ext) (fun h h' => h.trans h') (h1.imp hs fun _ _ _ _ h => h) h2

theorem Run.fr2E {α : Type} {I : Pool E → Prop} {m : XM E α} {p : Pool E} {s : Prop} {Q : α → Pool E → Prop} (h : Run I Fr2 m p s Q) :
    Run I Ext m p s Q := h.weaken (fun _ h _ => h) fun _ h => h.toExt

theorem bind_assoc' {α β γ : Type} (m : XM E α) (f : α → XM E β) (g : β → XM E γ) : (m >>= f) >>= g = m >>= fun a => f a >>= g := by
  funext p
  rw [XM.bind_apply, XM.bind_apply, XM.bind_apply]
  cases m p with
  | mk r q => cases r with
    | ok a => rfl
    | error e => rfl

theorem eliminate_append (vs ws : List (String × Ty)) (n : ℕ) : eliminate C (vs ++ ws) n = eliminate C vs n >>= eliminate C ws := by
  induction vs generalizing n with
  | nil => rfl
  | cons v vs ih =>
    simp only [List.cons_append, eliminate]
    rw [bind_assoc']
    congr 1
    funext a
    exact ih a

/-! ### Boolean variables -/

theorem eliminate_bools (hR : RLaw C ev) : ∀ (bs : List String), bs.Nodup → (∀ b ∈ bs, Γ b = .bool) → ∀ {p : Pool E}, Inv2 C.X Γ ev p →
    ∀ {n : ℕ} {T : XTree E}, Den p n T → T.Ord p.tests →
    Run (Inv2 C.X Γ ev) Fr2 (eliminate C (bs.map fun b => (b, Ty.bool)) n) p True (fun r q => ∃ R, Den q r R ∧ R.Ord q.tests ∧
      (∀ σ : Env ℝ, R.eval ev σ = sumBools bs (T.eval ev) σ) ∧ ∀ g ∈ R.tests, g ∈ T.tests ∧ ∀ b ∈ bs, g ≠ .sym b .bool)
  | [], _, _, p, hp, n, T, hT, ho => Run.ret Fr2.refl hp ⟨T, hT, ho, fun _ => rfl, fun g hg => ⟨hg, by simp⟩⟩
  | b :: bs, hnd, hΓ, p, hp, n, T, hT, ho => by
    obtain ⟨hb, hnd⟩ := List.nodup_cons.mp hnd
    simp only [List.map_cons, eliminate]
    refine Run.seq2 (integrate_bool hR (hΓ b (by simp)) hp hT) id ?_
    rintro n1 q1 hq1 h01 ⟨R1, hR1, hs⟩
    have s := hs ((XTree.Ord.mono h01.tests (hT.tests hp.core)).mpr ho)
    refine (eliminate_bools hR bs hnd (fun c hc => hΓ c (by simp [hc])) hq1 hR1 s.ord).imp id ?_
    rintro r q hq h12 ⟨R, hRd, hRo, hRv, hRt⟩
    refine ⟨R, hRd, hRo, fun σ => ?_, fun g hg => ?_⟩
    · rw [hRv, sumBools_inner hb]
      congr 1
      funext τ
      exact s.val τ
    · obtain ⟨h1, h2⟩ := hRt g hg
      obtain ⟨h3, h4⟩ := s.tests g h1
      refine ⟨h3, fun c hc => ?_⟩
      rcases List.mem_cons.mp hc with rfl | hc
      · exact h4
      · exact h2 c hc

/-! ### Real variables -/

/-- SPEC: a function integrable in the listed variables, and zero almost everywhere outside some box. -/
def Boxed (rs : List String) (φ : Env ℝ → ℝ) : Prop :=
  ∃ M : ℝ, ∀ σ : Env ℝ, (Integrable fun x => φ (σ.setReals rs x)) ∧ ∀ᵐ x : Fin rs.length → ℝ, (∃ i, M < |x i|) → φ (σ.setReals rs x) = 0

theorem region_none (σ : Env ℝ) : region σ none none = univ := by
  ext t; simp [region]

theorem resolve_boxed (hb : BackLaw X.back ev) {x : String} {xs : List String} (hx : x ∉ xs) {T R : XTree E} (hT : T.AllDec DecOk)
    (hs : ResSpec ev x none none T R) (h : Boxed (x :: xs) (T.eval ev)) :
    Boxed xs (R.eval ev) ∧ ∀ σ : Env ℝ, intReals (x :: xs) (T.eval ev) σ = intReals xs (R.eval ev) σ := by
  obtain ⟨M, hM⟩ := h
  have key : ∀ σ : Env ℝ, ∀ᵐ y : Fin xs.length → ℝ, ∀ᵐ t : ℝ, ((∃ i, M < |y i|) ∨ M < |t|) → T.eval ev ((σ.setReals xs y).setR x t) = 0 := by
    intro σ
    obtain ⟨h1, h2⟩ := hM σ
    refine (intReals_inner hx h1).2.2 (fun y t => ((∃ i, M < |y i|) ∨ M < |t|) → T.eval ev ((σ.setReals xs y).setR x t) = 0) ?_
    filter_upwards [h2] with z hz hor
    rw [setReals_cons hx, setReals_setR hx] at hz
    refine hz ?_
    rcases hor with ⟨i, hi⟩ | h0
    · exact ⟨i.succ, hi⟩
    · exact ⟨0, h0⟩
  have hR : ∀ σ : Env ℝ, ∀ᵐ y : Fin xs.length → ℝ, R.eval ev (σ.setReals xs y) = ∫ t, T.eval ev ((σ.setReals xs y).setR x t) := by
    intro σ
    filter_upwards [key σ] with y hy
    have := hs.val (σ.setReals xs y) (by simp) (by
      rw [region_none]
      exact XTree.vanish_of_ae hb hT (M := M) (by filter_upwards [hy] with t ht hm using ht (Or.inr hm)))
    rw [this, region_none, setIntegral_univ]
    rfl
  refine ⟨⟨M, fun σ => ⟨?_, ?_⟩⟩, fun σ => ?_⟩
  · refine ((intReals_inner hx (hM σ).1).2.1).congr ?_
    filter_upwards [hR σ] with y hy using hy.symm
  · filter_upwards [hR σ, key σ] with y h1 h2 h3
    rw [h1]
    rw [integral_congr_ae (g := fun _ => 0) (by filter_upwards [h2] with t ht using ht (Or.inl h3))]
    simp
  · rw [(intReals_inner hx (hM σ).1).1]
    unfold intReals
    refine integral_congr_ae ?_
    filter_upwards [hR σ] with y hy using hy.symm

theorem eliminate_reals (hR : RLaw C ev) : ∀ (rs : List String), rs.Nodup → (∀ x ∈ rs, Γ x = .real) → ∀ {p : Pool E}, Inv2 C.X Γ ev p →
    ∀ {n : ℕ} {T : XTree E}, Den p n T → Boxed rs (T.eval ev) →
    Run (Inv2 C.X Γ ev) Fr2 (eliminate C (rs.map fun b => (b, Ty.real)) n) p True (fun r q => ∃ R, Den q r R ∧
      (∀ σ : Env ℝ, R.eval ev σ = intReals rs (T.eval ev) σ) ∧
      SymsIn (fun v => (∃ g ∈ T.tests, v ∈ syms g) ∧ ∀ x ∈ rs, v ≠ (x, Ty.real)) R)
  | [], _, _, p, hp, n, T, hT, _ => Run.ret Fr2.refl hp ⟨T, hT, fun σ => (intReals_nil _ σ).symm, fun g hg v hv => ⟨⟨g, hg, hv⟩, by simp⟩⟩
  | x :: xs, hnd, hΓ, p, hp, n, T, hT, hB => by
    obtain ⟨hx, hnd⟩ := List.nodup_cons.mp hnd
    simp only [List.map_cons, eliminate]
    refine Run.seq2 (integrate_real hR (hΓ x (by simp)) hp hT) id ?_
    rintro n1 q1 hq1 h01 ⟨R1, hR1, hs⟩
    obtain ⟨hB1, hI⟩ := resolve_boxed hR.back hx (XTree.AllDec.imp (fun _ h => h.1) (hT.decs hp.core)) hs hB
    refine (eliminate_reals hR xs hnd (fun c hc => hΓ c (by simp [hc])) hq1 hR1 hB1).imp id ?_
    rintro r q hq h12 ⟨R, hRd, hRv, hRs⟩
    refine ⟨R, hRd, fun σ => by rw [hRv, hI], fun g hg v hv => ?_⟩
    obtain ⟨⟨g', hg', hv'⟩, h2⟩ := hRs g hg v hv
    obtain ⟨h3, h4⟩ := hs.syms g' hg' v hv'
    refine ⟨by simpa using h4, fun y hy => ?_⟩
    rcases List.mem_cons.mp hy with rfl | hy
    · exact h3
    · exact h2 y hy

/-! ### The last node -/

theorem DecOk.syms_ne {d : Decision} (h : DecOk d) : syms d.test ≠ [] := by
  rcases h.2 with ⟨b, hb⟩ | ⟨q, -, hq, hg⟩
  · rw [hb]; simp [syms]
  · intro he
    obtain ⟨-, ht⟩ := DecOk.truth_lin hq hg
    obtain ⟨⟨ρ, h1⟩, ⟨ρ', h2⟩⟩ := hq.both (K := ℝ)
    have e := truth_congr (σ := (⟨fun _ => false, ρ⟩ : Env ℝ)) (τ := ⟨fun _ => false, ρ'⟩) h.wt (by rw [he]; simp)
    have a1 := (ht ⟨fun _ => false, ρ⟩).mpr h1
    have a2 := mt (ht ⟨fun _ => false, ρ'⟩).mp h2
    rw [e] at a1
    exact a2 a1

theorem terminalValue_run (hb : BackLaw X.back ev) {p : Pool E} (hp : Inv2 X Γ ev p) {n : ℕ} {T : XTree E} (hT : Den p n T)
    (hs : SymsIn (fun _ => False) T) {c : ℝ} (hc : ∀ σ : Env ℝ, T.eval ev σ = c) :
    Run (Inv2 X Γ ev) Ext (terminalValue X n) p True (fun v _ => (v : ℝ) = c) := by
  cases hT with
  | leaf h =>
    rename_i e
    obtain ⟨q, hq, hqc⟩ := hb.toFloat e c fun ρ => hc ⟨fun _ => false, ρ⟩
    unfold terminalValue
    refine Run.bindEq (R := Ext) (fun h h' => h.trans h') (q := p) (a := .leaf e) (by unfold getNode; rw [h]) (Ext.refl p) ?_
    show Run _ _ (XM.lift (X.back.toFloat e)) _ _ _
    rw [hq]
    exact Run.ret Ext.refl hp hqc
  | node h h1 h2 =>
    rename_i d t f A B
    exfalso
    have hd := ((Den.node h h1 h2).decs hp.core).1.1
    obtain ⟨v, hv⟩ := List.exists_mem_of_ne_nil _ hd.syms_ne
    exact hs d.test (by simp [XTree.tests]) v hv

/-! ### The integrand -/

theorem Boxed.congr {rs : List String} {φ ψ : Env ℝ → ℝ} (h : Boxed rs φ)
    (he : ∀ σ : Env ℝ, ∀ᵐ x : Fin rs.length → ℝ, φ (σ.setReals rs x) = ψ (σ.setReals rs x)) : Boxed rs ψ := by
  obtain ⟨M, hM⟩ := h
  refine ⟨M, fun σ => ⟨(hM σ).1.congr (he σ), ?_⟩⟩
  filter_upwards [he σ, (hM σ).2] with x h1 h2 h3
  rw [← h1, h2 h3]

theorem intReals_congr {rs : List String} {φ ψ : Env ℝ → ℝ} {σ : Env ℝ}
    (he : ∀ᵐ x : Fin rs.length → ℝ, φ (σ.setReals rs x) = ψ (σ.setReals rs x)) : intReals rs φ σ = intReals rs ψ σ :=
  integral_congr_ae he

theorem Boxed.sum {rs : List String} {φ : Env ℝ → ℝ} (h : Boxed rs φ) : ∀ bs : List String,
    Boxed rs (sumBools bs φ) ∧ ∀ σ, intReals rs (sumBools bs φ) σ = sumBools bs (intReals rs φ) σ
  | [] => ⟨h, fun _ => rfl⟩
  | b :: bs => by
    obtain ⟨⟨M, hM⟩, hI⟩ := Boxed.sum h bs
    refine ⟨⟨M, fun σ => ⟨(hM (σ.setB b true)).1.add (hM (σ.setB b false)).1, ?_⟩⟩, fun σ => ?_⟩
    · filter_upwards [(hM (σ.setB b true)).2, (hM (σ.setB b false)).2] with x h1 h2 h3
      have e1 := h1 h3
      have e2 := h2 h3
      simp only [sumBools]
      have : ∀ v, (σ.setReals rs x).setB b v = (σ.setB b v).setReals rs x := fun v => rfl
      rw [this, this, e1, e2, add_zero]
    · simp only [sumBools]
      rw [← hI, ← hI]
      exact integral_add (hM (σ.setB b true)).1 (hM (σ.setB b false)).1

/-- The integrand depends on the variables of the domain only. -/
theorem restricted_base {D : Domain} {S w : Formula} (hP : Problem D S w) (ab : Bool) {σ τ : Env ℝ} (h : ∀ b ∈ D.bools, σ.b b = τ.b b)
    (x : Fin D.reals.length → ℝ) : D.restricted ab (density S w) (σ.setReals D.reals x) = D.restricted ab (density S w) (τ.setReals D.reals x) := by
  have hr : ∀ v ∈ D.reals, (σ.setReals D.reals x).r v = (τ.setReals D.reals x).r v := fun v hv => by
    simp [Env.setReals, List.idxOf_lt_length_iff, hv]
  have hag : ∀ f, D.covers f → ∀ p ∈ syms f, Agree (σ.setReals D.reals x) (τ.setReals D.reals x) p := by
    intro f hf p hp
    obtain ⟨h1, h2⟩ := hf p hp
    obtain ⟨v, ty⟩ := p
    cases ty with
    | bool => exact h v (mem_bools.mpr ⟨h1, h2⟩)
    | real => exact hr v (mem_reals.mpr ⟨h1, h2⟩)
  have hd : density S w (σ.setReals D.reals x) = density S w (τ.setReals D.reals x) := by
    unfold density
    rw [truth_congr hP.supportWt (hag S hP.supportVars), value_congr hP.weightWt (hag w hP.weightVars)]
  have hbx : D.inBox (σ.setReals D.reals x) ↔ D.inBox (τ.setReals D.reals x) := by
    unfold Domain.inBox
    refine forall₂_congr fun p hp => ?_
    rw [hr p.1 ((hP.box.wf.mem_real p.1).mp (List.mem_map_of_mem hp))]
  unfold Domain.restricted
  rw [hd, hbx]

theorem restricted_boxed {D : Domain} {S w : Formula} (hP : Problem D S w) {ab : Bool} (hc : D.confined ab (density S w)) :
    Boxed D.reals (D.restricted ab (density S w)) := by
  obtain ⟨M, -, hM⟩ := box_bounded hP.box
  refine ⟨M, fun σ => ⟨?_, Filter.Eventually.of_forall fun x ⟨i, hi⟩ => ?_⟩⟩
  · have := (tame_of_bound hP.box hc (density_le S w) σ.b).integrable (restricted_meas D ab (density_meas S w))
    refine this.congr (Filter.Eventually.of_forall fun x => ?_)
    exact restricted_base hP ab (σ := ⟨σ.b, env0.r⟩) (τ := σ) (fun _ _ => rfl) x
  · have hb : ¬ D.inBox (σ.setReals D.reals x) := fun hb => by
      have := hM _ hb D.reals[i] (List.getElem_mem i.2)
      rw [setReals_get (reals_nodup hP.box.wf)] at this
      linarith
    unfold Domain.restricted
    split_ifs with h
    · rcases hc with hc | hc
      · exact absurd (h hc) hb
      · exact hc _ hb
    · rfl

theorem sumBools_base {B : List String} {φ : Env ℝ → ℝ} (h : ∀ σ τ : Env ℝ, (∀ b ∈ B, σ.b b = τ.b b) → φ σ = φ τ) :
    ∀ (bs : List String) (σ τ : Env ℝ), (∀ b ∈ B, b ∉ bs → σ.b b = τ.b b) → sumBools bs φ σ = sumBools bs φ τ
  | [], σ, τ, hst => h σ τ fun b hb => hst b hb (by simp)
  | c :: bs, σ, τ, hst => by
    simp only [sumBools]
    have : ∀ v, ∀ b ∈ B, b ∉ bs → (σ.setB c v).b b = (τ.setB c v).b b := by
      intro v b hb hn
      by_cases hbc : b = c
      · subst hbc; simp [Env.setB]
      · simpa [Env.setB, hbc] using hst b hb (by simp [hbc, hn])
    rw [sumBools_base h bs _ _ (this true), sumBools_base h bs _ _ (this false)]

/-! ### The bounds -/

theorem boundList_supB {D : Domain} : ∀ (ds : List (String × Bounds)), (∀ p ∈ ds, D.varTypes.lookup p.1 = some .real) → ∀ fs,
    D.boundList ds = .ok fs → ∀ f ∈ fs, supB f = true
  | [], _, fs, h, f, hf => by cases h; cases hf
  | (v, lb, ub) :: ds, hd, fs, h, f, hf => by
    have hv := hd (v, lb, ub) (by simp)
    simp only at hv
    simp only [Domain.boundList, Domain.getSymbol, dictGet, hv] at h
    cases hr : D.boundList ds with
    | error err => rw [hr] at h; cases h
    | ok rest =>
      rw [hr] at h
      simp only [Except.ok.injEq] at h
      subst h
      simp only [List.mem_append] at hf
      rcases hf with hf | hf | hf
      · cases lb with
        | none => simp at hf
        | some l => simp only [List.mem_singleton] at hf; subst hf; simp [supB, linTerm]
      · cases ub with
        | none => simp at hf
        | some l => simp only [List.mem_singleton] at hf; subst hf; simp [supB, linTerm]
      · exact boundList_supB ds (fun p hp => hd p (by simp [hp])) rest hr f hf

theorem bounds_supB {D : Domain} (hD : BoxOk D) {b : Formula} (h : D.getBounds = .ok b) : supB b = true := by
  have hty : ∀ p ∈ D.varDomains, D.varTypes.lookup p.1 = some .real := fun p hp' =>
    lookup_mem_nodup hD.wf.typesNodup ((hD.wf.doms p.1).mp (List.mem_map_of_mem hp'))
  simp only [Domain.getBounds] at h
  cases hbl : D.boundList D.varDomains with
  | error e => rw [hbl] at h; cases h
  | ok fs =>
    rw [hbl] at h
    simp only [Except.ok.injEq] at h
    subst h
    have := boundList_supB _ hty fs hbl
    unfold mkAnd
    split
    · rfl
    · exact this _ (by simp)
    · rename_i h1 h2
      simp only [supB, Bool.and_eq_true, Bool.not_eq_true', supBAll_iff]
      exact ⟨by cases fs with | nil => exact absurd rfl h1 | cons => rfl, this⟩

/-- SPEC: the support with the bounds of the domain. -/
theorem xaddSupport_ok {e : EngineObj} (hD : BoxOk e.domain) (ab : Bool) (hs : supB e.support = true) (hv : e.domain.covers e.support)
    (hg : Generic e.support) : ∃ s, xaddSupport e ab = .ok s ∧ supB s = true ∧ e.domain.covers s ∧ Generic s ∧
      ∀ σ : Env ℝ, truth σ s = true ↔ truth σ e.support = true ∧ (ab = true → e.domain.inBox σ) := by
  cases ab with
  | false => exact ⟨e.support, rfl, hs, hv, hg, fun σ => by simp⟩
  | true =>
    obtain ⟨b, hb, hx, ht, -⟩ := bounds_ok hD
    refine ⟨.and [e.support, b], by simp [xaddSupport, hb], by simp [supB, supBAll, hs, bounds_supB hD hb], ?_, ?_, fun σ => ?_⟩
    · intro p hp
      simp only [syms, symsList, List.append_nil, List.mem_append] at hp
      exact hp.elim (hv p) (hx.vars p)
    · intro l r hlr
      simp only [atoms, atomsList, List.append_nil, List.mem_append] at hlr
      exact hlr.elim (hg l r) fun h => hx.generic _ h
    · simp [truth, truthAll, ht σ]

/-! ### The volume -/

theorem symbolsOf_ok {D : Domain} : ∀ (vs : List String), (∀ v ∈ vs, D.varTypes.lookup v = some (Γ v)) →
    D.symbolsOf vs = .ok (vs.map fun v => (v, Γ v))
  | [], _ => rfl
  | v :: vs, h => by
    simp only [Domain.symbolsOf, dictGet, h v (by simp), symbolsOf_ok vs fun u hu => h u (by simp [hu]), List.map_cons]

/-- `compute_volume` of the pyxadd engine is the weighted model integral, from any pool. -/
theorem xaddVolume_run (hR : RLaw C ev) {p : Pool E} (hp : Inv2 C.X Γ ev p) {e : EngineObj} {w : Formula} (hw : e.weight = some w)
    (hP : Problem e.domain e.support w) (hΓ : ∀ v ∈ e.domain.vars, e.domain.varTypes.lookup v = some (Γ v))
    (hord : e.domain.vars = e.domain.bools ++ e.domain.reals) {ab : Bool} (hc : e.domain.confined ab (density e.support w))
    (hs : supB e.support = true) (hsw : supW w = true) (hg : Generic e.support) (hgw : Generic w) :
    Run (Inv2 C.X Γ ev) Ext (xaddVolume C e ab) p True (fun v _ => (v : ℝ) = e.domain.volumeOf ab (density e.support w)) := by
  obtain ⟨s, hs1, hs2, hsv, hsg, hst⟩ := xaddSupport_ok hP.box ab hs hP.supportVars hg
  unfold xaddVolume
  refine Run.bindLift hs1 ?_
  refine Run.seqE (convert_run hR.simp hR.back hp (m := true) (f := s) (Or.inl ⟨rfl, Or.inl hs2⟩)) id ?_
  rintro rs q1 hq1 h01 ⟨hr1, -, -⟩
  obtain ⟨ns, rfl, hns⟩ := hr1 rfl hs2
  simp only [hw]
  refine Run.seqE (convert_run hR.simp hR.back hq1 (m := false) (f := w) (Or.inr ⟨rfl, hsw⟩)) id ?_
  rintro rw q2 hq2 h12 ⟨-, -, hr2⟩
  obtain ⟨nw, rfl, W, hW, tW⟩ := hr2 rfl hsw
  obtain ⟨S, hS, tS⟩ := hns.mono hq1.core h12
  have tS := tS.wtree hR.back
  refine Run.useNode (Run.useNode ?_)
  refine Run.seqE ((apply2 hR.simp (Or.inl rfl) hq2 hS hW).fr2E) id ?_
  rintro n q3 hq3 h23 ⟨T, hT, ha⟩
  have hTo : T.Ord q3.tests := ha.ord ((XTree.Ord.mono h23.tests (hS.tests hq2.core)).mpr tS.ord)
    ((XTree.Ord.mono h23.tests (hW.tests hq2.core)).mpr tW.ord)
  have hTs : SymsIn (fun v => v.1 ∈ e.domain.vars ∧ e.domain.varTypes.lookup v.1 = some v.2) T :=
    ha.symsIn (tS.syms.mono hsv) (tW.syms.mono hP.weightVars)
  refine Run.bindLift (symbolsOf_ok e.domain.vars hΓ) ?_
  have hmap : (e.domain.vars.map fun v => (v, Γ v)) =
      (e.domain.bools.map fun v => (v, Ty.bool)) ++ e.domain.reals.map fun v => (v, Ty.real) := by
    conv_lhs => rw [hord]
    rw [List.map_append]
    congr 1
    · refine List.map_congr_left fun v hv => ?_
      obtain ⟨h1, h2⟩ := mem_bools.mp hv
      rw [hΓ v h1] at h2
      simp only [Option.some.injEq] at h2
      rw [h2]
    · refine List.map_congr_left fun v hv => ?_
      obtain ⟨h1, h2⟩ := mem_reals.mp hv
      rw [hΓ v h1] at h2
      simp only [Option.some.injEq] at h2
      rw [h2]
  have hΓb : ∀ b ∈ e.domain.bools, Γ b = .bool := fun b hb => by
    obtain ⟨h1, h2⟩ := mem_bools.mp hb
    rw [hΓ b h1] at h2
    simpa using h2
  have hΓr : ∀ b ∈ e.domain.reals, Γ b = .real := fun b hb => by
    obtain ⟨h1, h2⟩ := mem_reals.mp hb
    rw [hΓ b h1] at h2
    simpa using h2
  -- the diagram is the integrand almost everywhere
  have hval : ∀ σ : Env ℝ, ∀ᵐ x : Fin e.domain.reals.length → ℝ,
      e.domain.restricted ab (density e.support w) (σ.setReals e.domain.reals x) = T.eval ev (σ.setReals e.domain.reals x) := by
    intro σ
    filter_upwards [clear_ae hP.box.wf (litOk_atoms s (supB_litOk s hs2)) hsv hsg σ,
      clear_ae hP.box.wf (supW_atoms w hsw) hP.weightVars hgw σ] with x c1 c2
    rw [ha.eval hR.back (Or.inl rfl), tS.val, tW.val, readF_clear s hs2 c1, readV_clear w hsw c2]
    have := hst (σ.setReals e.domain.reals x)
    unfold Domain.restricted density
    by_cases h1 : ab = true → e.domain.inBox (σ.setReals e.domain.reals x)
    · by_cases h2 : truth (σ.setReals e.domain.reals x) e.support = true
      · rw [if_pos h1, if_pos h2, if_pos (this.mpr ⟨h2, h1⟩)]; simp [opR]
      · rw [if_pos h1, if_neg h2, if_neg fun h => h2 (this.mp h).1]; simp [opR]
    · rw [if_neg h1, if_neg fun h => h1 (this.mp h).2]; simp [opR]
  have hbox := restricted_boxed hP hc
  have hTb : Boxed e.domain.reals (T.eval ev) := hbox.congr hval
  rw [hmap, eliminate_append]
  rw [bind_assoc']
  refine Run.seqE ((eliminate_bools hR _ (bools_nodup hP.box.wf) hΓb hq3 hT hTo).fr2E) id ?_
  rintro n4 q4 hq4 h34 ⟨R4, hR4, -, hv4, ht4⟩
  have hf : R4.eval ev = sumBools e.domain.bools (T.eval ev) := funext hv4
  refine Run.seqE ((eliminate_reals hR _ (reals_nodup hP.box.wf) hΓr hq4 hR4 (by rw [hf]; exact (hTb.sum _).1)).fr2E) id ?_
  rintro n5 q5 hq5 h45 ⟨R5, hR5, hv5, hs5⟩
  refine terminalValue_run hR.back hq5 hR5 (fun g hg' v hv => ?_) fun σ => ?_
  · obtain ⟨⟨g4, hg4, hvg⟩, h2⟩ := hs5 g hg' v hv
    obtain ⟨hgT, hnb⟩ := ht4 g4 hg4
    obtain ⟨h3, h4⟩ := hTs g4 hgT v hvg
    obtain ⟨m, ty⟩ := v
    cases ty with
    | real => exact h2 m (mem_reals.mpr ⟨h3, h4⟩) rfl
    | bool =>
      have := XTree.AllDec.tests (Q := fun g => (m, Ty.bool) ∈ syms g ↔ g = .sym m .bool) (fun d h => h.1.bool_iff m) (hR4.decs hq4.core) g4 hg4
      exact hnb m (mem_bools.mpr ⟨h3, h4⟩) (this.mp hvg)
  · rw [hv5, hf, (hTb.sum _).2, Domain.volumeOf, wmiOf]
    have e1 : intReals e.domain.reals (T.eval ev) = intReals e.domain.reals (e.domain.restricted ab (density e.support w)) := by
      funext τ
      exact intReals_congr ((hval τ).mono fun _ h => h.symm)
    rw [e1]
    refine sumBools_base (B := e.domain.bools) (fun σ τ h => ?_) _ _ _ fun b hb hn => absurd hb hn
    exact integral_congr_ae (Filter.Eventually.of_forall fun x => restricted_base hP ab h x)

end
end Pywmi
