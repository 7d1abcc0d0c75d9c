import Verif.Props.FactorLemmas

set_option linter.unusedSectionVars false
set_option linter.unusedSimpArgs false

/-!
# Integration along a diagram
-/

namespace Pywmi
open Formula Prog Sdd

variable {E : Type}

/-- SPEC: the parts of an integrator fit together: the literals in `S` have expressions `ex` and names `nm`, an expression depends
on the variables of the groups of its literal only, the groups in `G` have pairwise disjoint variables `Vs` and polynomials `pl` over
them, and the back-end integrates functions that vanish outside `[-M, M]`. -/
structure FactCtx.Fine (C : FactCtx E) (eval : E → (String → ℝ) → ℝ) (l2g : ℤ → Finset ℕ) (S : Set ℕ) (G : Finset ℕ)
    (Vs : ℕ → Finset String) (pl : ℕ → Dict) (ex : ℤ → E) (nm : ℕ → Finset String) (M : ℝ) : Prop where
  alg : C.alg.Sound eval
  tags : C.tagsOf = nodeGroups l2g
  lit : ∀ l : ℤ, l ≠ 0 → l.natAbs ∈ S → C.walkLiteral l = .ok (ex l, nm l.natAbs)
  nice : ∀ l : ℤ, l ≠ 0 → l.natAbs ∈ S → Nice (eval (ex l))
  own : ∀ l : ℤ, l ≠ 0 → l.natAbs ∈ S → ∀ ρ ρ' : String → ℝ, (∀ t ∈ l2g l, ∀ v ∈ Vs t, ρ v = ρ' v) →
    eval (ex l) ρ = eval (ex l) ρ'
  sub : ∀ l : ℤ, l.natAbs ∈ S → l2g l ⊆ G
  names : ∀ i ∈ S, ∀ j ∈ S, i ≠ j → Disjoint (nm i) (nm j)
  group : ∀ t ∈ G, ∃ vs, C.group t = .ok (vs, pl t) ∧ ∀ e, Nice (eval e) → Within M (Vs t) (eval e) →
    ∃ e', C.integrate C.domain e vs = .ok e' ∧ ∀ ρ, eval e' ρ = margin (Vs t) (eval e) ρ
  nonempty : ∀ t ∈ G, (Vs t).Nonempty
  polys : ∀ t ∈ G, ∀ m ∈ pl t, ∀ v ∈ m.1, v ∈ Vs t
  disj : ∀ t ∈ G, ∀ u ∈ G, t ≠ u → Disjoint (Vs t) (Vs u)
  perm : ∀ T, T ⊆ G → (C.tagOrd T).Nodup ∧ (C.tagOrd T).toFinset = T
  order : ∀ o, C.order = some o → o.Nodup ∧ ∀ t ∈ G, t ∈ o

/-- SPEC: every way to make the diagram true bounds the variables of the groups, above and below. -/
def Covered (l2g : ℤ → Finset ℕ) (Vs : ℕ → Finset String) (M : ℝ) (w : ℤ → (String → ℝ) → ℝ) (T : Finset ℕ) (s : Sdd) : Prop :=
  ∀ t ∈ T, ∀ v ∈ Vs t, s.Every (fun l => t ∈ l2g l ∧ ∀ ρ, M < ρ v → w l ρ = 0) ∧
    s.Every (fun l => t ∈ l2g l ∧ ∀ ρ, ρ v < -M → w l ρ = 0)

theorem Covered.within {l2g : ℤ → Finset ℕ} {Vs : ℕ → Finset String} {M : ℝ} {w : ℤ → (String → ℝ) → ℝ} {T : Finset ℕ} {s : Sdd}
    (h : Covered l2g Vs M w T s) : Within M (T.biUnion Vs) (fcirc w s) := by
  intro ρ v hv hm
  obtain ⟨t, ht, hv⟩ := Finset.mem_biUnion.mp hv
  obtain ⟨h1, h2⟩ := h t ht v hv
  rcases lt_abs.mp hm with hm | hm
  · exact wcirc_zero (h1.mono fun l _ hl => hl.2 ρ hm)
  · exact wcirc_zero (h2.mono fun l _ hl => hl.2 ρ (by linarith))

namespace FactCtx
variable {C : FactCtx E} {eval : E → (String → ℝ) → ℝ} {l2g : ℤ → Finset ℕ} {S : Set ℕ} {G : Finset ℕ}
  {Vs : ℕ → Finset String} {pl : ℕ → Dict} {ex : ℤ → E} {nm : ℕ → Finset String} {M : ℝ}

theorem Fine.disjoint (h : C.Fine eval l2g S G Vs pl ex nm M) {T U : Finset ℕ} (hT : T ⊆ G) (hU : U ⊆ G) (hd : Disjoint T U) :
    Disjoint (T.biUnion Vs) (U.biUnion Vs) := by
  refine Finset.disjoint_left.mpr fun v h1 h2 => ?_
  obtain ⟨t, ht, h1⟩ := Finset.mem_biUnion.mp h1
  obtain ⟨u, hu, h2⟩ := Finset.mem_biUnion.mp h2
  refine Finset.disjoint_left.mp (h.disj t (hT ht) u (hU hu) ?_) h1 h2
  rintro rfl
  exact Finset.disjoint_left.mp hd ht hu

/-- Integrating the groups of a list, one after the other. -/
theorem Fine.integrateTags (h : C.Fine eval l2g S G Vs pl ex nm M) {F : (String → ℝ) → ℝ} (hF : Nice F) (c : ℝ) :
    ∀ (ts : List ℕ) (U : Finset ℕ) (e : E), ts.Nodup → (∀ t ∈ ts, t ∈ G ∧ t ∉ U) → U ⊆ G →
      Within M ((U ∪ ts.toFinset).biUnion Vs) F → (∀ ρ, eval e ρ = c * groupInt Vs pl U F ρ) →
      ∃ e', C.integrateTags e ts = .ok e' ∧ ∀ ρ, eval e' ρ = c * groupInt Vs pl (U ∪ ts.toFinset) F ρ := by
  intro ts
  induction ts with
  | nil => intro U e _ _ _ _ he; exact ⟨e, rfl, by simpa using he⟩
  | cons t ts ih =>
    intro U e hnd hts hU hw he
    obtain ⟨htG, htU⟩ := hts t (by simp)
    obtain ⟨vs, g1, g2⟩ := h.group t htG
    have hdis : Disjoint (Vs t) (U.biUnion Vs) := by
      have := h.disjoint (T := {t}) (by simpa using htG) hU (by simpa using htU)
      simpa using this
    have hval : ∀ ρ, eval (C.alg.times e (polyToExpr C.alg (pl t))) ρ = c * groupInt Vs pl U F ρ * polyEval ρ (pl t) := fun ρ => by
      rw [h.alg.times, he, polyToExpr_eval h.alg]
    have hw1 : Within M (Vs t ∪ U.biUnion Vs) F := hw.mono fun v hv => by
      simp only [Finset.mem_union, Finset.mem_biUnion] at hv ⊢
      rcases hv with hv | ⟨u, hu, hv⟩
      · exact ⟨t, by simp, hv⟩
      · exact ⟨u, by simp [hu], hv⟩
    have hnice : Nice (groupInt Vs pl U F) := groupInt_nice hF (hw1.mono fun v hv => Finset.mem_union_right _ hv)
    have hwin : Within M (Vs t) (groupInt Vs pl U F) :=
      Within.margin ((hw1.mono fun v hv => Finset.mem_union_left _ hv).mul_left) hdis.symm
    obtain ⟨e', i1, i2⟩ := g2 _ ((((Nice.const c).mul hnice).mul (polyEval_nice (pl t))).congr hval)
      (by rw [show eval _ = _ from funext hval]; exact (hwin.mul_left (F := fun _ => c)).mul_right)
    have hstep : C.integrateStep e t = .ok e' := by simp only [integrateStep, g1, i1]
    have hval' : ∀ ρ, eval e' ρ = c * groupInt Vs pl (insert t U) F ρ := fun ρ => by
      rw [i2, show eval _ = _ from funext hval, groupInt_insert htU hdis (h.polys t htG) hF hw1]
    have hset : insert t U ∪ ts.toFinset = U ∪ (t :: ts).toFinset := by
      ext x; simp [or_left_comm]
    have hts' := List.nodup_cons.mp hnd
    obtain ⟨r, r1, r2⟩ := ih (insert t U) e' hts'.2
      (fun u hu => ⟨(hts u (by simp [hu])).1, by
        simp only [Finset.mem_insert, not_or]
        exact ⟨fun e => hts'.1 (e ▸ hu), (hts u (by simp [hu])).2⟩⟩)
      (Finset.insert_subset htG hU) (by rw [hset]; exact hw) hval'
    refine ⟨r, ?_, by rwa [hset] at r2⟩
    show foldE C.integrateStep e (t :: ts) = _
    simp only [foldE, hstep]
    exact r1

theorem Fine.listTags (h : C.Fine eval l2g S G Vs pl ex nm M) {T : Finset ℕ} (hT : T ⊆ G) :
    (C.listTags T).Nodup ∧ (C.listTags T).toFinset = T := by
  unfold FactCtx.listTags
  split
  · exact h.perm T hT
  · rename_i o ho
    split
    · obtain ⟨h1, h2⟩ := h.order o ho
      refine ⟨h1.filter _, ?_⟩
      ext x
      simp only [List.mem_toFinset, List.mem_filter, decide_eq_true_eq]
      exact ⟨fun hx => hx.2, fun hx => ⟨h2 x (hT hx), hx⟩⟩
    · exact h.perm T hT

theorem Fine.sharedTags (h : C.Fine eval l2g S G Vs pl ex nm M) (p s : Sdd) {T : Finset ℕ} (hT : T ⊆ G) :
    ∃ U, C.sharedTags p s T = .ok U ∧ (C.tagsOf p ∩ T) ∩ (C.tagsOf s ∩ T) ⊆ U ∧ U ⊆ T := by
  have hsub : (C.tagsOf p ∩ T) ∩ (C.tagsOf s ∩ T) ⊆ T := fun x hx =>
    (Finset.mem_inter.mp (Finset.mem_inter.mp hx).1).2
  unfold FactCtx.sharedTags
  dsimp only
  split
  · exact ⟨_, rfl, subset_rfl, hsub⟩
  · rename_i o ho
    obtain ⟨h1, h2⟩ := h.order o ho
    split
    · rename_i hc
      have : (C.tagsOf p ∩ T) ∩ (C.tagsOf s ∩ T) ⊆ o.toFinset := fun x hx => List.mem_toFinset.mpr (h2 x (hT (hsub hx)))
      simp only [firstIndex, if_pos this]
      refine ⟨_, rfl, Finset.subset_union_left, ?_⟩
      exact Finset.union_subset hsub Finset.inter_subset_left
    · exact ⟨_, rfl, subset_rfl, hsub⟩

/-- The share of a literal in the value of the diagram. -/
noncomputable def shareOf (eval : E → (String → ℝ) → ℝ) (ex : ℤ → E) (nm : ℕ → Finset String) (l : ℤ) (ρ : String → ℝ) : ℝ :=
  eval (ex l) ρ * ((2 : ℝ) ^ (nm l.natAbs).card)⁻¹

theorem smoothPlus_zero {A : Algebra E} (hA : A.Sound eval) (a : E × Finset String) : ∃ r, smoothPlus A a (A.zero, ∅) = .ok r ∧
    r.2 = a.2 ∧ ∀ (ρ : String → ℝ) (x : ℝ), eval a.1 ρ = 2 ^ a.2.card * x → eval r.1 ρ = 2 ^ r.2.card * x := by
  obtain ⟨r, r1, r2, r3⟩ := smoothPlus_spec hA a (A.zero, ∅)
  refine ⟨r, r1, by simpa using r2, fun ρ x hx => ?_⟩
  have := r3 (by by_cases h : a.2 = ∅ <;> simp [h]) ρ x 0 hx (by simp [Algebra.zero, hA.real])
  rwa [add_zero] at this

/-- SPEC: what one call of the recursion has to return. -/
def Answer (C : FactCtx E) (eval : E → (String → ℝ) → ℝ) (Vs : ℕ → Finset String) (pl : ℕ → Dict) (ex : ℤ → E)
    (nm : ℕ → Finset String) (s : Sdd) (T : Finset ℕ) : Prop :=
  ∃ e, C.recursive s T = .ok (e, fnames nm s) ∧
    ∀ ρ, eval e ρ = 2 ^ (fnames nm s).card * groupInt Vs pl T (fcirc (shareOf eval ex nm) s) ρ

theorem shareOf_nice (h : C.Fine eval l2g S G Vs pl ex nm M) {l : ℤ} (h0 : l ≠ 0) (hl : l.natAbs ∈ S) : Nice (shareOf eval ex nm l) :=
  (h.nice l h0 hl).mul (Nice.const _)

theorem shareOf_own (h : C.Fine eval l2g S G Vs pl ex nm M) {l : ℤ} (h0 : l ≠ 0) (hl : l.natAbs ∈ S) (ρ ρ' : String → ℝ)
    (e : ∀ t ∈ l2g l, ∀ v ∈ Vs t, ρ v = ρ' v) : shareOf eval ex nm l ρ = shareOf eval ex nm l ρ' := by
  unfold shareOf
  rw [h.own l h0 hl ρ ρ' e]

theorem liveGroups_sub (h : C.Fine eval l2g S G Vs pl ex nm M) {s : Sdd} (hv : ∀ n ∈ s.vars, n ∈ S) : s.liveGroups l2g ⊆ G :=
  fun t ht => by
    obtain ⟨l, h1, h2⟩ := liveGroups_vars ht
    exact h.sub l (hv _ h1) h2

/-- One element of a decision node. -/
theorem Fine.element (h : C.Fine eval l2g S G Vs pl ex nm M) {p s : Sdd} (wp : p.WF) (ws : s.WF) (tp : p.Trimmed) (ts : s.Trimmed)
    (vp : ∀ n ∈ p.vars, n ∈ S) (vs : ∀ n ∈ s.vars, n ∈ S) (hd : Disjoint p.vars s.vars) (np : p ≠ .ff) (ns : s ≠ .ff)
    {T : Finset ℕ} (hT : T ⊆ G)
    (hc : ∀ t ∈ T, ∀ v ∈ Vs t,
      (p.Every (fun l => t ∈ l2g l ∧ ∀ ρ, M < ρ v → shareOf eval ex nm l ρ = 0) ∨
        s.Every (fun l => t ∈ l2g l ∧ ∀ ρ, M < ρ v → shareOf eval ex nm l ρ = 0)) ∧
      (p.Every (fun l => t ∈ l2g l ∧ ∀ ρ, ρ v < -M → shareOf eval ex nm l ρ = 0) ∨
        s.Every (fun l => t ∈ l2g l ∧ ∀ ρ, ρ v < -M → shareOf eval ex nm l ρ = 0)))
    (ihp : ∀ T, T ⊆ p.liveGroups l2g → Covered l2g Vs M (shareOf eval ex nm) T p → C.Answer eval Vs pl ex nm p T)
    (ihs : ∀ T, T ⊆ s.liveGroups l2g → Covered l2g Vs M (shareOf eval ex nm) T s → C.Answer eval Vs pl ex nm s T) :
    ∃ (U : Finset ℕ) (rp rs : E) (r : E), C.sharedTags p s T = .ok U ∧
      C.recursive p ((C.tagsOf p ∩ T) \ U) = .ok (rp, fnames nm p) ∧
      C.recursive s ((C.tagsOf s ∩ T) \ U) = .ok (rs, fnames nm s) ∧
      C.integrateTags (C.alg.times rp rs) (C.listTags U) = .ok r ∧
      (∀ ρ, eval r ρ = 2 ^ (fnames nm p ∪ fnames nm s).card *
        groupInt Vs pl T (fun ρ => fcirc (shareOf eval ex nm) p ρ * fcirc (shareOf eval ex nm) s ρ) ρ) ∧
      Within M (T.biUnion Vs) (fun ρ => fcirc (shareOf eval ex nm) p ρ * fcirc (shareOf eval ex nm) s ρ) := by
  have hup : ∀ t ∈ T, t ∈ p.liveGroups l2g ∨ t ∈ s.liveGroups l2g := fun t ht => by
    obtain ⟨v, hv⟩ := h.nonempty t (hT ht)
    exact (hc t ht v hv).1.imp (Every.mem_groups (fun l hl => hl.1) tp np) (Every.mem_groups (fun l hl => hl.1) ts ns)
  have gp : C.tagsOf p = p.liveGroups l2g := by rw [h.tags, nodeGroups_eq l2g tp]
  have gs : C.tagsOf s = s.liveGroups l2g := by rw [h.tags, nodeGroups_eq l2g ts]
  obtain ⟨U, u1, u2, u3⟩ := h.sharedTags p s hT
  set Tp := (C.tagsOf p ∩ T) \ U with hTp
  set Ts := (C.tagsOf s ∩ T) \ U with hTs
  have mTp : ∀ t, t ∈ Tp ↔ (t ∈ p.liveGroups l2g ∧ t ∈ T) ∧ t ∉ U := fun t => by simp [hTp, gp]
  have mTs : ∀ t, t ∈ Ts ↔ (t ∈ s.liveGroups l2g ∧ t ∈ T) ∧ t ∉ U := fun t => by simp [hTs, gs]
  have mU : ∀ t, t ∈ p.liveGroups l2g → t ∈ s.liveGroups l2g → t ∈ T → t ∈ U := fun t h1 h2 h3 =>
    u2 (by simp [gp, gs, h1, h2, h3])
  have cp : Covered l2g Vs M (shareOf eval ex nm) Tp p := fun t ht v hv => by
    obtain ⟨⟨t1, t2⟩, t3⟩ := (mTp t).mp ht
    have hn : t ∉ s.liveGroups l2g := fun h' => t3 (mU t t1 h' t2)
    exact ⟨(hc t t2 v hv).1.resolve_right fun h' => hn (h'.mem_groups (fun l hl => hl.1) ts ns),
      (hc t t2 v hv).2.resolve_right fun h' => hn (h'.mem_groups (fun l hl => hl.1) ts ns)⟩
  have cs : Covered l2g Vs M (shareOf eval ex nm) Ts s := fun t ht v hv => by
    obtain ⟨⟨t1, t2⟩, t3⟩ := (mTs t).mp ht
    have hn : t ∉ p.liveGroups l2g := fun h' => t3 (mU t h' t1 t2)
    exact ⟨(hc t t2 v hv).1.resolve_left fun h' => hn (h'.mem_groups (fun l hl => hl.1) tp np),
      (hc t t2 v hv).2.resolve_left fun h' => hn (h'.mem_groups (fun l hl => hl.1) tp np)⟩
  obtain ⟨rp, p1, p2⟩ := ihp Tp (fun t ht => ((mTp t).mp ht).1.1) cp
  obtain ⟨rs, s1, s2⟩ := ihs Ts (fun t ht => ((mTs t).mp ht).1.1) cs
  have hdT : Disjoint Tp Ts := Finset.disjoint_left.mpr fun t h1 h2 =>
    ((mTp t).mp h1).2 (mU t ((mTp t).mp h1).1.1 ((mTs t).mp h2).1.1 ((mTp t).mp h1).1.2)
  have sTp : Tp ⊆ G := fun t ht => hT ((mTp t).mp ht).1.2
  have sTs : Ts ⊆ G := fun t ht => hT ((mTs t).mp ht).1.2
  have hset : (Tp ∪ Ts) ∪ U = T := by
    ext t
    simp only [Finset.mem_union, mTp, mTs]
    constructor
    · rintro ((h | h) | h)
      · exact h.1.2
      · exact h.1.2
      · exact u3 h
    · intro ht
      by_cases hU : t ∈ U
      · exact .inr hU
      · exact .inl ((hup t ht).imp (fun h => ⟨⟨h, ht⟩, hU⟩) fun h => ⟨⟨h, ht⟩, hU⟩)
  have np' : Nice (fcirc (shareOf eval ex nm) p) := fcirc_nice wp fun l h0 hl => shareOf_nice h h0 (vp _ hl)
  have ns' : Nice (fcirc (shareOf eval ex nm) s) := fcirc_nice ws fun l h0 hl => shareOf_nice h h0 (vs _ hl)
  have hwin : Within M (T.biUnion Vs) (fun ρ => fcirc (shareOf eval ex nm) p ρ * fcirc (shareOf eval ex nm) s ρ) := by
    intro ρ v hv hm
    obtain ⟨t, ht, hv⟩ := Finset.mem_biUnion.mp hv
    obtain ⟨h1, h2⟩ := hc t ht v hv
    have zero : ∀ s : Sdd, (∃ Q : ℤ → Prop, (∀ l, Q l → shareOf eval ex nm l ρ = 0) ∧ s.Every Q) →
        fcirc (shareOf eval ex nm) s ρ = 0 := fun s ⟨Q, q1, q2⟩ => wcirc_zero (q2.mono fun l _ hl => q1 l hl)
    show _ * _ = (0 : ℝ)
    rcases lt_abs.mp hm with hm | hm
    · rcases h1 with h1 | h1
      · rw [zero p ⟨_, fun l hl => hl.2 ρ hm, h1⟩, zero_mul]
      · rw [zero s ⟨_, fun l hl => hl.2 ρ hm, h1⟩, mul_zero]
    · rcases h2 with h2 | h2
      · rw [zero p ⟨_, fun l hl => hl.2 ρ (by linarith), h2⟩, zero_mul]
      · rw [zero s ⟨_, fun l hl => hl.2 ρ (by linarith), h2⟩, mul_zero]
  have hfree : ∀ (q : Sdd), q.WF → (∀ n ∈ q.vars, n ∈ S) → ∀ R : Finset ℕ, R ⊆ G → (∀ t ∈ R, t ∉ q.liveGroups l2g) →
      Free (R.biUnion Vs) (fcirc (shareOf eval ex nm) q) := fun q wq vq R hR hq ρ ρ' he => by
    refine fcirc_agree (l2g := l2g) (Vs := Vs) wq (fun l h0 hl => shareOf_own h h0 (vq _ hl)) fun t ht v hv => he v fun hc => ?_
    obtain ⟨u, hu, huv⟩ := Finset.mem_biUnion.mp hc
    exact Finset.disjoint_left.mp (h.disj t (liveGroups_sub h vq ht) u (hR hu) fun e => hq u hu (e ▸ ht)) hv huv
  have hmul : ∀ ρ, eval (C.alg.times rp rs) ρ = 2 ^ (fnames nm p ∪ fnames nm s).card *
      groupInt Vs pl (Tp ∪ Ts) (fun ρ => fcirc (shareOf eval ex nm) p ρ * fcirc (shareOf eval ex nm) s ρ) ρ := fun ρ => by
    rw [groupInt_mul hdT (h.disjoint sTp sTs hdT) (fun t ht => h.polys t (sTp ht)) (fun t ht => h.polys t (sTs ht))
      (hfree p wp vp Ts sTs fun t ht hq => ((mTs t).mp ht).2 (mU t hq ((mTs t).mp ht).1.1 ((mTs t).mp ht).1.2))
      (hfree s ws vs Tp sTp fun t ht hq => ((mTp t).mp ht).2 (mU t ((mTp t).mp ht).1.1 hq ((mTp t).mp ht).1.2)),
      h.alg.times, p2, s2, Finset.card_union_of_disjoint (fnames_disjoint h.names vp vs hd), pow_add]
    ring
  obtain ⟨l1, l2⟩ := h.listTags (u3.trans hT)
  obtain ⟨r, i1, i2⟩ := h.integrateTags (np'.mul ns') _ (C.listTags U) (Tp ∪ Ts) _ l1
    (fun t ht => by
      have : t ∈ U := by rw [← l2]; exact List.mem_toFinset.mpr ht
      refine ⟨hT (u3 this), fun hc => ?_⟩
      rcases Finset.mem_union.mp hc with hc | hc
      · exact ((mTp t).mp hc).2 this
      · exact ((mTs t).mp hc).2 this)
    (Finset.union_subset sTp sTs) (by rw [l2, hset]; exact hwin) hmul
  exact ⟨U, rp, rs, r, u1, p1, s1, i1, by rwa [l2, hset] at i2, hwin⟩

/-- **C49**: the recursion returns the integral, over the variables of the given groups, of the product of the polynomials of the
groups and the value of the diagram, times a factor two for every Boolean name it returns. -/
theorem Fine.recursive (h : C.Fine eval l2g S G Vs pl ex nm M) {s : Sdd} (hwf : s.WF) (ht : s.Trimmed) (hv : ∀ n ∈ s.vars, n ∈ S)
    (hsm : FSmooth nm s) : ∀ T, T ⊆ s.liveGroups l2g → Covered l2g Vs M (shareOf eval ex nm) T s → C.Answer eval Vs pl ex nm s T := by
  induction s using Sdd.induct with
  | tt =>
    intro T hT _
    obtain rfl : T = ∅ := Finset.subset_empty.mp hT
    refine ⟨C.alg.one, ?_, fun ρ => ?_⟩
    · rw [recursive_eq]; rfl
    · simp [groupInt_empty, fcirc, wcirc, fnames, liveGroups, Algebra.one, h.alg.real]
  | ff =>
    intro T hT _
    obtain rfl : T = ∅ := Finset.subset_empty.mp hT
    refine ⟨C.alg.zero, ?_, fun ρ => ?_⟩
    · rw [recursive_eq]; rfl
    · simp [groupInt_empty, fcirc, wcirc, fnames, liveGroups, Algebra.zero, h.alg.real]
  | lit l =>
    intro T hT hc
    cases hwf with
    | lit _ h0 =>
      have hl := hv l.natAbs (by simp [vars])
      have hTG : T ⊆ G := hT.trans (h.sub l hl)
      obtain ⟨q1, q2⟩ := h.perm T hTG
      obtain ⟨r, r1, r2⟩ := h.integrateTags (shareOf_nice h h0 hl) ((2 : ℝ) ^ (nm l.natAbs).card) (C.tagOrd T) ∅ (ex l) q1
        (fun t ht => ⟨hTG (by rw [← q2]; exact List.mem_toFinset.mpr ht), by simp⟩) (by simp)
        (by rw [q2, Finset.empty_union]; exact hc.within)
        (fun ρ => by
          rw [groupInt_empty, shareOf]
          field_simp)
      rw [q2, Finset.empty_union] at r2
      refine ⟨r, ?_, r2⟩
      rw [recursive_eq]
      simp only [body, h.lit l h0 hl, r1]
      rfl
  | dec es ih =>
    intro T hT hc
    cases hwf with
    | dec _ h1 h2 h3 h4 =>
    cases ht with
    | dec _ t1 t2 t3 =>
    cases hsm with
    | dec _ m1 m2 m3 =>
      have hTG : T ⊆ G := hT.trans (liveGroups_sub h hv)
      have key : ∀ (post pre : List (Sdd × Sdd)) (acc : E × Finset String), es = pre ++ post → acc.2 = fnames nm (.dec pre) →
          Nice (fcirc (shareOf eval ex nm) (.dec pre)) → Within M (T.biUnion Vs) (fcirc (shareOf eval ex nm) (.dec pre)) →
          (∀ ρ, eval acc.1 ρ = 2 ^ acc.2.card * groupInt Vs pl T (fcirc (shareOf eval ex nm) (.dec pre)) ρ) →
          ∃ e, (C.elements T post acc).interp (fun q => C.recursive q.1 q.2) = .ok (e, fnames nm (.dec es)) ∧
            ∀ ρ, eval e ρ = 2 ^ (fnames nm (.dec es)).card * groupInt Vs pl T (fcirc (shareOf eval ex nm) (.dec es)) ρ := by
        intro post
        induction post with
        | nil =>
          intro pre acc hes hn _ _ hval
          rw [List.append_nil] at hes
          subst hes
          refine ⟨acc.1, ?_, by rw [← hn]; exact hval⟩
          show Except.ok acc = _
          rw [← hn]
        | cons e post ih' =>
          intro pre acc hes hn hni hwi hval
          have he : e ∈ es := by rw [hes]; simp
          obtain ⟨p, s⟩ := e
          have hcons : ∀ ρ, fcirc (shareOf eval ex nm) (.dec (pre ++ [(p, s)])) ρ =
              fcirc (shareOf eval ex nm) (.dec pre) ρ + fcirc (shareOf eval ex nm) p ρ * fcirc (shareOf eval ex nm) s ρ := fun ρ => by
            simp [fcirc_dec]
          rw [elements]
          by_cases hff : p = .ff ∨ s = .ff
          · rw [if_pos hff]
            obtain ⟨r, r1, r2, r3⟩ := smoothPlus_zero h.alg acc
            simp only [r1]
            have hz : ∀ ρ, fcirc (shareOf eval ex nm) (.dec (pre ++ [(p, s)])) ρ = fcirc (shareOf eval ex nm) (.dec pre) ρ := fun ρ => by
              rw [hcons]
              rcases hff with rfl | rfl <;> simp [fcirc, wcirc]
            have hz' : fcirc (shareOf eval ex nm) (.dec (pre ++ [(p, s)])) = fcirc (shareOf eval ex nm) (.dec pre) := funext hz
            have hlive : liveElem (p, s) = false := by
              rw [Bool.eq_false_iff, ne_eq, liveElem_iff]
              rintro ⟨a, b⟩
              rcases hff with hff | hff
              · exact a hff
              · exact b hff
            refine ih' (pre ++ [(p, s)]) r (by rw [hes]; simp) ?_ (by rw [hz']; exact hni) (by rw [hz']; exact hwi)
              (fun ρ => by rw [hz']; exact r3 ρ _ (hval ρ))
            rw [r2, hn, fnames, fnames, liveGroups, liveGroups, liveGroupsAll_append]
            simp [liveGroupsAll, hlive]
          · rw [if_neg hff]
            push Not at hff
            obtain ⟨n1, n2⟩ := hff
            have hvp : ∀ n ∈ p.vars, n ∈ S := fun n hn => hv n ((vars_mem he).1 hn)
            have hvs : ∀ n ∈ s.vars, n ∈ S := fun n hn => hv n ((vars_mem he).2 hn)
            obtain ⟨U, rp, rs, r, u1, u2, u3, u4, u5, u6⟩ := h.element (h1 _ he) (h2 _ he) (t1 _ he) (t2 _ he) hvp hvs (h3 _ he) n1 n2
              hTG (fun t ht v hv' => ⟨every_dec.mp (hc t ht v hv').1 _ he, every_dec.mp (hc t ht v hv').2 _ he⟩)
              ((ih _ he).1 (h1 _ he) (t1 _ he) hvp (m1 _ he)) ((ih _ he).2 (h2 _ he) (t2 _ he) hvs (m2 _ he))
            simp only [u1, interp, u2, u3, u4]
            obtain ⟨x, x1, x2, x3⟩ := smoothPlus_spec h.alg acc (r, fnames nm p ∪ fnames nm s)
            simp only [x1]
            have hsm' := m3 pre (p, s) post hes n1 n2
            have hnp : Nice fun ρ => fcirc (shareOf eval ex nm) p ρ * fcirc (shareOf eval ex nm) s ρ :=
              (fcirc_nice (h1 _ he) fun l h0 hl => shareOf_nice h h0 (hvp _ hl)).mul
                (fcirc_nice (h2 _ he) fun l h0 hl => shareOf_nice h h0 (hvs _ hl))
            have hfun : fcirc (shareOf eval ex nm) (.dec (pre ++ [(p, s)])) = fun ρ =>
              fcirc (shareOf eval ex nm) (.dec pre) ρ + fcirc (shareOf eval ex nm) p ρ * fcirc (shareOf eval ex nm) s ρ := funext hcons
            refine ih' (pre ++ [(p, s)]) x (by rw [hes]; simp) ?_ (by rw [hfun]; exact hni.add hnp)
              (by rw [hfun]; exact hwi.add u6) fun ρ => ?_
            · rw [x2, hn, fnames, fnames, fnames, fnames, liveGroups, liveGroups, liveGroupsAll_append]
              simp [liveGroupsAll, (liveElem_iff (e := (p, s))).mpr ⟨n1, n2⟩]
            · rw [hfun, groupInt_add hni hnp hwi u6]
              exact x3 (by rw [hn]; exact hsm') ρ _ _ (hval ρ) (u5 ρ)
      have h0 : fcirc (shareOf eval ex nm) (.dec []) = fun _ => 0 := funext fun ρ => by simp [fcirc_dec]
      obtain ⟨e, e1, e2⟩ := key es [] (C.alg.zero, ∅) rfl rfl (by rw [h0]; exact Nice.const 0)
        (by rw [h0]; exact fun _ _ _ _ => rfl)
        (fun ρ => by rw [h0, groupInt_zero]; simp [Algebra.zero, h.alg.real])
      exact ⟨e, by rw [recursive_eq]; exact e1, e2⟩

end FactCtx

end Pywmi
