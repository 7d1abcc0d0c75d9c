import Verif.Domain.Domain
import Verif.Props.Parse
import Mathlib.MeasureTheory.Measure.Lebesgue.Basic

set_option linter.unusedSectionVars false
set_option linter.unusedSimpArgs false

/-!
# C26, C27, C30, C59: domains, densities and their files
-/

namespace Pywmi
open Formula Prog

/-! ### Dictionaries -/

theorem dictSet_fresh {β : Type} {d : List (String × β)} {k : String} (h : k ∉ d.map (·.1)) (v : β) :
    dictSet d k v = d ++ [(k, v)] := by
  induction d with
  | nil => rfl
  | cons p d ih =>
    obtain ⟨k', w⟩ := p
    simp only [List.map_cons, List.mem_cons, not_or] at h
    simp [dictSet, Ne.symm h.1, ih h.2]

theorem dictUpdate_fresh {β : Type} (d ps : List (String × β)) (h : ((d ++ ps).map (·.1)).Nodup) :
    dictUpdate d ps = d ++ ps := by
  unfold dictUpdate
  induction ps generalizing d with
  | nil => simp
  | cons p ps ih =>
    have hf : p.1 ∉ d.map (·.1) := by
      rw [List.map_append, List.nodup_append] at h
      intro hm
      exact h.2.2 _ hm _ (by simp) rfl
    rw [List.foldl_cons, dictSet_fresh hf, ih (d ++ [(p.1, p.2)]) (by simpa using h)]
    simp

theorem dictOf_nodup {β : Type} {ps : List (String × β)} (h : (ps.map (·.1)).Nodup) : dictOf ps = ps := by
  simpa [dictUpdate, dictOf] using dictUpdate_fresh [] ps (by simpa using h)

theorem lookup_mem_nodup {α β : Type} [DecidableEq α] {d : List (α × β)} (hn : (d.map (·.1)).Nodup) {k : α} {v : β}
    (h : (k, v) ∈ d) : d.lookup k = some v := by
  induction d with
  | nil => cases h
  | cons p d ih =>
    obtain ⟨k', w⟩ := p
    simp only [List.map_cons, List.nodup_cons] at hn
    rcases List.mem_cons.mp h with h' | h'
    · cases h'; simp [List.lookup_cons]
    · have : k ≠ k' := by rintro rfl; exact hn.1 (List.mem_map.mpr ⟨(k, v), h', rfl⟩)
      simp [List.lookup_cons, beq_eq_false_iff_ne.mpr this, ih hn.2 h']

theorem mem_of_dictGet {α β : Type} [DecidableEq α] {d : List (α × β)} {k : α} {v : β} (h : d.lookup k = some v) :
    (k, v) ∈ d := by
  induction d with
  | nil => simp at h
  | cons p d ih =>
    obtain ⟨k', w⟩ := p
    rw [List.lookup_cons] at h
    by_cases hk : k = k'
    · subst hk; simp at h; subst h; simp
    · rw [beq_eq_false_iff_ne.mpr hk] at h
      exact List.mem_cons_of_mem _ (ih h)

theorem lookup_of_key {α β : Type} [DecidableEq α] {d : List (α × β)} {k : α} (h : k ∈ d.map (·.1)) :
    ∃ v, d.lookup k = some v := by
  induction d with
  | nil => simp at h
  | cons p d ih =>
    obtain ⟨k', w⟩ := p
    rw [List.lookup_cons]
    by_cases hk : k = k'
    · subst hk; exact ⟨w, by simp⟩
    · rw [beq_eq_false_iff_ne.mpr hk]
      exact ih ((List.mem_cons.mp h).resolve_left hk)

theorem lookup_none_of_key {α β : Type} [DecidableEq α] {d : List (α × β)} {k : α} (h : k ∉ d.map (·.1)) :
    d.lookup k = none := by
  cases hl : d.lookup k with
  | none => rfl
  | some v => exact absurd (List.mem_map.mpr ⟨(k, v), mem_of_dictGet hl, rfl⟩) h

namespace Domain

/-! ### C26: bounds and volumes -/

section
variable {K : Type} [Field K] [LinearOrder K] [IsStrictOrderedRing K]

/-- SPEC: a number is inside bounds. -/
def inBounds (x : K) (b : Bounds) : Prop := (∀ l, b.1 = some l → (l : K) ≤ x) ∧ (∀ u, b.2 = some u → x ≤ (u : K))

theorem boundList_spec (D : Domain) (ds : List (String × Bounds)) (h : ∀ p ∈ ds, D.varTypes.lookup p.1 = some .real) :
    ∃ bs, D.boundList ds = .ok bs ∧ (∀ b ∈ bs, wt .bool b = true) ∧
      ∀ σ : Env K, bs.all (truth σ) = true ↔ ∀ p ∈ ds, inBounds (σ.r p.1) p.2 := by
  induction ds with
  | nil => exact ⟨[], rfl, by simp, by simp⟩
  | cons p ds ih =>
    obtain ⟨v, lb, ub⟩ := p
    obtain ⟨bs, hb, hw, hs⟩ := ih fun p hp => h p (by simp [hp])
    have hv := h (v, lb, ub) (by simp)
    simp only at hv
    refine ⟨_, by simp only [boundList, getSymbol, dictGet, hv, hb]; rfl, ?_, fun σ => ?_⟩
    · intro b hm
      simp only [List.mem_append] at hm
      rcases hm with hm | hm | hm
      · cases lb <;> simp at hm; subst hm; rfl
      · cases ub <;> simp at hm; subst hm; rfl
      · exact hw b hm
    · rw [List.all_append, List.all_append, Bool.and_eq_true, Bool.and_eq_true, hs, List.forall_mem_cons, ← and_assoc]
      refine and_congr_left' ?_
      have hd : ∀ a b : K, decide (a ≤ b) = true ↔ a ≤ b := fun a b => decide_eq_true_iff
      cases lb <;> cases ub <;> simp [inBounds, truth, value] <;> first | exact hd _ _ | exact and_congr (hd _ _) (hd _ _)

/-- **C26**: `get_bounds()` is true exactly when every bounded real variable lies in its closed interval. -/
theorem getBounds_correct (D : Domain) (h : ∀ p ∈ D.varDomains, D.varTypes.lookup p.1 = some .real) :
    ∃ f, D.getBounds = .ok f ∧ wt .bool f = true ∧
      ∀ σ : Env K, truth σ f = true ↔ ∀ p ∈ D.varDomains, inBounds (σ.r p.1) p.2 := by
  obtain ⟨bs, hb, hw, hs⟩ := boundList_spec (K := K) D D.varDomains h
  exact ⟨mkAnd bs, by simp [getBounds, hb], wt_mkAnd hw, fun σ => by rw [truth_mkAnd, hs]⟩

end

theorem ofType_eq {types : List (String × Ty)} {ty : Ty} {vs : List String} (h : ∀ v ∈ vs, v ∈ types.map (·.1)) :
    ofType types ty vs = .ok (vs.filter fun v => types.lookup v = some ty) := by
  induction vs with
  | nil => rfl
  | cons v vs ih =>
    obtain ⟨t, ht⟩ := lookup_of_key (h v (by simp))
    rw [ofType, dictGet, ht, ih fun w hw => h w (by simp [hw])]
    by_cases h' : t = ty <;> simp [ht, h']

theorem WF.boolVars {D : Domain} (h : D.WF) :
    D.boolVars = .ok (D.vars.filter fun v => D.varTypes.lookup v = some .bool) :=
  ofType_eq fun v hv => (h.types v).mpr hv
theorem WF.realVars {D : Domain} (h : D.WF) :
    D.realVars = .ok (D.vars.filter fun v => D.varTypes.lookup v = some .real) :=
  ofType_eq fun v hv => (h.types v).mpr hv

theorem WF.mem_real {D : Domain} (h : D.WF) (v : String) :
    v ∈ D.varDomains.map (·.1) ↔ v ∈ D.vars.filter fun v => D.varTypes.lookup v = some .real := by
  rw [h.doms, List.mem_filter, decide_eq_true_eq]
  constructor
  · intro hm
    exact ⟨(h.types v).mp (List.mem_map.mpr ⟨_, hm, rfl⟩), lookup_mem_nodup h.typesNodup hm⟩
  · rintro ⟨-, hl⟩; exact mem_of_dictGet hl

theorem volumeLoop_bounded (acc : ℚ) (bs : List (String × ℚ × ℚ)) :
    volumeLoop acc (bs.map fun p => (p.1, some p.2.1, some p.2.2)) =
      some (acc * (bs.map fun p => p.2.2 - p.2.1).prod) := by
  induction bs generalizing acc with
  | nil => simp [volumeLoop]
  | cons p bs ih => simp [volumeLoop, ih, mul_assoc]

theorem volumeLoop_unbounded (acc : ℚ) (ds : List (String × Bounds)) (h : ∃ p ∈ ds, p.2.1 = none ∨ p.2.2 = none) :
    volumeLoop acc ds = none := by
  induction ds generalizing acc with
  | nil => obtain ⟨p, hp, -⟩ := h; cases hp
  | cons p ds ih =>
    obtain ⟨v, lb, ub⟩ := p
    cases lb with
    | none => rfl
    | some l =>
      cases ub with
      | none => rfl
      | some u =>
        refine ih _ ?_
        obtain ⟨p, hp, hn⟩ := h
        rcases List.mem_cons.mp hp with rfl | hp
        · simp at hn
        · exact ⟨p, hp, hn⟩

open MeasureTheory in
/-- **C26** (partial: purely Boolean domains are excluded, see `getVolume_boolean_zero`): with all bounds given, the
bounding-box volume is the Lebesgue measure of the box, and the volume counts it once per Boolean assignment; with a
missing bound both are infinite. -/
theorem getVolume_partial {D : Domain} (h : D.WF) (hr : D.varDomains ≠ []) :
    (∀ bs : List (String × ℚ × ℚ), D.varDomains = bs.map (fun p => (p.1, some p.2.1, some p.2.2)) →
      (∀ p ∈ bs, p.2.1 ≤ p.2.2) →
      ∃ V : ℚ, D.boundingBoxVolume = .ok (some V) ∧
        (V : ℝ) = (volume (Set.Icc (fun i : Fin bs.length => ((bs[i].2.1 : ℚ) : ℝ)) fun i => ((bs[i].2.2 : ℚ) : ℝ))).toReal ∧
        D.getVolume = .ok (some (V * 2 ^ (D.vars.filter fun v => D.varTypes.lookup v = some .bool).length))) ∧
    ((∃ p ∈ D.varDomains, p.2.1 = none ∨ p.2.2 = none) →
      D.boundingBoxVolume = .ok none ∧ D.getVolume = .ok none) := by
  have hlen : (D.vars.filter fun v => D.varTypes.lookup v = some .real).length ≠ 0 := by
    intro h0
    cases hd : D.varDomains with
    | nil => exact hr hd
    | cons p ds =>
      have := (h.mem_real p.1).mp (by simp [hd])
      rw [List.length_eq_zero_iff.mp h0] at this
      cases this
  constructor
  · intro bs hbs hle
    refine ⟨(bs.map fun p => p.2.2 - p.2.1).prod, ?_, ?_, ?_⟩
    · simp only [boundingBoxVolume, h.realVars, if_neg hlen, hbs, volumeLoop_bounded, one_mul]
    · have hbox : (fun i : Fin bs.length => ((bs[i].2.1 : ℚ) : ℝ)) ≤ fun i => ((bs[i].2.2 : ℚ) : ℝ) :=
        fun i => Rat.cast_le.mpr (hle bs[i] (List.getElem_mem _))
      rw [Real.volume_Icc_pi_toReal hbox]
      rw [← List.prod_ofFn]
      push_cast
      rw [List.map_map]
      congr 1
      apply List.ext_getElem <;> simp
    · simp only [getVolume, boundingBoxVolume, h.realVars, if_neg hlen, hbs, volumeLoop_bounded, one_mul, h.boolVars]
      rfl
  · intro hu
    constructor
    · simp only [boundingBoxVolume, h.realVars, if_neg hlen, volumeLoop_unbounded 1 _ hu]
    · simp only [getVolume, boundingBoxVolume, h.realVars, if_neg hlen, volumeLoop_unbounded 1 _ hu, h.boolVars]
      rfl

/-- A purely Boolean domain has volume 0, although it has `2^n` assignments. -/
theorem getVolume_boolean_zero {D : Domain} (h : D.WF) (hr : D.varDomains = []) :
    D.boundingBoxVolume = .ok (some 0) ∧ D.getVolume = .ok (some 0) := by
  have hlen : (D.vars.filter fun v => D.varTypes.lookup v = some .real) = [] := by
    rw [List.eq_nil_iff_forall_not_mem]
    intro v hv
    have := (h.mem_real v).mpr hv
    rw [hr] at this; cases this
  constructor
  · simp [boundingBoxVolume, h.realVars, hlen]
  · simp [getVolume, boundingBoxVolume, h.realVars, hlen, h.boolVars]

/-! ### C27: state round trip, construction and projection -/

theorem importTypes_export (ts : List (String × Ty)) :
    importTypes (ts.map fun p => (p.1, exportType p.2)) = .ok ts := by
  induction ts with
  | nil => rfl
  | cons p ts ih =>
    obtain ⟨v, t⟩ := p
    simp only [List.map_cons, importTypes, ih]
    cases t <;> rfl

/-- **C27**: reading the exported state gives the same domain. -/
theorem fromState_getState {D : Domain} (ht : (D.varTypes.map (·.1)).Nodup) (hd : (D.varDomains.map (·.1)).Nodup) :
    fromState D.getState = .ok D := by
  have h1 : ((D.varTypes.map fun p => (p.1, exportType p.2)).map (·.1)).Nodup := by
    simpa [Function.comp_def] using ht
  simp only [fromState, getState, dictOf_nodup h1, importTypes_export, dictOf_nodup ht, dictOf_nodup hd]

theorem zip_keys {vs : List String} {bs : List Bounds} (h : vs.length = bs.length) : (vs.zip bs).map (·.1) = vs := by
  rw [← List.unzip_fst, List.unzip_zip h]

/-- The domain built from distinct names. -/
theorem make_core {bools : List String} {bounds : List (String × Bounds)}
    (hn : (bools ++ bounds.map (·.1)).Nodup) :
    let D : Domain := ⟨bools ++ bounds.map (·.1),
      dictUpdate (dictOf (bools.map fun v => (v, Ty.bool))) (bounds.map fun p => (p.1, Ty.real)), bounds⟩
    D.WF ∧ D.boolVars = .ok bools ∧ D.realVars = .ok (bounds.map (·.1)) := by
  have hk : ((bools.map fun v => (v, Ty.bool)).map (·.1)) = bools := by simp [Function.comp_def]
  have hk2 : ((bounds.map fun p => (p.1, Ty.real)).map (·.1)) = bounds.map (·.1) := by simp [Function.comp_def]
  have hn' := List.nodup_append.mp hn
  have ht : dictUpdate (dictOf (bools.map fun v => (v, Ty.bool))) (bounds.map fun p => (p.1, Ty.real)) =
      (bools.map fun v => (v, Ty.bool)) ++ bounds.map fun p => (p.1, Ty.real) := by
    rw [dictOf_nodup (by rw [hk]; exact hn'.1)]
    exact dictUpdate_fresh _ _ (by rw [List.map_append, hk, hk2]; exact hn)
  have hkeys : (((bools.map fun v => (v, Ty.bool)) ++ bounds.map fun p => (p.1, Ty.real)).map (·.1)) =
      bools ++ bounds.map (·.1) := by rw [List.map_append, hk, hk2]
  intro D
  have hty : D.varTypes = (bools.map fun v => (v, Ty.bool)) ++ bounds.map fun p => (p.1, Ty.real) := ht
  have hwf : D.WF := by
    refine ⟨hn, by rw [hty, hkeys]; exact hn, fun v => by rw [hty, hkeys], hn'.2.1, fun v => ?_⟩
    rw [hty]
    simp [D]
  have hlk : ∀ v t, (v, t) ∈ D.varTypes → D.varTypes.lookup v = some t := fun v t => lookup_mem_nodup hwf.typesNodup
  refine ⟨hwf, ?_, ?_⟩
  · rw [hwf.boolVars]
    show Except.ok (List.filter _ (bools ++ bounds.map (·.1))) = _
    rw [List.filter_append, List.filter_eq_self.mpr, List.filter_eq_nil_iff.mpr]
    · simp
    · intro v hv
      obtain ⟨p, hp, rfl⟩ := List.mem_map.mp hv
      rw [hlk p.1 .real (by rw [hty]; simp only [List.mem_append, List.mem_map]; exact .inr ⟨p, hp, rfl⟩)]; simp
    · intro v hv
      rw [hlk v .bool (by rw [hty]; simp only [List.mem_append, List.mem_map]; exact .inl ⟨v, hv, rfl⟩)]; simp
  · rw [hwf.realVars]
    show Except.ok (List.filter _ (bools ++ bounds.map (·.1))) = _
    rw [List.filter_append, List.filter_eq_nil_iff.mpr, List.filter_eq_self.mpr]
    · simp
    · intro v hv
      obtain ⟨p, hp, rfl⟩ := List.mem_map.mp hv
      rw [hlk p.1 .real (by rw [hty]; simp only [List.mem_append, List.mem_map]; exact .inr ⟨p, hp, rfl⟩)]; simp
    · intro v hv
      rw [hlk v .bool (by rw [hty]; simp only [List.mem_append, List.mem_map]; exact .inl ⟨v, hv, rfl⟩)]; simp

/-- **C27**: `make` with distinct names, in each of its three calling styles, keeps the declaration order with the
Booleans first, and gives every real variable its bounds. -/
theorem make_correct {bools vs : List String} {bs : List Bounds} (hl : vs.length = bs.length)
    (hn : (bools ++ vs).Nodup) :
    ∃ D, make bools (.names vs) (some bs) none = .ok D ∧
      make bools (.dict (vs.zip bs)) none none = .ok D ∧
      D.WF ∧ D.vars = bools ++ vs ∧ D.boolVars = .ok bools ∧ D.realVars = .ok vs ∧ D.varDomains = vs.zip bs ∧
      (∀ b, bs = vs.map (fun _ => b) → make bools (.names vs) none (some b) = .ok D) := by
  have hk := zip_keys hl
  have hz : dictOf (vs.zip bs) = vs.zip bs := dictOf_nodup (by rw [hk]; exact (List.nodup_append.mp hn).2.1)
  obtain ⟨h1, h2, h3⟩ := make_core (bools := bools) (bounds := vs.zip bs) (by rw [hk]; exact hn)
  rw [hk] at h1 h2 h3
  refine ⟨_, ?_, ?_, h1, rfl, h2, h3, rfl, ?_⟩
  · simp [make, hz]
  · simp [make, hk]
  · rintro b rfl
    simp only [make, RealArg.iter, hz]
    simp

/-- Asking for both kinds of bounds is refused, and so is a list of names without bounds. -/
theorem make_errors (bools vs : List String) (b : Bounds) (bs : List Bounds) :
    make bools (.names vs) (some (b :: bs)) (some b) = .error .valueError ∧
    make bools (.names vs) none none = .error .attributeError := by
  constructor <;> rfl

theorem selectKeys_ok {β : Type} {d : List (String × β)} {ks : List String} (h : ∀ k ∈ ks, k ∈ d.map (·.1)) :
    ∃ r, selectKeys d ks = .ok r ∧ r.map (·.1) = ks ∧ ∀ p ∈ r, d.lookup p.1 = some p.2 := by
  induction ks with
  | nil => exact ⟨[], rfl, rfl, by simp⟩
  | cons k ks ih =>
    obtain ⟨v, hv⟩ := lookup_of_key (h k (by simp))
    obtain ⟨r, h1, h2, h3⟩ := ih fun k' hk => h k' (by simp [hk])
    refine ⟨(k, v) :: r, by simp [selectKeys, dictGet, hv, h1], by simp [h2], ?_⟩
    intro p hp
    rcases List.mem_cons.mp hp with rfl | hp
    · exact hv
    · exact h3 p hp

theorem projectRow_ok {vars keep : List String} {row : List ℚ} (hk : ∀ v ∈ keep, v ∈ vars)
    (hl : row.length = vars.length) :
    ∃ r, projectRow vars keep row = .ok r ∧ r.length = keep.length ∧
      ∀ i (h : i < keep.length), r[i]? = row[vars.idxOf keep[i]]? := by
  induction keep with
  | nil => exact ⟨[], rfl, rfl, by simp⟩
  | cons v vs ih =>
    obtain ⟨r, h1, h2, h3⟩ := ih fun w hw => hk w (by simp [hw])
    have hv := hk v (by simp)
    have hi : vars.idxOf v < row.length := by rw [hl]; exact List.idxOf_lt_length_iff.mpr hv
    refine ⟨row[vars.idxOf v] :: r, ?_, by simp [h2], ?_⟩
    · simp [projectRow, hv, List.getElem?_eq_getElem hi, h1]
    · intro i h
      cases i with
      | zero => simp [List.getElem?_eq_getElem hi]
      | succ i => simpa using h3 i (by simpa using h)

theorem mapM_ok {α β : Type} {f : α → Except PyErr β} {P : α → β → Prop} {as : List α}
    (h : ∀ a ∈ as, ∃ b, f a = .ok b ∧ P a b) : ∃ bs, as.mapM f = .ok bs ∧ List.Forall₂ P as bs := by
  induction as with
  | nil => exact ⟨[], rfl, .nil⟩
  | cons a as ih =>
    obtain ⟨b, hb, hp⟩ := h a (by simp)
    obtain ⟨bs, hbs, hps⟩ := ih fun x hx => h x (by simp [hx])
    exact ⟨b :: bs, by simp [List.mapM_cons, hb, hbs, bind, Except.bind, pure, Except.pure], .cons hp hps⟩

/-- **C27**: projecting to a list of distinct variables keeps exactly those variables, with their types and bounds,
and every row keeps their values. -/
theorem project_correct {D : Domain} (hwf : D.WF) {keep : List String} (hn : keep.Nodup) (hk : ∀ v ∈ keep, v ∈ D.vars)
    {data : List (List ℚ)} (hd : ∀ row ∈ data, row.length = D.vars.length) :
    ∃ D' rows, D.project keep data = .ok (D', rows) ∧ D'.WF ∧ D'.vars = keep ∧
      (∀ v ∈ keep, D'.varTypes.lookup v = D.varTypes.lookup v) ∧
      (∀ v ∈ keep, D'.varDomains.lookup v = D.varDomains.lookup v) ∧
      List.Forall₂ (fun row row' => row'.length = keep.length ∧
        ∀ v ∈ keep, row'[keep.idxOf v]? = row[D.vars.idxOf v]?) data rows := by
  obtain ⟨ts, t1, t2, t3⟩ := selectKeys_ok (d := D.varTypes) (ks := keep) fun v hv => (hwf.types v).mpr (hk v hv)
  obtain ⟨ds, d1, d2, d3⟩ := selectKeys_ok (d := D.varDomains)
    (ks := keep.filter fun v => D.varTypes.lookup v = some .real) (fun v hv => by
      rw [List.mem_filter, decide_eq_true_eq] at hv
      exact (hwf.doms v).mpr (mem_of_dictGet hv.2))
  obtain ⟨rows, r1, r2⟩ := mapM_ok (f := projectRow D.vars keep)
    (P := fun row row' => row'.length = keep.length ∧ ∀ v ∈ keep, row'[keep.idxOf v]? = row[D.vars.idxOf v]?)
    (as := data) (fun row hrow => by
      obtain ⟨r, h1, h2, h3⟩ := projectRow_ok hk (hd row hrow)
      refine ⟨r, h1, h2, fun v hv => ?_⟩
      have := h3 (keep.idxOf v) (List.idxOf_lt_length_iff.mpr hv)
      rwa [List.getElem_idxOf] at this)
  have tn : (ts.map (·.1)).Nodup := by rw [t2]; exact hn
  have dn : (ds.map (·.1)).Nodup := by rw [d2]; exact hn.filter _
  have tl : ∀ v ∈ keep, ts.lookup v = D.varTypes.lookup v := by
    intro v hv
    rw [← t2] at hv
    obtain ⟨p, hp, rfl⟩ := List.mem_map.mp hv
    rw [lookup_mem_nodup tn hp, t3 p hp]
  refine ⟨⟨keep, ts, ds⟩, rows, ?_, ⟨hn, tn, fun v => by rw [t2], dn, fun v => ?_⟩, rfl, tl, fun v hv => ?_, r2⟩
  · simp [project, t1, d1, r1, dictOf_nodup tn, dictOf_nodup dn]
  · show v ∈ ds.map (·.1) ↔ (v, Ty.real) ∈ ts
    rw [d2, List.mem_filter, decide_eq_true_eq]
    constructor
    · rintro ⟨h1, h2⟩; exact mem_of_dictGet (by rw [tl v h1, h2])
    · intro hm
      have hv : v ∈ keep := by rw [← t2]; exact List.mem_map.mpr ⟨_, hm, rfl⟩
      exact ⟨hv, by rw [← tl v hv]; exact lookup_mem_nodup tn hm⟩
  · show ds.lookup v = D.varDomains.lookup v
    by_cases hm : v ∈ ds.map (·.1)
    · obtain ⟨p, hp, rfl⟩ := List.mem_map.mp hm
      rw [lookup_mem_nodup dn hp, d3 p hp]
    · rw [lookup_none_of_key hm, lookup_none_of_key]
      intro h'
      apply hm
      rw [d2, List.mem_filter, decide_eq_true_eq]
      exact ⟨hv, lookup_mem_nodup hwf.typesNodup ((hwf.doms v).mp h')⟩

end Domain

/-! ### C30: the directory of a FileDensity -/

theorem Dir.lookup_write_same (d : Dir) (f : DFile) (c : DContent) : (d.write f c).lookup f = some c := by
  simp [Dir.write, List.lookup_cons]

theorem lookup_filter_ne (d : Dir) {f g : DFile} (h : g ≠ f) : (d.filter fun p => p.1 ≠ f).lookup g = d.lookup g := by
  induction d with
  | nil => rfl
  | cons p d ih =>
    obtain ⟨k, v⟩ := p
    by_cases hk : k = f
    · subst hk
      rw [List.filter_cons_of_neg (by simp), ih, List.lookup_cons, beq_eq_false_iff_ne.mpr h]
    · rw [List.filter_cons_of_pos (by simpa using hk), List.lookup_cons, List.lookup_cons, ih]

theorem Dir.lookup_write_other (d : Dir) {f g : DFile} (h : g ≠ f) (c : DContent) : (d.write f c).lookup g = d.lookup g := by
  rw [Dir.write, List.lookup_cons, beq_eq_false_iff_ne.mpr h]
  exact lookup_filter_ne d h

theorem Dir.keys_write (d : Dir) (f : DFile) (c : DContent) (g : DFile) :
    g ∈ (d.write f c).map (·.1) ↔ g = f ∨ g ∈ d.map (·.1) := by
  simp only [Dir.write, List.map_cons, List.mem_cons, List.mem_map, List.mem_filter, decide_eq_true_eq]
  constructor
  · rintro (h | ⟨p, ⟨hp, -⟩, rfl⟩)
    · exact .inl h
    · exact .inr ⟨p, hp, rfl⟩
  · rintro (h | ⟨p, hp, rfl⟩)
    · exact .inl h
    · by_cases h : p.1 = f
      · exact .inl h
      · exact .inr ⟨p, ⟨hp, h⟩, rfl⟩

theorem Dir.nodup_write {d : Dir} (h : (d.map (·.1)).Nodup) (f : DFile) (c : DContent) :
    ((d.write f c).map (·.1)).Nodup := by
  simp only [Dir.write, List.map_cons, List.nodup_cons]
  constructor
  · simp
  · exact (List.filter_sublist.map _).nodup h

theorem writeQueries_spec (wr : Formula → List Char) (qs : List Formula) : ∀ (i : ℕ) (d : Dir),
    (d.map (·.1)).Nodup →
    ((writeQueries wr i qs d).map (·.1)).Nodup ∧
    (∀ j (h : j < qs.length), (writeQueries wr i qs d).lookup (.query (i + j)) = some (.smt (wr qs[j]))) ∧
    (∀ f, (∀ j, j < qs.length → f ≠ .query (i + j)) → (writeQueries wr i qs d).lookup f = d.lookup f) ∧
    (∀ f, f ∈ (writeQueries wr i qs d).map (·.1) ↔ (∃ j, j < qs.length ∧ f = .query (i + j)) ∨ f ∈ d.map (·.1)) := by
  induction qs with
  | nil => intro i d hn; exact ⟨hn, by simp, by simp [writeQueries], by simp [writeQueries]⟩
  | cons q qs ih =>
    intro i d hn
    obtain ⟨h1, h2, h3, h4⟩ := ih (i + 1) (d.write (.query i) (.smt (wr q))) (Dir.nodup_write hn _ _)
    refine ⟨h1, ?_, ?_, ?_⟩
    · intro j hj
      cases j with
      | zero =>
        rw [writeQueries, h3 _ (by intro j _ h; injection h; omega)]
        exact Dir.lookup_write_same _ _ _
      | succ j =>
        have := h2 j (by simpa using hj)
        rw [writeQueries, show i + (j + 1) = i + 1 + j by omega, this]
        rfl
    · intro f hf
      rw [writeQueries, h3 f (fun j hj => by
        have := hf (j + 1) (by simpa using hj); rwa [show i + (j + 1) = i + 1 + j by omega] at this)]
      exact Dir.lookup_write_other _ (hf 0 (by simp)) _
    · intro f
      rw [writeQueries, h4, Dir.keys_write]
      constructor
      · rintro (⟨j, hj, rfl⟩ | rfl | h)
        · exact .inl ⟨j + 1, by simpa using hj, by congr 1; omega⟩
        · exact .inl ⟨0, by simp, rfl⟩
        · exact .inr h
      · rintro (⟨j, hj, rfl⟩ | h)
        · cases j with
          | zero => exact .inr (.inl rfl)
          | succ j => exact .inl ⟨j, by simpa using hj, by congr 1; omega⟩
        · exact .inr (.inr h)

theorem queryIds_ok {d : Dir} (h : ∀ s, DFile.badQuery s ∉ d.map (·.1)) (hn : (d.map (·.1)).Nodup) :
    ∃ ids, queryIds d = .ok ids ∧ ids.Nodup ∧ ∀ i, i ∈ ids ↔ DFile.query i ∈ d.map (·.1) := by
  induction d with
  | nil => exact ⟨[], rfl, List.nodup_nil, by simp⟩
  | cons p d ih =>
    obtain ⟨f, c⟩ := p
    simp only [List.map_cons, List.nodup_cons] at hn
    obtain ⟨ids, h1, h2, h3⟩ := ih (fun s hs => h s (by simp [hs])) hn.2
    cases f with
    | query i =>
      refine ⟨i :: ids, by simp [queryIds, h1], List.nodup_cons.mpr ⟨fun hi => hn.1 ((h3 i).mp hi), h2⟩, fun j => ?_⟩
      rw [List.mem_cons, h3]; simp
    | badQuery s => exact absurd (by simp) (h s)
    | domain => exact ⟨ids, by simp [queryIds, h1], h2, fun j => by rw [h3]; simp⟩
    | support => exact ⟨ids, by simp [queryIds, h1], h2, fun j => by rw [h3]; simp⟩
    | weight => exact ⟨ids, by simp [queryIds, h1], h2, fun j => by rw [h3]; simp⟩
    | other s => exact ⟨ids, by simp [queryIds, h1], h2, fun j => by rw [h3]; simp⟩

theorem readQueries_ok {rd : List Char → Except PyErr Formula} {wr : Formula → List Char} {d : Dir} (qs : List Formula) :
    ∀ i, (∀ j (h : j < qs.length), d.lookup (.query (i + j)) = some (.smt (wr qs[j]))) →
      (∀ q ∈ qs, rd (wr q) = .ok q) → readQueries rd d (List.range' i qs.length) = .ok qs := by
  induction qs with
  | nil => intro i _ _; rfl
  | cons q qs ih =>
    intro i h hr
    have h0 := h 0 (by simp)
    rw [List.length_cons, List.range'_succ, readQueries]
    have : readSmt rd d (.query i) = .ok q := by
      simp only [readSmt]; rw [show DFile.query i = .query (i + 0) from rfl, h0]; exact hr q (by simp)
    rw [this]
    rw [ih (i + 1) (fun j hj => by
      have := h (j + 1) (by simpa using hj)
      rw [show i + (j + 1) = i + 1 + j by omega] at this
      exact this) fun x hx => hr x (by simp [hx])]

/-- **C30** (partial: earlier content must not include a query file with a larger number, nor a weight file if the
density has no weight; see `fromFile_stale_query`, `fromFile_stale_weight`): a density that is written to a directory
and read back is unchanged, with its queries in order. -/
theorem fromFile_toFile_partial {rd : List Char → Except PyErr Formula} {wr : Formula → List Char}
    {D : FileDensity} (hio : ∀ f, f = D.support ∨ D.weight = some f ∨ f ∈ D.queries → rd (wr f) = .ok f)
    (hwf : D.domain.WF) {d : Dir} (hn : (d.map (·.1)).Nodup) (hbad : ∀ s, DFile.badQuery s ∉ d.map (·.1))
    (hq : ∀ i, D.queries.length ≤ i → DFile.query i ∉ d.map (·.1))
    (hw : D.weight = none → DFile.weight ∉ d.map (·.1)) :
    fromFile rd (toFile wr D d) = .ok D := by
  obtain ⟨dom, sup, wt', qs⟩ := D
  simp only at hio hwf hq hw
  set d1 := d.write .domain (.state dom.getState) with hd1
  set d2 := d1.write .support (.smt (wr sup)) with hd2
  set d3 : Dir := match wt' with | some w => d2.write .weight (.smt (wr w)) | none => d2 with hd3
  have n2 : (d2.map (·.1)).Nodup := Dir.nodup_write (Dir.nodup_write hn _ _) _ _
  have n3 : (d3.map (·.1)).Nodup := by
    rw [hd3]; cases wt' with
    | none => exact n2
    | some w => exact Dir.nodup_write n2 _ _
  have k3 : ∀ f, f ≠ .weight → (d3.lookup f = d2.lookup f) := by
    intro f hf; rw [hd3]; cases wt' with
    | none => rfl
    | some w => exact Dir.lookup_write_other _ hf _
  have m3 : ∀ f, f ∈ d3.map (·.1) → f = .weight ∨ f = .support ∨ f = .domain ∨ f ∈ d.map (·.1) := by
    intro f hf
    have m2 : f ∈ d2.map (·.1) → f = .support ∨ f = .domain ∨ f ∈ d.map (·.1) := by
      intro h
      rw [hd2, Dir.keys_write] at h
      rcases h with h | h
      · exact .inl h
      · rw [hd1, Dir.keys_write] at h; exact .inr h
    rw [hd3] at hf
    cases wt' with
    | none => exact .inr (m2 hf)
    | some w =>
      rw [Dir.keys_write] at hf
      exact hf.imp id m2
  obtain ⟨q1, q2, q3, q4⟩ := writeQueries_spec wr qs 0 d3 n3
  have hto : toFile wr ⟨dom, sup, wt', qs⟩ d = writeQueries wr 0 qs d3 := by cases wt' <;> rfl
  rw [hto]
  set e := writeQueries wr 0 qs d3 with he
  have eD : e.lookup .domain = some (.state dom.getState) := by
    rw [q3 _ (by simp), k3 _ (by simp), hd2, Dir.lookup_write_other _ (by simp), hd1, Dir.lookup_write_same]
  have eS : e.lookup .support = some (.smt (wr sup)) := by
    rw [q3 _ (by simp), k3 _ (by simp), hd2, Dir.lookup_write_same]
  have eW : e.lookup .weight = wt'.map fun w => .smt (wr w) := by
    rw [q3 _ (by simp), hd3]
    cases wt' with
    | none =>
      show d2.lookup .weight = none
      rw [hd2, Dir.lookup_write_other _ (by simp), hd1, Dir.lookup_write_other _ (by simp)]
      exact lookup_none_of_key (hw rfl)
    | some w => exact Dir.lookup_write_same _ _ _
  obtain ⟨ids, i1, i2, i3⟩ := queryIds_ok (d := e) (fun s hs => by
    rcases (q4 _).mp hs with ⟨j, -, h⟩ | h
    · cases h
    · rcases m3 _ h with h | h | h | h
      · cases h
      · cases h
      · cases h
      · exact hbad s h) q1
  have hids : ids.insertionSort (· ≤ ·) = List.range' 0 qs.length := by
    refine List.Perm.eq_of_pairwise' (r := fun a b : ℕ => a ≤ b) (List.pairwise_insertionSort _ _) ?_ ?_
    · rw [← List.range_eq_range']
      exact List.pairwise_le_range
    · refine (List.perm_insertionSort _ _).trans ((List.perm_ext_iff_of_nodup i2 (List.nodup_range')).mpr fun i => ?_)
      rw [i3, q4, List.mem_range'_1]
      constructor
      · rintro (⟨j, hj, h⟩ | h)
        · injection h with h; omega
        · rcases m3 _ h with h | h | h | h
          · cases h
          · cases h
          · cases h
          · by_contra hc
            exact hq i (by omega) h
      · intro h; exact .inl ⟨i, by omega, by simp⟩
  have hrq : readQueries rd e (List.range' 0 qs.length) = .ok qs :=
    readQueries_ok qs 0 q2 fun q hq => hio q (.inr (.inr hq))
  have hfs : Domain.fromState dom.getState = .ok dom := Domain.fromState_getState hwf.typesNodup hwf.domNodup
  have hrs : readSmt rd e .support = .ok sup := by simp [readSmt, eS, hio sup (.inl rfl)]
  simp only [fromFile, eD, hfs, hrs, eW, i1, hids, hrq]
  cases wt' with
  | none => rfl
  | some w => simp [readSmt, eW, hio w (.inr (.inl rfl))]

/-- A query left over from an earlier, longer density is read as a query of the new one. -/
theorem fromFile_stale_query {rd : List Char → Except PyErr Formula} {wr : Formula → List Char}
    (hio : ∀ f, rd (wr f) = .ok f) :
    fromFile rd (toFile wr ⟨⟨[], [], []⟩, .boolC true, none, [.sym "a" .bool]⟩
      (toFile wr ⟨⟨[], [], []⟩, .boolC true, none, [.sym "b" .bool, .sym "c" .bool]⟩ [])) =
      .ok ⟨⟨[], [], []⟩, .boolC true, none, [.sym "a" .bool, .sym "c" .bool]⟩ := by
  have hb : ∀ a b : DFile, (a == b) = decide (a = b) := fun _ _ => rfl
  simp [toFile, writeQueries, Dir.write, fromFile, Domain.getState, Domain.fromState, Domain.importTypes, dictOf, readSmt,
    hio, queryIds, readQueries, List.lookup_cons, List.insertionSort, List.orderedInsert, hb]

/-- A weight left over from an earlier density becomes the weight of a density without one. -/
theorem fromFile_stale_weight {rd : List Char → Except PyErr Formula} {wr : Formula → List Char}
    (hio : ∀ f, rd (wr f) = .ok f) :
    fromFile rd (toFile wr ⟨⟨[], [], []⟩, .boolC true, none, []⟩
      (toFile wr ⟨⟨[], [], []⟩, .boolC true, some (.realC 2), []⟩ [])) =
      .ok ⟨⟨[], [], []⟩, .boolC true, some (.realC 2), []⟩ := by
  have hb : ∀ a b : DFile, (a == b) = decide (a = b) := fun _ _ => rfl
  simp [toFile, writeQueries, Dir.write, fromFile, Domain.getState, Domain.fromState, Domain.importTypes, dictOf, readSmt,
    hio, queryIds, readQueries, List.lookup_cons, List.insertionSort, hb]

/-! ### C59: state of a density -/

section
variable {K : Type} [Field K] [LinearOrder K] [IsStrictOrderedRing K]

/-- **C59** (partial, like C28: no constant `False`): `Density.from_state(density.get_state())` has the same domain, and
its support, weight and queries have the same meaning. -/
theorem density_state_roundtrip_partial {Rep : ℚ → Prop} {showReal : ℚ → Tok} {readReal : Tok → Option ℚ}
    (hread : ∀ q, Rep q → TokSafe (showReal q) ∧ readReal (showReal q) = some q) {D : Density} (hwf : D.domain.WF)
    (hs : wt .bool D.support = true) (hw : wt .real D.weight = true) (hq : ∀ q ∈ D.queries, wt .bool q = true)
    (hexp : ∀ f, f = D.support ∨ f = D.weight ∨ f ∈ D.queries →
      (∀ p ∈ syms f, TokSafe p.1.toList) ∧ (∀ q ∈ consts f, Rep q) ∧ false ∉ boolConsts f) :
    ∃ S E, D.getState showReal = .ok S ∧ Density.fromState readReal S = .ok E ∧ E.domain = D.domain ∧
      (∀ σ : Env K, truth σ E.support = truth σ D.support) ∧ (∀ σ : Env K, value σ E.weight = value σ D.weight) ∧
      List.Forall₂ (fun q q' => ∀ σ : Env K, truth σ q' = truth σ q) D.queries E.queries := by
  obtain ⟨s1, s2, s3⟩ := hexp D.support (.inl rfl)
  obtain ⟨ts, gs, t1, t2, -, t3⟩ := nested_roundtrip_partial (K := K) (ty := .bool) showReal hread hs s1 s2 s3
  obtain ⟨w1, w2, w3⟩ := hexp D.weight (.inr (.inl rfl))
  obtain ⟨tw, gw, u1, u2, -, u3⟩ := nested_roundtrip_partial (K := K) (ty := .real) showReal hread hw w1 w2 w3
  have hqs : ∀ qs : List Formula, (∀ q ∈ qs, q ∈ D.queries) → ∃ ts gs, mapE (smtToNested showReal) qs = .ok ts ∧
      mapE (nestedToSmt readReal) ts = .ok gs ∧ List.Forall₂ (fun q q' => ∀ σ : Env K, truth σ q' = truth σ q) qs gs := by
    intro qs
    induction qs with
    | nil => intro _; exact ⟨[], [], rfl, rfl, .nil⟩
    | cons q qs ih =>
      intro h
      obtain ⟨ts, gs, i1, i2, i3⟩ := ih fun x hx => h x (by simp [hx])
      have hm := h q (by simp)
      obtain ⟨q1, q2, q3⟩ := hexp q (.inr (.inr hm))
      obtain ⟨t, g, v1, v2, -, v3⟩ := nested_roundtrip_partial (K := K) (ty := .bool) showReal hread (hq q hm) q1 q2 q3
      exact ⟨t :: ts, g :: gs, by simp [mapE, v1, i1], by simp [mapE, v2, i2],
        .cons (fun σ => by simpa [den] using v3 σ) i3⟩
  obtain ⟨tq, gq, v1, v2, v3⟩ := hqs D.queries fun _ h => h
  refine ⟨⟨D.domain.getState, tq, ts, tw⟩, ⟨D.domain, gs, gw, gq⟩, ?_, ?_, rfl, fun σ => by simpa [den] using t3 σ,
    fun σ => by simpa [den] using u3 σ, v3⟩
  · simp [Density.getState, v1, t1, u1]
  · simp [Density.fromState, Domain.fromState_getState hwf.typesNodup hwf.domNodup, t2, u2, v2]

end

/-! ### The hypotheses are met -/

/-- Two Booleans and two reals. -/
def sampleDomain : Domain :=
  ⟨["a", "b", "x", "y"], [("a", .bool), ("b", .bool), ("x", .real), ("y", .real)],
    [("x", some 0, some 10), ("y", some (-5), some (1/2))]⟩

example : Domain.make ["a", "b"] (.names ["x", "y"]) (some [(some 0, some 10), (some (-5), some (1/2))]) none =
    .ok sampleDomain := by decide +kernel
theorem sampleDomain_wf : sampleDomain.WF := by
  refine ⟨by decide, by decide, fun v => ?_, by decide, fun v => ?_⟩ <;> simp [sampleDomain]
example : sampleDomain.getVolume = .ok (some 220) := by decide +kernel
example : sampleDomain.project ["y", "a"] [[1, 0, 3, 4], [0, 1, 7, 1/2]] =
    .ok (⟨["y", "a"], [("y", .real), ("a", .bool)], [("y", some (-5), some (1/2))]⟩, [[4, 1], [1/2, 0]]) := by decide +kernel
example (rd : List Char → Except PyErr Formula) (wr : Formula → List Char) (h : ∀ f, rd (wr f) = .ok f) :
    fromFile rd (toFile wr ⟨sampleDomain, .sym "a" .bool, some (.sym "x" .real), [.sym "a" .bool, .sym "b" .bool]⟩
      [(.query 1, .smt (wr (.boolC true))), (.other "notes", .smt [])]) =
      .ok ⟨sampleDomain, .sym "a" .bool, some (.sym "x" .real), [.sym "a" .bool, .sym "b" .bool]⟩ :=
  fromFile_toFile_partial (fun f _ => h f) sampleDomain_wf (by simp) (by simp) (by
    intro i hi; simp at hi ⊢; omega) (by simp)

end Pywmi
