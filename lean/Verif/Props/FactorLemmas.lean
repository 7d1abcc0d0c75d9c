import Verif.Props.FactorSdd
import Verif.Spec.Nice

set_option linter.unusedSectionVars false
set_option linter.unusedSimpArgs false

/-!
# Integration along a diagram: lemmas
-/

namespace Pywmi
open Formula Prog Sdd

/-! ### Polynomials -/

theorem monoEval_nice (m : Mono) : Nice fun ρ => monoEval ρ m := by
  induction m with
  | nil => exact (Nice.const 1).congr fun ρ => by simp [monoEval]
  | cons v m ih => exact ((Nice.var v).mul ih).congr fun ρ => by simp [monoEval]

theorem polyEval_nice (d : Dict) : Nice fun ρ => polyEval ρ d :=
  Nice.list_sum (α := Mono × ℚ) (fun p ρ => (p.2 : ℝ) * monoEval ρ p.1) d fun p _ => (Nice.const _).mul (monoEval_nice p.1)

theorem polyEval_agreeing {d : Dict} {ρ ρ' : String → ℝ} (h : ∀ m ∈ d, ∀ v ∈ m.1, ρ v = ρ' v) : polyEval ρ d = polyEval ρ' d := by
  unfold polyEval
  refine congrArg _ (List.map_congr_left fun m hm => ?_)
  unfold monoEval
  rw [List.map_congr_left fun v hv => h m hm v hv]

/-! ### The recursion without the dictionary -/

namespace FactCtx
variable {E : Type} (C : FactCtx E)

theorem elements_below {n : ℕ} {tags : Finset ℕ} {es : List (Sdd × Sdd)} (h : ∀ e ∈ es, e.1.size < n ∧ e.2.size < n) :
    ∀ acc, (C.elements tags es acc).CallsBelow (fun q => q.1.size) n := by
  induction es with
  | nil => intro acc; trivial
  | cons e es ih =>
    intro acc
    obtain ⟨p, s⟩ := e
    have ih' := ih fun x hx => h x (by simp [hx])
    rw [elements]
    split
    · split
      · trivial
      · exact ih' _
    · split
      · trivial
      · refine ⟨(h (p, s) (by simp)).1, fun rp => ⟨(h (p, s) (by simp)).2, fun rs => ?_⟩⟩
        dsimp only
        split
        · trivial
        · split
          · trivial
          · exact ih' _

theorem body_decr : Decreasing C.body fun q => q.1.size := by
  intro q
  obtain ⟨s, tags⟩ := q
  cases s with
  | tt => trivial
  | ff => trivial
  | lit l => exact Prog.callsBelow_ofExcept ..
  | dec es => exact C.elements_below (fun e he => Sdd.size_mem he) _

theorem recursive_eq (s : Sdd) (tags : Finset ℕ) :
    C.recursive s tags = (C.body (s, tags)).interp fun q => C.recursive q.1 q.2 := by
  have key : ∀ q : Sdd × Finset ℕ, C.recursive q.1 q.2 = walkOn C.body (fun q => q.1.size) q := fun q =>
    (crun_sound C.body_decr (key := id) (fun i j h => by rw [show i = j from h]) _ q [] (Nat.lt_succ_self _)
      (fun i r h => by simp [List.lookup] at h)).1
  rw [key (s, tags), walkOn_eq C.body_decr]
  congr 1
  exact (funext key).symm

end FactCtx

/-! ### Names -/

namespace Sdd

theorem liveGroups_vars {α : Type} [DecidableEq α] {g : ℤ → Finset α} {s : Sdd} {a : α} :
    a ∈ s.liveGroups g → ∃ l : ℤ, l.natAbs ∈ s.vars ∧ a ∈ g l := by
  induction s using Sdd.induct with
  | tt => simp [liveGroups]
  | ff => simp [liveGroups]
  | lit l => intro h; exact ⟨l, by simp [vars], h⟩
  | dec es ih =>
    intro h
    obtain ⟨e, he, _, h⟩ := mem_liveGroupsAll.mp h
    rcases h with h | h
    · obtain ⟨l, h1, h2⟩ := (ih e he).1 h
      exact ⟨l, (vars_mem he).1 h1, h2⟩
    · obtain ⟨l, h1, h2⟩ := (ih e he).2 h
      exact ⟨l, (vars_mem he).2 h1, h2⟩

theorem liveGroupsAll_append {α : Type} [DecidableEq α] {g : ℤ → Finset α} (as bs : List (Sdd × Sdd)) :
    liveGroupsAll g (as ++ bs) = liveGroupsAll g as ∪ liveGroupsAll g bs := by
  ext x
  simp only [mem_liveGroupsAll, Finset.mem_union, List.mem_append]
  constructor
  · rintro ⟨e, h | h, h'⟩
    · exact .inl ⟨e, h, h'⟩
    · exact .inr ⟨e, h, h'⟩
  · rintro (⟨e, h, h'⟩ | ⟨e, h, h'⟩)
    · exact ⟨e, .inl h, h'⟩
    · exact ⟨e, .inr h, h'⟩

/-- SPEC: the names the recursion returns with a node: those of the literals in elements that can be true. -/
def fnames (nm : ℕ → Finset String) (s : Sdd) : Finset String := s.liveGroups fun l => nm l.natAbs

/-- SPEC: at every addition, the sets of names of the two sides have different sizes or are equal. -/
inductive FSmooth (nm : ℕ → Finset String) : Sdd → Prop where
  | tt : FSmooth nm .tt
  | ff : FSmooth nm .ff
  | lit (l) : FSmooth nm (.lit l)
  | dec (es) : (∀ e ∈ es, FSmooth nm e.1) → (∀ e ∈ es, FSmooth nm e.2) →
      (∀ pre e post, es = pre ++ e :: post → e.1 ≠ .ff → e.2 ≠ .ff →
        (fnames nm (.dec pre)).card ≠ (fnames nm e.1 ∪ fnames nm e.2).card ∨
        fnames nm (.dec pre) = fnames nm e.1 ∪ fnames nm e.2) → FSmooth nm (.dec es)

/-- With at most one name there is nothing to smooth. -/
theorem fsmooth_of_card {nm : ℕ → Finset String} {s : Sdd} {x : String} (h : ∀ n ∈ s.vars, nm n ⊆ {x}) : FSmooth nm s := by
  induction s using Sdd.induct with
  | tt => exact .tt
  | ff => exact .ff
  | lit l => exact .lit l
  | dec es ih =>
    refine .dec es (fun e he => (ih e he).1 fun n hn => h n ((vars_mem he).1 hn))
      (fun e he => (ih e he).2 fun n hn => h n ((vars_mem he).2 hn)) fun pre e post hsplit _ _ => ?_
    have sub : ∀ A : Finset String, A ⊆ {x} → A = ∅ ∨ A = {x} := fun A hA => Finset.subset_singleton_iff.mp hA
    have h1 : fnames nm (.dec pre) ⊆ {x} := fun a ha => by
      obtain ⟨l, hl, hg⟩ := liveGroups_vars ha
      refine h _ ?_ hg
      rw [hsplit]
      simp only [vars, mem_varsList] at hl ⊢
      obtain ⟨f, hf, hl⟩ := hl
      exact ⟨f, by simp [hf], hl⟩
    have h2 : fnames nm e.1 ∪ fnames nm e.2 ⊆ {x} := fun a ha => by
      have he : e ∈ es := by rw [hsplit]; simp
      rcases Finset.mem_union.mp ha with ha | ha
      · obtain ⟨l, hl, hg⟩ := liveGroups_vars ha
        exact h _ ((vars_mem he).1 hl) hg
      · obtain ⟨l, hl, hg⟩ := liveGroups_vars ha
        exact h _ ((vars_mem he).2 hl) hg
    rcases sub _ h1 with h1 | h1 <;> rcases sub _ h2 with h2 | h2 <;> simp [h1, h2]

theorem fnames_disjoint {nm : ℕ → Finset String} {S : Set ℕ} (hn : ∀ i ∈ S, ∀ j ∈ S, i ≠ j → Disjoint (nm i) (nm j)) {p s : Sdd}
    (hp : ∀ n ∈ p.vars, n ∈ S) (hs : ∀ n ∈ s.vars, n ∈ S) (hd : Disjoint p.vars s.vars) :
    Disjoint (fnames nm p) (fnames nm s) := by
  refine Finset.disjoint_left.mpr fun a ha hb => ?_
  obtain ⟨l, l1, l2⟩ := liveGroups_vars ha
  obtain ⟨m, m1, m2⟩ := liveGroups_vars hb
  have hne : l.natAbs ≠ m.natAbs := fun e => Finset.disjoint_left.mp hd l1 (e ▸ m1)
  exact Finset.disjoint_left.mp (hn _ (hp _ l1) _ (hs _ m1) hne) l2 m2

/-! ### Circuits of functions -/

variable {w : ℤ → (String → ℝ) → ℝ}

/-- The circuit at a point. -/
noncomputable def fcirc (w : ℤ → (String → ℝ) → ℝ) (s : Sdd) (ρ : String → ℝ) : ℝ := s.wcirc fun l => w l ρ

theorem fcirc_dec (es : List (Sdd × Sdd)) (ρ : String → ℝ) :
    fcirc w (.dec es) ρ = (es.map fun e => fcirc w e.1 ρ * fcirc w e.2 ρ).sum := by
  simp only [fcirc, wcirc, wcircSum_eq]

theorem fcirc_nice {s : Sdd} (hs : s.WF) : (∀ l : ℤ, l ≠ 0 → l.natAbs ∈ s.vars → Nice (w l)) → Nice (fcirc w s) := by
  induction s using Sdd.induct with
  | tt => intro _; exact Nice.const 1
  | ff => intro _; exact Nice.const 0
  | lit l => intro h; cases hs with | lit _ h0 => exact h l h0 (by simp [vars])
  | dec es ih =>
    intro h
    cases hs with
    | dec _ h1 h2 h3 h4 =>
      refine (Nice.list_sum (fun e ρ => fcirc w e.1 ρ * fcirc w e.2 ρ) es fun e he => ?_).congr (fcirc_dec es)
      exact ((ih e he).1 (h1 e he) fun l h0 hl => h l h0 ((vars_mem he).1 hl)).mul
        ((ih e he).2 (h2 e he) fun l h0 hl => h l h0 ((vars_mem he).2 hl))

theorem wcirc_ff {K : Type} [CommRing K] (w : ℤ → K) : Sdd.wcirc w .ff = 0 := rfl

/-- A circuit depends on the variables of the groups of the node only. -/
theorem fcirc_agree {l2g : ℤ → Finset ℕ} {Vs : ℕ → Finset String} {s : Sdd} (hs : s.WF) {ρ ρ' : String → ℝ} :
    (∀ l : ℤ, l ≠ 0 → l.natAbs ∈ s.vars → ∀ ρ ρ' : String → ℝ, (∀ t ∈ l2g l, ∀ v ∈ Vs t, ρ v = ρ' v) → w l ρ = w l ρ') →
    (∀ t ∈ s.liveGroups l2g, ∀ v ∈ Vs t, ρ v = ρ' v) → fcirc w s ρ = fcirc w s ρ' := by
  induction s using Sdd.induct with
  | tt => intro _ _; rfl
  | ff => intro _ _; rfl
  | lit l => intro hw h; cases hs with | lit _ h0 => exact hw l h0 (by simp [vars]) ρ ρ' h
  | dec es ih =>
    intro hw h
    cases hs with
    | dec _ h1 h2 h3 h4 =>
      rw [fcirc_dec, fcirc_dec]
      refine congrArg _ (List.map_congr_left fun e he => ?_)
      by_cases n1 : e.1 = .ff
      · simp only [n1, fcirc, wcirc_ff, zero_mul]
      by_cases n2 : e.2 = .ff
      · simp only [n2, fcirc, wcirc_ff, mul_zero]
      rw [(ih e he).1 (h1 e he) (fun l h0 hl => hw l h0 ((vars_mem he).1 hl)) fun t ht =>
          h t (mem_liveGroupsAll.mpr ⟨e, he, ⟨n1, n2⟩, .inl ht⟩),
        (ih e he).2 (h2 e he) (fun l h0 hl => hw l h0 ((vars_mem he).2 hl)) fun t ht =>
          h t (mem_liveGroupsAll.mpr ⟨e, he, ⟨n1, n2⟩, .inr ht⟩)]

end Sdd

/-! ### Integrals over groups -/

section
variable (Vs : ℕ → Finset String) (pl : ℕ → Dict)

/-- SPEC: the integral of a function, times the weights of the groups, over the variables of the groups. -/
noncomputable def groupInt (T : Finset ℕ) (F : (String → ℝ) → ℝ) : (String → ℝ) → ℝ :=
  margin (T.biUnion Vs) fun ρ => (∏ t ∈ T, polyEval ρ (pl t)) * F ρ

variable {Vs pl} {M : ℝ} {F G : (String → ℝ) → ℝ}

theorem prodPoly_nice (T : Finset ℕ) : Nice fun ρ => ∏ t ∈ T, polyEval ρ (pl t) :=
  Nice.finset_prod (fun t ρ => polyEval ρ (pl t)) T fun t _ => polyEval_nice (pl t)

theorem prodPoly_free {T : Finset ℕ} {V : Finset String} (hv : ∀ t ∈ T, ∀ m ∈ pl t, ∀ v ∈ m.1, v ∉ V) :
    Free V fun ρ => ∏ t ∈ T, polyEval ρ (pl t) := fun _ _ h =>
  Finset.prod_congr rfl fun t ht => polyEval_agreeing fun m hm v hvm => h v (hv t ht m hm v hvm)

theorem groupInt_empty (ρ : String → ℝ) : groupInt Vs pl ∅ F ρ = F ρ := by
  simp [groupInt, margin_empty]

theorem groupInt_nice {T : Finset ℕ} (hF : Nice F) (hw : Within M (T.biUnion Vs) F) : Nice (groupInt Vs pl T F) :=
  ((prodPoly_nice T).mul hF).margin hw.mul_left

theorem groupInt_zero (T : Finset ℕ) (ρ : String → ℝ) : groupInt Vs pl T (fun _ => 0) ρ = 0 := by
  simp [groupInt, margin_zero]

theorem groupInt_add {T : Finset ℕ} (hF : Nice F) (hG : Nice G) (wF : Within M (T.biUnion Vs) F)
    (wG : Within M (T.biUnion Vs) G) (ρ : String → ℝ) :
    groupInt Vs pl T (fun ρ => F ρ + G ρ) ρ = groupInt Vs pl T F ρ + groupInt Vs pl T G ρ := by
  unfold groupInt
  rw [← margin_add ((prodPoly_nice T).mul hF) ((prodPoly_nice T).mul hG) wF.mul_left wG.mul_left]
  exact margin_congr (fun ρ => by ring) ρ

theorem groupInt_congr {T : Finset ℕ} (h : ∀ ρ, F ρ = G ρ) (ρ : String → ℝ) : groupInt Vs pl T F ρ = groupInt Vs pl T G ρ := by
  rw [show F = G from funext h]

/-- Integrals over disjoint groups multiply, if the functions depend on their own groups only. -/
theorem groupInt_mul {T U : Finset ℕ} (hd : Disjoint T U) (hV : Disjoint (T.biUnion Vs) (U.biUnion Vs))
    (hT : ∀ t ∈ T, ∀ m ∈ pl t, ∀ v ∈ m.1, v ∈ Vs t) (hU : ∀ t ∈ U, ∀ m ∈ pl t, ∀ v ∈ m.1, v ∈ Vs t)
    (hF : Free (U.biUnion Vs) F) (hG : Free (T.biUnion Vs) G) (ρ : String → ℝ) :
    groupInt Vs pl (T ∪ U) (fun ρ => F ρ * G ρ) ρ = groupInt Vs pl T F ρ * groupInt Vs pl U G ρ := by
  unfold groupInt
  rw [← margin_prod hV ((prodPoly_free fun t ht m hm v hv hc =>
      Finset.disjoint_left.mp hV (Finset.mem_biUnion.mpr ⟨t, ht, hT t ht m hm v hv⟩) hc).mul hF)
    ((prodPoly_free fun t ht m hm v hv hc =>
      Finset.disjoint_left.mp hV hc (Finset.mem_biUnion.mpr ⟨t, ht, hU t ht m hm v hv⟩)).mul hG), Finset.union_biUnion]
  · refine margin_congr (fun ρ => ?_) ρ
    rw [Finset.prod_union hd]
    ring

/-- One more group. -/
theorem groupInt_insert {U : Finset ℕ} {t : ℕ} (ht : t ∉ U) (hV : Disjoint (Vs t) (U.biUnion Vs))
    (hp : ∀ m ∈ pl t, ∀ v ∈ m.1, v ∈ Vs t) (hF : Nice F) (hw : Within M (Vs t ∪ U.biUnion Vs) F) (c : ℝ) (ρ : String → ℝ) :
    margin (Vs t) (fun ρ => c * groupInt Vs pl U F ρ * polyEval ρ (pl t)) ρ = c * groupInt Vs pl (insert t U) F ρ := by
  have h1 : ∀ ρ, c * groupInt Vs pl U F ρ * polyEval ρ (pl t) =
      c * margin (U.biUnion Vs) (fun ρ => (∏ u ∈ insert t U, polyEval ρ (pl u)) * F ρ) ρ := fun ρ => by
    have hfree : Free (U.biUnion Vs) fun ρ => polyEval ρ (pl t) := fun ρ ρ' h =>
      polyEval_agreeing fun m hm v hv => h v fun hc => Finset.disjoint_left.mp hV (hp m hm v hv) hc
    have := margin_mul_left (G := fun ρ => (∏ u ∈ U, polyEval ρ (pl u)) * F ρ) hfree ρ
    rw [mul_assoc, groupInt, mul_comm (margin _ _ _), ← this]
    congr 1
    refine margin_congr (fun ρ => ?_) ρ
    rw [Finset.prod_insert ht]
    ring
  rw [margin_congr h1, margin_mul_left (Free.const c), groupInt, Finset.biUnion_insert,
    margin_union hV ((prodPoly_nice _).mul hF) hw.mul_left]

end

end Pywmi
