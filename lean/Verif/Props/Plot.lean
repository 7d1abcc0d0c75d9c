import Verif.Util.Plot
import Verif.Props.Engine
import Verif.Spec.Null
import Verif.Math.Latte
import Verif.Props.XsddRegion

set_option linter.unusedSectionVars false
set_option linter.unusedSimpArgs false

/-!
# C84: plots

A plot of a formula has one panel per assignment of the Boolean variables.  The region of a panel is the set of points of the box
that satisfy the formula, and every row of the data is drawn once.
-/

namespace Pywmi
open Formula Prog MeasureTheory

/-! ### SPEC -/

/-- SPEC: the left-hand side of a row. -/
noncomputable def dotRow {n : ℕ} (c : List ℚ) (x : Fin n → ℝ) : ℝ := ∑ i : Fin n, ((c.getD i 0 : ℚ) : ℝ) * x i

/-- SPEC: what is assumed of the library `polytope`, for `n` dimensions: `pts` are the points of a region; the operations are those
on sets up to null sets.  Rows of zeros are only assumed to work if they hold (the library drops them). -/
structure PolyLaw {R : Type} (P : Polytopes R) (n : ℕ) (pts : R → Set (Fin n → ℝ)) : Prop where
  make : ∀ rows : List (List ℚ × ℚ), (∀ row ∈ rows, row.1.length = n ∧ ((∀ c ∈ row.1, c = 0) → 0 ≤ row.2)) →
    ∀ᵐ x, x ∈ pts (P.make rows) ↔ ∀ row ∈ rows, dotRow row.1 x ≤ (row.2 : ℝ)
  inter : ∀ r s, ∀ᵐ x, x ∈ pts (P.inter r s) ↔ x ∈ pts r ∧ x ∈ pts s
  union : ∀ r s, ∀ᵐ x, x ∈ pts (P.union r s) ↔ x ∈ pts r ∨ x ∈ pts s
  diff : ∀ r s, ∀ᵐ x, x ∈ pts (P.diff r s) ↔ x ∈ pts r ∧ x ∉ pts s
  dim : ∀ r, P.dim r = .ok n ∨ ((∀ᵐ x, x ∉ pts r) ∧ (P.dim r = .ok 0 ∨ P.dim r = .error .indexError))

/-- SPEC: the comparison depends on the variables. -/
def Varies (l r : Formula) : Prop := ∃ τ τ' : Env ℝ, value τ l - value τ r ≠ value τ' l - value τ' r

/-- SPEC: formulas made of Boolean variables, constants and linear comparisons that depend on the variables. -/
inductive Plottable : Formula → Prop
  | and {as : List Formula} : as ≠ [] → (∀ a ∈ as, Plottable a) → Plottable (.and as)
  | or {as : List Formula} : as ≠ [] → (∀ a ∈ as, Plottable a) → Plottable (.or as)
  | implies {l r : Formula} : Plottable l → Plottable r → Plottable (.implies l r)
  | iff {l r : Formula} : Plottable l → Plottable r → Plottable (.iff l r)
  | not {a : Formula} : Plottable a → Plottable (.not a)
  | le {l r : Formula} : linTerm l = true → linTerm r = true → Varies l r → Plottable (.le l r)
  | lt {l r : Formula} : linTerm l = true → linTerm r = true → Varies l r → Plottable (.lt l r)
  | sym (n : String) : Plottable (.sym n .bool)
  | boolC (b : Bool) : Plottable (.boolC b)

/-- SPEC: what is assumed of pysmt's `simplify`. -/
structure PlotSimp (simp : Formula → Formula) : Prop where
  plottable : ∀ f, Plottable f → Plottable (simp f)
  syms : ∀ f, Plottable f → ∀ p ∈ syms (simp f), p ∈ syms f
  truth : ∀ f, Plottable f → ∀ σ : Env ℝ, truth σ (simp f) = truth σ f

/-- SPEC: the assignment of a panel and of a point of its plane. -/
noncomputable def plotEnv (D : Domain) (a : List Bool) (x : Fin D.reals.length → ℝ) : Env ℝ :=
  (⟨fun n => ((D.bools.zip a).lookup n).getD false, fun _ => 0⟩ : Env ℝ).setReals D.reals x

/-! ### Regions -/

section
variable {R : Type} {P : Polytopes R} {D : Domain}

theorem regionW_decr : (regionW P D).Decr := by
  refine Walker.decr_of ?_ ?_ ?_ ?_ ?_ ?_ ?_ ?_ ?_ ?_ ?_ ?_ ?_ ?_ ?_
  · exact fun as n h => callsBelow_callAll h fun _ => callsBelow_ofExcept _ _ _
  · exact fun as n h => callsBelow_callAll h fun _ => callsBelow_ofExcept _ _ _
  · exact fun as n h => callsBelow_callAll h fun _ => callsBelow_ofExcept _ _ _
  · exact fun as n h => callsBelow_callAll h fun _ => callsBelow_ofExcept _ _ _
  · exact fun a n h => ⟨h, fun _ => callsBelow_ofExcept _ _ _⟩
  · exact fun _ _ => trivial
  · exact fun _ _ _ _ _ _ _ => trivial
  · exact fun _ _ _ _ _ => trivial
  · exact fun _ _ _ _ _ => callsBelow_ofExcept _ _ _
  · exact fun _ _ _ _ _ => callsBelow_ofExcept _ _ _
  · exact fun _ _ _ _ _ => trivial
  · exact fun _ _ _ => trivial
  · exact fun _ _ => callsBelow_ofExcept _ _ _
  · exact fun _ _ => trivial
  · exact fun l r => Walker.implies_default_below l r

theorem regionOf_eq (f : Formula) : regionOf P D f = ((regionW P D).dispatch f).interp (regionOf P D) := Walker.walk_eq regionW_decr f

theorem dotRow_unit {n : ℕ} (i : Fin n) (c : ℚ) (x : Fin n → ℝ) : dotRow (unitRow n i c) x = (c : ℝ) * x i := by
  unfold dotRow
  rw [Finset.sum_eq_single i]
  · simp [unitRow]
  · intro j _ hj
    have : (j : ℕ) ≠ i := fun h => hj (Fin.ext h)
    simp [unitRow, this]
  · simp

/-- The rows of the box. -/
theorem boxRows_spec (hD : BoxOk D) (n : ℕ) : ∀ (i : ℕ) (vs : List String), i + vs.length = n → (∀ v ∈ vs, v ∈ D.varDomains.map (·.1)) →
    ∃ rows, boxRows D n i vs = .ok rows ∧ (∀ row ∈ rows, row.1.length = n ∧ ((∀ c ∈ row.1, c = 0) → 0 ≤ row.2)) ∧
      ∀ x : Fin n → ℝ, (∀ row ∈ rows, dotRow row.1 x ≤ (row.2 : ℝ)) ↔
        ∀ (k : ℕ) (hk : k < vs.length) (hn : i + k < n), ∀ b, D.varDomains.lookup vs[k] = some b → Domain.inBounds (x ⟨i + k, hn⟩) b
  | i, [], _, _ => ⟨[], rfl, by simp, by simp⟩
  | i, v :: vs, hl, hv => by
    simp only [List.length_cons] at hl
    obtain ⟨rows, h1, h2, h3⟩ := boxRows_spec hD n (i + 1) vs (by omega) fun w hw => hv w (by simp [hw])
    obtain ⟨b, hb⟩ : ∃ b, D.varDomains.lookup v = some b := by
      obtain ⟨p, hp, rfl⟩ := List.mem_map.mp (hv v (by simp))
      exact ⟨p.2, lookup_mem_nodup hD.wf.domNodup hp⟩
    obtain ⟨l, u, rfl, -⟩ := hD.box v b hb
    have hi : i < n := by omega
    have hu : ∀ c : ℚ, c ≠ 0 → ¬ ∀ d ∈ unitRow n i c, d = 0 := fun c hc h =>
      hc (h c (by simp only [unitRow, List.mem_map, List.mem_range]; exact ⟨i, hi, by simp⟩))
    refine ⟨(unitRow n i (-1), -l) :: (unitRow n i 1, u) :: rows, ?_, ?_, fun x => ?_⟩
    · simp [boxRows, dictGet, hb, h1]
    · intro row hrow
      rcases List.mem_cons.mp hrow with rfl | hrow
      · exact ⟨by simp [unitRow], fun h => absurd h (hu _ (by norm_num))⟩
      · rcases List.mem_cons.mp hrow with rfl | hrow
        · exact ⟨by simp [unitRow], fun h => absurd h (hu _ (by norm_num))⟩
        · exact h2 row hrow
    · have e1 := dotRow_unit ⟨i, hi⟩ (-1) x
      have e2 := dotRow_unit ⟨i, hi⟩ 1 x
      simp only at e1 e2
      simp only [List.forall_mem_cons, e1, e2, h3]
      constructor
      · rintro ⟨a1, a2, a3⟩ k hk hn b hb'
        cases k with
        | zero =>
          simp only [List.getElem_cons_zero, hb, Option.some.injEq] at hb'
          subst hb'
          refine ⟨fun l' h => ?_, fun u' h => ?_⟩
          · cases h; push_cast at a1; simp only [Nat.add_zero]; linarith
          · cases h; push_cast at a2; simp only [Nat.add_zero]; linarith
        | succ k =>
          simp only [List.getElem_cons_succ] at hb'
          have := a3 k (by simpa using hk) (by omega) b hb'
          simpa only [Nat.add_assoc, Nat.add_comm 1 k] using this
      · intro h
        have h0 := h 0 (by simp) hi _ (by simpa using hb)
        simp only [Nat.add_zero] at h0
        refine ⟨?_, ?_, fun k hk hn b hb' => ?_⟩
        · have := h0.1 l rfl; push_cast; linarith
        · have := h0.2 u rfl; push_cast; linarith
        · have := h (k + 1) (by simpa using hk) (by omega) b (by simpa using hb')
          simpa only [Nat.add_assoc, Nat.add_comm 1 k] using this

/-- The box, in the plane of a panel. -/
theorem inBox_plane (hD : BoxOk D) (σ : Env ℝ) (x : Fin D.reals.length → ℝ) : D.inBox (σ.setReals D.reals x) ↔
    ∀ (k : ℕ) (hk : k < D.reals.length) (hn : 0 + k < D.reals.length), ∀ b, D.varDomains.lookup D.reals[k] = some b →
      Domain.inBounds (x ⟨0 + k, hn⟩) b := by
  have hnd := reals_nodup hD.wf
  constructor
  · intro h k hk hn b hb
    have := h (D.reals[k], b) (mem_of_dictGet hb)
    have hg := setReals_get (σ := σ) hnd (x := x) ⟨k, hk⟩
    simp only [Fin.getElem_fin] at hg
    simp only [hg] at this
    simpa only [Nat.zero_add] using this
  · intro h p hp
    have hm : p.1 ∈ D.reals := (hD.wf.mem_real p.1).mp (List.mem_map_of_mem hp)
    obtain ⟨k, hk, he⟩ := List.mem_iff_getElem.mp hm
    have hb : D.varDomains.lookup D.reals[k] = some p.2 := by rw [he]; exact lookup_mem_nodup hD.wf.domNodup hp
    have := h k hk (by omega) p.2 hb
    have hg := setReals_get (σ := σ) hnd (x := x) ⟨k, hk⟩
    simp only [Fin.getElem_fin] at hg
    rw [← he, hg]
    simpa only [Nat.zero_add] using this

variable {pts : R → Set (Fin D.reals.length → ℝ)}

/-- SPEC: a region is the part of the box where `φ` holds. -/
def RegionIs (D : Domain) (pts : R → Set (Fin D.reals.length → ℝ)) (σ : Env ℝ) (r : R) (φ : Env ℝ → Prop) : Prop :=
  ∀ᵐ x, x ∈ pts r ↔ D.inBox (σ.setReals D.reals x) ∧ φ (σ.setReals D.reals x)

theorem boundedRegion_spec (hP : PolyLaw P D.reals.length pts) (hD : BoxOk D) (σ : Env ℝ) {c : List ℚ} {b : ℚ} (hc : c.length = D.reals.length)
    (hz : (∀ q ∈ c, q = 0) → 0 ≤ b) : ∃ r, boundedRegion P D c b = .ok r ∧
      ∀ᵐ x, x ∈ pts r ↔ D.inBox (σ.setReals D.reals x) ∧ dotRow c x ≤ (b : ℝ) := by
  obtain ⟨rows, h1, h2, h3⟩ := boxRows_spec hD D.reals.length 0 D.reals (by simp) fun v hv => (hD.wf.mem_real v).mpr hv
  have hrv : D.realVars = .ok D.reals := hD.wf.realVars
  refine ⟨P.make (rows ++ [(c, b)]), by simp [boundedRegion, hrv, h1], ?_⟩
  have := hP.make (rows ++ [(c, b)]) (by
    intro row hrow
    rcases List.mem_append.mp hrow with h | h
    · exact h2 row h
    · simp only [List.mem_singleton] at h; subst h; exact ⟨hc, hz⟩)
  filter_upwards [this] with x hx
  rw [hx, inBox_plane hD, ← h3 x]
  simp only [List.mem_append, List.mem_singleton]
  constructor
  · exact fun h => ⟨fun row hr => h row (.inl hr), h (c, b) (.inr rfl)⟩
  · rintro ⟨h, h'⟩ row (hr | rfl)
    · exact h row hr
    · exact h'

theorem wholeRegion_spec (hP : PolyLaw P D.reals.length pts) (hD : BoxOk D) (σ : Env ℝ) :
    ∃ r, wholeRegion P D = .ok r ∧ RegionIs D pts σ r fun _ => True := by
  have hrv : D.realVars = .ok D.reals := hD.wf.realVars
  obtain ⟨r, h1, h2⟩ := boundedRegion_spec hP hD σ (c := D.reals.map fun _ => 0) (b := 0) (by simp) (by simp)
  refine ⟨r, by simp only [wholeRegion, hrv]; exact h1, ?_⟩
  filter_upwards [h2] with x hx
  have h0 : dotRow (D.reals.map fun _ => (0 : ℚ)) x = 0 := by
    refine Finset.sum_eq_zero fun i _ => ?_
    simp
  rw [hx, h0]; simp

theorem dotRow_map (hD : BoxOk D) (σ : Env ℝ) (f : String → ℚ) (x : Fin D.reals.length → ℝ) :
    dotRow (D.reals.map f) x = (D.reals.map fun v => (f v : ℝ) * (σ.setReals D.reals x).r v).sum := by
  have hnd := reals_nodup hD.wf
  unfold dotRow
  have : ∀ i : Fin D.reals.length, (((D.reals.map f).getD i 0 : ℚ) : ℝ) * x i =
      (fun v => (f v : ℝ) * (σ.setReals D.reals x).r v) D.reals[i] := by
    intro i
    have hg := setReals_get (σ := σ) hnd (x := x) i
    simp only [hg]
    simp
  rw [Finset.sum_congr rfl fun i _ => this i]
  rw [← List.sum_ofFn]
  congr 1
  refine List.ext_getElem (by simp) fun k h1 h2 => by simp

/-- A comparison. -/
theorem compareRegion_spec (hP : PolyLaw P D.reals.length pts) (hD : BoxOk D) (σ : Env ℝ) {l r : Formula} (hl : linTerm l = true) (hr : linTerm r = true)
    (hv : Varies l r) (hs : ∀ p ∈ syms l ++ syms r, p.1 ∈ D.reals) :
    ∃ g, compareRegion P D l r = .ok (.region g) ∧ RegionIs D pts σ g (fun τ => value τ l ≤ value τ r) ∧
      RegionIs D pts σ g fun τ => value τ l < value τ r := by
  have wl := polyTerm_wt l (linTerm_polyTerm l hl)
  have wr := polyTerm_wt r (linTerm_polyTerm r hr)
  have hnd := reals_nodup hD.wf
  have hrv : D.realVars = .ok D.reals := hD.wf.realVars
  obtain ⟨q, hq, -⟩ := linFromSmt_linear (K := ℝ) hl hr (.inl rfl : (Formula.le l r = .le l r ∨ _))
  obtain ⟨c, hc, he, hk, hn, -⟩ := linFromSmt_cmp (K := ℝ) wl wr (.inl rfl) hq
  have hvars : ∀ n ∈ linVars q, n ∈ D.reals := by
    intro n hn
    simp only [linVars, List.mem_flatMap] at hn
    obtain ⟨p, hp, hn⟩ := hn
    exact hs _ ((linFromSmt_vars wl wr (.inl rfl)).1 q hq p hp n hn)
  have lin : ∀ τ : Env ℝ, (value τ l - value τ r) * (c : ℝ) = (linCoef q [] : ℝ) + (D.reals.map fun v => (linCoef q [v] : ℝ) * τ.r v).sum := fun τ => by
    rw [← he τ, polyEval_linear hk hn hnd hvars]
  have hc' : (0 : ℝ) < (c : ℝ) := by exact_mod_cast hc
  obtain ⟨g, h1, h2⟩ := boundedRegion_spec hP hD σ (c := D.reals.map fun v => linCoef q [v]) (b := linB q) (by simp) (by
    intro hz
    exfalso
    obtain ⟨τ, τ', hne⟩ := hv
    have z : ∀ τ : Env ℝ, (D.reals.map fun v => (linCoef q [v] : ℝ) * τ.r v).sum = 0 := fun τ => by
      refine List.sum_eq_zero fun y hy => ?_
      obtain ⟨v, hv, rfl⟩ := List.mem_map.mp hy
      have := hz (linCoef q [v]) (List.mem_map_of_mem hv)
      simp [this]
    have e1 := lin τ
    have e2 := lin τ'
    rw [z] at e1 e2
    exact hne (mul_right_cancel₀ hc'.ne' (e1.trans e2.symm)))
  refine ⟨g, by simp [compareRegion, hq, hrv, h1], ?_, ?_⟩
  · filter_upwards [h2] with x hx
    rw [hx, dotRow_map hD σ]
    have e := lin (σ.setReals D.reals x)
    refine and_congr_right fun _ => ?_
    simp only [linB]
    push_cast
    constructor
    · intro h; have : (value (σ.setReals D.reals x) l - value (σ.setReals D.reals x) r) * (c : ℝ) ≤ 0 := by rw [e]; linarith
      by_contra hlt
      have := mul_pos (sub_pos.mpr (not_le.mp hlt)) hc'
      linarith
    · intro h
      have := mul_nonpos_of_nonpos_of_nonneg (sub_nonpos.mpr h) hc'.le
      linarith
  · have hb := boundary_null hl hr hnd hs (by
      obtain ⟨τ, τ', hne⟩ := hv
      by_contra hno
      push Not at hno
      exact hne (by rw [hno τ, hno τ']; simp)) σ
    filter_upwards [h2, hb] with x hx hb
    rw [hx, dotRow_map hD σ]
    have e := lin (σ.setReals D.reals x)
    refine and_congr_right fun _ => ?_
    simp only [linB]
    push_cast
    constructor
    · intro h; have : (value (σ.setReals D.reals x) l - value (σ.setReals D.reals x) r) * (c : ℝ) ≤ 0 := by rw [e]; linarith
      refine lt_of_le_of_ne ?_ hb
      by_contra hlt
      have := mul_pos (sub_pos.mpr (not_le.mp hlt)) hc'
      linarith
    · intro h
      have := mul_nonpos_of_nonpos_of_nonneg (sub_nonpos.mpr h.le) hc'.le
      linarith


theorem combine_inter (hP : PolyLaw P D.reals.length pts) (σ : Env ℝ) : ∀ {as : List Formula} {vs : List (PlotVal R)} {r : R} {φ : Env ℝ → Prop},
    List.Forall₂ (fun a v => ∃ g, v = .region g ∧ RegionIs D pts σ g fun τ => truth τ a = true) as vs → RegionIs D pts σ r φ →
    ∃ g, combineRegions P.inter (.region r) vs = .ok (.region g) ∧ RegionIs D pts σ g fun τ => φ τ ∧ ∀ a ∈ as, truth τ a = true
  | [], _, r, φ, .nil, hr => ⟨r, rfl, by filter_upwards [hr] with x hx; rw [hx]; simp⟩
  | a :: as, _ :: vs, r, φ, .cons ⟨g, hv, hg⟩ hvs, hr => by
    subst hv
    obtain ⟨g', h1, h2⟩ := combine_inter hP σ (r := P.inter r g) (φ := fun τ => φ τ ∧ truth τ a = true) hvs (by
      filter_upwards [hr, hg, hP.inter r g] with x e1 e2 e3
      rw [e3, e1, e2]; tauto)
    refine ⟨g', h1, ?_⟩
    filter_upwards [h2] with x hx
    rw [hx]; simp only [List.forall_mem_cons]; tauto

theorem combine_union (hP : PolyLaw P D.reals.length pts) (σ : Env ℝ) : ∀ {as : List Formula} {vs : List (PlotVal R)} {r : R} {φ : Env ℝ → Prop},
    List.Forall₂ (fun a v => ∃ g, v = .region g ∧ RegionIs D pts σ g fun τ => truth τ a = true) as vs → RegionIs D pts σ r φ →
    ∃ g, combineRegions P.union (.region r) vs = .ok (.region g) ∧ RegionIs D pts σ g fun τ => φ τ ∨ ∃ a ∈ as, truth τ a = true
  | [], _, r, φ, .nil, hr => ⟨r, rfl, by filter_upwards [hr] with x hx; rw [hx]; simp⟩
  | a :: as, _ :: vs, r, φ, .cons ⟨g, hv, hg⟩ hvs, hr => by
    subst hv
    obtain ⟨g', h1, h2⟩ := combine_union hP σ (r := P.union r g) (φ := fun τ => φ τ ∨ truth τ a = true) hvs (by
      filter_upwards [hr, hg, hP.union r g] with x e1 e2 e3
      rw [e3, e1, e2]; tauto)
    refine ⟨g', h1, ?_⟩
    filter_upwards [h2] with x hx
    rw [hx]; simp only [List.mem_cons, exists_eq_or_imp]; tauto

/-- The walk of a formula gives the part of the box where it holds. -/
def GoodRegion (P : Polytopes R) (D : Domain) (pts : R → Set (Fin D.reals.length → ℝ)) (σ : Env ℝ) (f : Formula) : Prop :=
  ∃ g, regionOf P D f = .ok (.region g) ∧ RegionIs D pts σ g fun τ => truth τ f = true

theorem GoodRegion.and (hP : PolyLaw P D.reals.length pts) {σ : Env ℝ} {as : List Formula} (hne : as ≠ []) (h : ∀ a ∈ as, GoodRegion P D pts σ a)
    {f : Formula} (hf : (regionW P D).dispatch f = (regionW P D).onAnd as) (ht : ∀ τ : Env ℝ, truth τ f = as.all (truth τ)) : GoodRegion P D pts σ f := by
  obtain ⟨vs, h1, h2⟩ := mapE_rel (g := regionOf P D) (D := fun a v => ∃ g, v = .region g ∧ RegionIs D pts σ g fun τ => truth τ a = true)
    fun a ha => by
      obtain ⟨g, e1, e2⟩ := h a ha
      exact ⟨_, e1, g, rfl, e2⟩
  cases h2 with
  | nil => exact absurd rfl hne
  | cons hv hvs =>
    obtain ⟨r, rfl, hr⟩ := hv
    obtain ⟨g, e1, e2⟩ := combine_inter hP σ hvs hr
    refine ⟨g, ?_, ?_⟩
    · rw [regionOf_eq, hf]
      simp only [regionW, interp_callAll, h1, interp_ofExcept, foldRegions, e1]
    · filter_upwards [e2] with x hx
      rw [hx]
      simp only [ht, List.all_cons, Bool.and_eq_true, List.all_eq_true]

theorem GoodRegion.or (hP : PolyLaw P D.reals.length pts) {σ : Env ℝ} {as : List Formula} (hne : as ≠ []) (h : ∀ a ∈ as, GoodRegion P D pts σ a) :
    GoodRegion P D pts σ (.or as) := by
  obtain ⟨vs, h1, h2⟩ := mapE_rel (g := regionOf P D) (D := fun a v => ∃ g, v = .region g ∧ RegionIs D pts σ g fun τ => truth τ a = true)
    fun a ha => by
      obtain ⟨g, e1, e2⟩ := h a ha
      exact ⟨_, e1, g, rfl, e2⟩
  cases h2 with
  | nil => exact absurd rfl hne
  | cons hv hvs =>
    obtain ⟨r, rfl, hr⟩ := hv
    obtain ⟨g, e1, e2⟩ := combine_union hP σ hvs hr
    refine ⟨g, ?_, ?_⟩
    · rw [regionOf_eq]
      simp only [Walker.dispatch, regionW, interp_callAll, h1, interp_ofExcept, foldRegions, e1]
    · filter_upwards [e2] with x hx
      rw [hx]
      simp only [truth, truthAny_eq, List.any_cons, Bool.or_eq_true, List.any_eq_true]

theorem GoodRegion.not (hP : PolyLaw P D.reals.length pts) (hD : BoxOk D) {σ : Env ℝ} {a : Formula} (h : GoodRegion P D pts σ a) :
    GoodRegion P D pts σ (.not a) := by
  obtain ⟨g, e1, e2⟩ := h
  obtain ⟨w, w1, w2⟩ := wholeRegion_spec hP hD σ
  refine ⟨P.diff w g, ?_, ?_⟩
  · rw [regionOf_eq]
    simp [Walker.dispatch, regionW, interp, e1, notRegion, w1]
  · filter_upwards [e2, w2, hP.diff w g] with x x1 x2 x3
    rw [x3, x1, x2]
    simp only [truth, Bool.not_eq_true', Bool.eq_false_iff]
    tauto

theorem GoodRegion.mkNot_of (hP : PolyLaw P D.reals.length pts) (hD : BoxOk D) {σ : Env ℝ} {f : Formula} (hn : ∀ a, f ≠ .not a)
    (h : GoodRegion P D pts σ f) : GoodRegion P D pts σ (mkNot f) := by
  have : mkNot f = .not f := by
    cases f <;> first | rfl | exact absurd rfl (hn _)
  rw [this]; exact h.not hP hD

theorem goodRegion_implies (hP : PolyLaw P D.reals.length pts) {σ : Env ℝ} {l r : Formula} (hl : GoodRegion P D pts σ (mkNot l))
    (hr : GoodRegion P D pts σ r) : GoodRegion P D pts σ (.implies l r) := by
  obtain ⟨g, e1, e2⟩ := GoodRegion.or hP (as := [mkNot l, r]) (by simp) (by simpa using ⟨hl, hr⟩)
  refine ⟨g, ?_, ?_⟩
  · rw [regionOf_eq]
    show ((.call (mkOr [mkNot l, r]) .done : Prog Formula (PlotVal R))).interp (regionOf P D) = _
    simp only [interp, mkOr, e1]
  · filter_upwards [e2] with x hx
    rw [hx]
    simp [truth, truthAny_eq]

/-- The walk, by induction over the formula. -/
theorem goodRegion_walk (hP : PolyLaw P D.reals.length pts) (hD : BoxOk D) (σ : Env ℝ) {f : Formula} (hf : Plottable f) :
    (∀ p ∈ syms f, p.2 ≠ .bool) → (∀ p ∈ syms f, p.1 ∈ D.reals) → GoodRegion P D pts σ f ∧ GoodRegion P D pts σ (mkNot f) := by
  have conc : ∀ {f : Formula}, (∀ a, f ≠ .not a) → GoodRegion P D pts σ f → GoodRegion P D pts σ f ∧ GoodRegion P D pts σ (mkNot f) :=
    fun hn h => ⟨h, h.mkNot_of hP hD hn⟩
  induction hf with
  | and hne _ ih =>
    intro h1 h2
    refine conc (by simp) (GoodRegion.and hP hne (fun a ha => (ih a ha ?_ ?_).1) rfl fun τ => by simp [truth, truthAll_eq])
    · exact fun p hp => h1 p (mem_symsList.mpr ⟨a, ha, hp⟩)
    · exact fun p hp => h2 p (mem_symsList.mpr ⟨a, ha, hp⟩)
  | or hne _ ih =>
    intro h1 h2
    refine conc (by simp) (GoodRegion.or hP hne fun a ha => (ih a ha ?_ ?_).1)
    · exact fun p hp => h1 p (mem_symsList.mpr ⟨a, ha, hp⟩)
    · exact fun p hp => h2 p (mem_symsList.mpr ⟨a, ha, hp⟩)
  | implies _ _ ih1 ih2 =>
    intro h1 h2
    simp only [syms, List.mem_append] at h1 h2
    exact conc (by simp) (goodRegion_implies hP (ih1 (fun p hp => h1 p (.inl hp)) fun p hp => h2 p (.inl hp)).2
      (ih2 (fun p hp => h1 p (.inr hp)) fun p hp => h2 p (.inr hp)).1)
  | iff _ _ ih1 ih2 =>
    intro h1 h2
    simp only [syms, List.mem_append] at h1 h2
    have i1 := ih1 (fun p hp => h1 p (.inl hp)) fun p hp => h2 p (.inl hp)
    have i2 := ih2 (fun p hp => h1 p (.inr hp)) fun p hp => h2 p (.inr hp)
    rename_i l r _ _
    refine conc (by simp) (GoodRegion.and hP (as := [.implies l r, .implies r l]) (by simp) ?_ rfl ?_)
    · simpa using ⟨goodRegion_implies hP i1.2 i2.1, goodRegion_implies hP i2.2 i1.1⟩
    · intro τ
      simp only [truth, List.all_cons, List.all_nil]
      cases truth τ l <;> cases truth τ r <;> rfl
  | not _ ih =>
    intro h1 h2
    have := ih h1 h2
    exact ⟨this.1.not hP hD, this.1⟩
  | le hl hr hv =>
    intro h1 h2
    simp only [syms] at h2
    obtain ⟨g, e1, e2, -⟩ := compareRegion_spec hP hD σ hl hr hv h2
    refine conc (by simp) ⟨g, ?_, ?_⟩
    · rw [regionOf_eq]; simp [Walker.dispatch, regionW, e1]
    · simpa only [truth, decide_eq_true_eq] using e2
  | lt hl hr hv =>
    intro h1 h2
    simp only [syms] at h2
    obtain ⟨g, e1, -, e2⟩ := compareRegion_spec hP hD σ hl hr hv h2
    refine conc (by simp) ⟨g, ?_, ?_⟩
    · rw [regionOf_eq]; simp [Walker.dispatch, regionW, e1]
    · simpa only [truth, decide_eq_true_eq] using e2
  | sym n =>
    intro h1
    exact absurd rfl (h1 (n, .bool) (by simp [syms]))
  | boolC b =>
    intro _ _
    obtain ⟨w, w1, w2⟩ := wholeRegion_spec hP hD σ
    refine conc (by simp) ⟨if b then w else P.diff w w, ?_, ?_⟩
    · rw [regionOf_eq]; simp [Walker.dispatch, regionW, constRegion, w1]
    · cases b
      · filter_upwards [hP.diff w w] with x hx
        simp only [Bool.false_eq_true, if_false, hx, truth]; tauto
      · simpa [truth] using w2


/-! ### Panels -/

theorem linTerm_substB (m : String → Option Bool) (f : Formula) : linTerm f = true → f.substB m = f := by
  induction f using Formula.induct with
  | plus as ih =>
    intro h
    simp only [linTerm, Bool.and_eq_true, linTermAll_iff] at h
    simp only [substB, substBList_eq]
    congr 1
    exact (List.map_congr_left fun a ha => ih a ha (h.2 a ha)).trans (List.map_id as)
  | times as ih =>
    intro h
    simp only [linTerm, Bool.and_eq_true, linTermAll_iff] at h
    simp only [substB, substBList_eq]
    congr 1
    exact (List.map_congr_left fun a ha => ih a ha (h.1.2 a ha)).trans (List.map_id as)
  | minus l r hl hr =>
    intro h
    simp only [linTerm, Bool.and_eq_true] at h
    simp only [substB, hl h.1, hr h.2]
  | pow b e hb he =>
    intro h
    cases e <;> simp [linTerm] at h
    simp only [substB, hb h.1]
  | sym n t =>
    intro h
    cases t
    · simp [linTerm] at h
    · simp [substB]
  | realC q => intro _; rfl
  | _ => intro h; simp [linTerm] at h

theorem Plottable.substB {f : Formula} (h : Plottable f) (m : String → Option Bool) : Plottable (f.substB m) := by
  induction h with
  | and hne _ ih =>
    simp only [Formula.substB, substBList_eq]
    refine .and (by simpa using hne) fun b hb => ?_
    obtain ⟨a, ha, rfl⟩ := List.mem_map.mp hb
    exact ih a ha
  | or hne _ ih =>
    simp only [Formula.substB, substBList_eq]
    refine .or (by simpa using hne) fun b hb => ?_
    obtain ⟨a, ha, rfl⟩ := List.mem_map.mp hb
    exact ih a ha
  | implies _ _ h1 h2 => exact .implies h1 h2
  | iff _ _ h1 h2 => exact .iff h1 h2
  | not _ h1 =>
    simp only [Formula.substB, mkNot]
    split
    · rename_i heq
      rw [heq] at h1
      cases h1; assumption
    · exact .not h1
  | le hl hr hv => simp only [Formula.substB, linTerm_substB m _ hl, linTerm_substB m _ hr]; exact .le hl hr hv
  | lt hl hr hv => simp only [Formula.substB, linTerm_substB m _ hl, linTerm_substB m _ hr]; exact .lt hl hr hv
  | sym n =>
    simp only [Formula.substB]
    cases m n
    · exact .sym n
    · exact .boolC _
  | boolC b => exact .boolC b

theorem Plottable.wt {f : Formula} (h : Plottable f) : Formula.wt .bool f = true := by
  induction h with
  | and hne _ ih => simp only [Formula.wt, Bool.and_eq_true, wtAll_iff]; exact ⟨by simpa using hne, ih⟩
  | or hne _ ih => simp only [Formula.wt, Bool.and_eq_true, wtAll_iff]; exact ⟨by simpa using hne, ih⟩
  | implies _ _ h1 h2 => simp [Formula.wt, h1, h2]
  | iff _ _ h1 h2 => simp [Formula.wt, h1, h2]
  | not _ h1 => simpa [Formula.wt] using h1
  | le hl hr _ => simp [Formula.wt, polyTerm_wt _ (linTerm_polyTerm _ hl), polyTerm_wt _ (linTerm_polyTerm _ hr)]
  | lt hl hr _ => simp [Formula.wt, polyTerm_wt _ (linTerm_polyTerm _ hl), polyTerm_wt _ (linTerm_polyTerm _ hr)]
  | sym n => rfl
  | boolC b => rfl

theorem lookup_zip_isSome {ks : List String} {a : List Bool} (h : ks.length ≤ a.length) {n : String} (hn : n ∈ ks) : (ks.zip a).lookup n ≠ none := by
  induction ks generalizing a with
  | nil => simp at hn
  | cons k ks ih =>
    cases a with
    | nil => simp at h
    | cons b a =>
      simp only [List.zip_cons_cons, List.lookup_cons]
      split
      · simp
      · rename_i hne
        exact ih (by simpa using h) (by
          rcases List.mem_cons.mp hn with rfl | hn
          · simp at hne
          · exact hn)

/-- The region of one panel. -/
theorem panelRegion_spec (hP : PolyLaw P D.reals.length pts) (hD : BoxOk D) {simp : Formula → Formula} (hS : PlotSimp simp) {f : Formula} (hf : Plottable f)
    (hc : D.covers f) {a : List Bool} (ha : a.length = D.bools.length) :
    ∃ o, panelRegion P simp D D.bools (some f) a = .ok o ∧ (D.reals.length ≠ 2 → o = none) ∧
      (D.reals.length = 2 → ∀ᵐ x, (∃ r, o = some r ∧ x ∈ pts r) ↔ D.inBox (plotEnv D a x) ∧ truth (plotEnv D a x) f = true) := by
  set m : String → Option Bool := fun n => (D.bools.zip a).lookup n
  have hp := hf.substB m
  have hs : ∀ p ∈ syms (simp (f.substB m)), p.2 ≠ .bool ∧ p.1 ∈ D.reals := by
    intro p hp'
    obtain ⟨h1, h2⟩ := substB_syms m f p (hS.syms _ hp p hp')
    obtain ⟨h3, h4⟩ := hc p h1
    have hb : p.2 ≠ .bool := by
      intro hb
      rw [hb] at h4
      exact lookup_zip_isSome ha.ge (by simp [Domain.bools, h3, h4]) (h2 hb)
    refine ⟨hb, mem_reals.mpr ⟨h3, ?_⟩⟩
    rw [h4]
    cases hq : p.2 with
    | bool => exact absurd hq hb
    | real => rfl
  set σ : Env ℝ := ⟨fun n => ((D.bools.zip a).lookup n).getD false, fun _ => 0⟩
  obtain ⟨g, h1, h2⟩ := (goodRegion_walk hP hD σ (hS.plottable _ hp) (fun p hp => (hs p hp).1) fun p hp => (hs p hp).2).1
  have ht : ∀ x : Fin D.reals.length → ℝ, truth (σ.setReals D.reals x) (simp (f.substB m)) = truth (plotEnv D a x) f := by
    intro x
    rw [hS.truth _ hp, (substB_correct m _ f).1 hf.wt]
    congr 1
    show (⟨_, _⟩ : Env ℝ) = ⟨_, _⟩
    congr 1
    funext n
    show (m n).getD ((m n).getD false) = (m n).getD false
    cases m n <;> rfl
  have hr : ∀ᵐ x, x ∈ pts g ↔ D.inBox (plotEnv D a x) ∧ truth (plotEnv D a x) f = true := by
    filter_upwards [h2] with x hx
    rw [hx, ht]
    exact Iff.rfl
  have hpr : panelRegion P simp D D.bools (some f) a = match P.dim g with
      | .error .indexError => .ok none
      | .error .valueError => .ok none
      | .error e => .error e
      | .ok d => .ok (if d = 2 then some g else none) := by
    simp only [panelRegion]
    rw [h1]
    rfl
  rcases hP.dim g with hd | ⟨hz, hd | hd⟩
  · rw [hpr, hd]
    by_cases h2 : D.reals.length = 2
    · refine ⟨some g, by simp [h2], fun h => absurd h2 h, fun _ => ?_⟩
      filter_upwards [hr] with x hx
      simpa using hx
    · exact ⟨none, by simp [h2], fun _ => rfl, fun h => absurd h h2⟩
  · rw [hpr, hd]
    refine ⟨none, by simp, fun _ => rfl, fun _ => ?_⟩
    filter_upwards [hr, hz] with x hx hz
    rw [← hx]; simpa using hz
  · rw [hpr, hd]
    refine ⟨none, rfl, fun _ => rfl, fun _ => ?_⟩
    filter_upwards [hr, hz] with x hx hz
    rw [← hx]; simpa using hz


theorem panelNumber_append (bs : List Bool) (b : Bool) : panelNumber (bs ++ [b]) = panelNumber bs * 2 + if b then 1 else 0 := by
  simp [panelNumber]

/-- SPEC: the place of an assignment in the grid: the number it writes in binary, first variable first. -/
def cellOf (a : List Bool) : ℕ := Nat.ofDigits 2 (a.reverse.map Bool.toNat)

theorem panelNumber_eq (a : List Bool) : panelNumber a = cellOf a := by
  induction a using List.reverseRecOn with
  | nil => rfl
  | append_singleton bs b ih =>
    rw [panelNumber_append, ih]
    simp only [cellOf, List.reverse_append, List.reverse_cons, List.reverse_nil, List.nil_append, List.cons_append, List.map_cons, Nat.ofDigits_cons]
    cases b <;> simp [Bool.toNat] <;> ring

theorem panelIndex_eq {n : ℕ} {a : List Bool} (h : a.length = n) : panelIndex n a = cellOf a := by
  unfold panelIndex
  rw [panelNumber_eq, panelNumber_eq]
  conv_rhs => rw [← List.take_append_drop (n / 2) a]
  simp only [cellOf, List.reverse_append, List.map_append, Nat.ofDigits_append]
  simp only [List.length_map, List.length_reverse, List.length_drop, h]
  ring

theorem plotAssignments_mem {n : ℕ} {a : List Bool} : a ∈ plotAssignments n ↔ a.length = n := by
  induction n generalizing a with
  | zero => simp [plotAssignments]
  | succ n ih =>
    cases a with
    | nil => simp [plotAssignments]
    | cons b a => cases b <;> simp [plotAssignments, ih]

theorem plotAssignments_cells (n : ℕ) : (plotAssignments n).map cellOf = (List.range (2 ^ n)).reverse := by
  induction n with
  | zero => rfl
  | succ n ih =>
    have hcons : ∀ (b : Bool), ((plotAssignments n).map (b :: ·)).map cellOf = (List.range (2 ^ n)).reverse.map (b.toNat * 2 ^ n + ·) := by
      intro b
      rw [← ih, List.map_map, List.map_map]
      refine List.map_congr_left fun a ha => ?_
      have hl := plotAssignments_mem.mp ha
      simp only [Function.comp, cellOf, List.reverse_cons, List.map_append, Nat.ofDigits_append, List.map_cons, List.map_nil, Nat.ofDigits_singleton]
      simp only [List.length_map, List.length_reverse, hl]
      ring
    simp only [plotAssignments, List.flatMap_cons, List.flatMap_nil, List.append_nil, List.map_append, hcons]
    rw [pow_succ, Nat.mul_two, List.range_add, List.reverse_append]
    congr 1
    · rw [← List.map_reverse]; simp
    · simp

/-! ### Points -/

/-- SPEC: a row of the data as it was meant: the row itself, the values of the variables, and the label. -/
structure SeenRow where
  raw : PlotRow
  val : String → ℚ
  label : Bool

/-- SPEC: the rows of the data: the columns of an array are the variables in the order of the domain. -/
def seenRows (D : Domain) : PlotData → List SeenRow
  | .table rows labels => (rows.zip labels).map fun p => ⟨.arr p.1, fun v => p.1.getD (D.vars.idxOf v) 0, decide (p.2 = 1)⟩
  | .dicts rows => rows.map fun p => ⟨.inst p.1, fun v => (p.1.lookup v).getD 0, p.2⟩

/-- SPEC: the data have a value for every variable and a label for every row. -/
def CompleteData (D : Domain) : PlotData → Prop
  | .table rows labels => labels.length = rows.length ∧ ∀ row ∈ rows, row.length = D.vars.length
  | .dicts rows => ∀ p ∈ rows, ∀ v ∈ D.vars, p.1.lookup v ≠ none

/-- SPEC: how a row is drawn: positive rows are green crosses, negative rows are red dots; active rows are black; opacity is by status. -/
def styleOf : Bool → PlotStatus → PlotStyle
  | true, .active => ⟨"+", "black", 1 / 2⟩
  | false, .active => ⟨".", "black", 1 / 2⟩
  | true, .newActive => ⟨"+", "green", 1⟩
  | false, .newActive => ⟨".", "red", 1⟩
  | true, .excluded => ⟨"+", "green", 1 / 5⟩
  | false, .excluded => ⟨".", "red", 1 / 5⟩

/-- SPEC: the status of the row with number `i`. -/
def statusOf (active newActive : List ℕ) (i : ℕ) : PlotStatus :=
  if i ∈ active then .active else if i ∈ newActive then .newActive else .excluded

/-- SPEC: the Boolean values of a row. -/
def inPanel (bools : List String) (a : List Bool) (r : SeenRow) : Prop := bools.map r.val = a.map fun b => if b then 1 else 0

instance (bools : List String) (a : List Bool) (r : SeenRow) : Decidable (inPanel bools a r) := inferInstanceAs (Decidable (_ = _))

/-- SPEC: the marks of a panel, for the features `x` and `y`. -/
def marksOf (bools : List String) (x y : String) (active newActive : List ℕ) (condition : Option (PlotRow → Bool → Bool)) (a : List Bool) (rows : List SeenRow) :
    List (PlotStyle × ℚ × ℚ) :=
  (rows.zipIdx.filter fun p => decide (inPanel bools a p.1) && condition.all fun c => c p.1.raw p.1.label).map fun p =>
    (styleOf p.1.label (statusOf active newActive p.2), p.1.val x, p.1.val y)

theorem plotStyle_eq (l : Bool) (s : PlotStatus) : plotStyle l s = styleOf l s := by cases l <;> cases s <;> rfl

theorem perm_flatMap_filter {α κ : Type} [DecidableEq κ] (key : α → κ) (xs : List α) : ∀ {ks : List κ}, ks.Nodup → (∀ x ∈ xs, key x ∈ ks) →
    (ks.flatMap fun k => xs.filter fun x => decide (key x = k)).Perm xs := by
  intro ks hnd hk
  induction xs with
  | nil => simp
  | cons x xs ih =>
    have hx := hk x (by simp)
    obtain ⟨as, bs, rfl⟩ := List.append_of_mem hx
    have hnd' : key x ∉ as ∧ key x ∉ bs := by
      rw [List.nodup_append] at hnd
      exact ⟨fun h => hnd.2.2 _ h _ (by simp) rfl, (List.nodup_cons.mp hnd.2.1).1⟩
    have ih' := ih fun y hy => hk y (by simp [hy])
    have e : ∀ ls : List κ, key x ∉ ls → (ls.flatMap fun k => (x :: xs).filter fun x => decide (key x = k)) =
        ls.flatMap fun k => xs.filter fun x => decide (key x = k) := by
      intro ls hls
      refine List.flatMap_congr fun k hk' => ?_
      rw [List.filter_cons_of_neg]
      intro h
      have h' : key x = k := by simpa using h
      exact hls (h' ▸ hk')
    simp only [List.flatMap_append, List.flatMap_cons, e as hnd'.1, e bs hnd'.2] at ih' ⊢
    rw [List.filter_cons_of_pos (by simp)]
    refine List.Perm.trans ?_ (List.Perm.cons x ih')
    simp only [List.cons_append]
    exact List.perm_middle

/-- All calls of `scatter` together draw each point once, in its style. -/
theorem scatters_perm (points : List PlotPoint) :
    ((scatters points).flatMap fun c => c.2.map fun q => (c.1, q)).Perm (points.map fun p => (styleOf p.label p.status, p.point)) := by
  have h := perm_flatMap_filter (fun p : PlotPoint => (p.label, p.correct, p.status)) points (ks := plotGroups) (by decide +kernel) (by
    rintro ⟨l, c, s, q⟩ -
    cases l <;> cases c <;> cases s <;> simp [plotGroups])
  refine List.Perm.trans (List.Perm.of_eq ?_) (h.map fun p => (styleOf p.label p.status, p.point))
  rw [scatters, List.flatMap_assoc, List.map_flatMap]
  refine List.flatMap_congr fun g _ => ?_
  have e : (points.filter fun p => decide (p.label = g.1 ∧ p.correct = g.2.1 ∧ p.status = g.2.2)) =
      points.filter fun p => decide ((p.label, p.correct, p.status) = g) := by
    refine List.filter_congr fun p _ => ?_
    obtain ⟨g1, g2, g3⟩ := g
    simp [Prod.ext_iff]
  simp only [e, List.length_map]
  have e2 : ∀ qs : List PlotPoint, (∀ p ∈ qs, (p.label, p.correct, p.status) = g) →
      ((if qs.length > 0 then [(plotStyle g.1 g.2.2, qs.map (·.point))] else []).flatMap fun c => c.2.map fun q => (c.1, q)) =
        qs.map fun p => (styleOf p.label p.status, p.point) := by
    intro qs hq
    cases qs with
    | nil => rfl
    | cons q qs =>
      simp only [List.length_cons, gt_iff_lt, Nat.zero_lt_succ, if_true, List.flatMap_cons, List.flatMap_nil, List.append_nil, List.map_map]
      refine List.map_congr_left fun p hp => ?_
      have := hq p hp
      simp only [Function.comp, plotStyle_eq, ← this]
  exact e2 _ fun p hp => by simpa using (List.mem_filter.mp hp).2


theorem matchAll_eq {get : String → Except PyErr ℚ} {val : String → ℚ} : ∀ {bools : List String} {a : List Bool}, bools.length = a.length →
    (∀ v ∈ bools, get v = .ok (val v)) → matchAll get (bools.zip a) = .ok (decide (bools.map val = a.map fun b => if b then 1 else 0))
  | [], [], _, _ => by simp [matchAll]
  | v :: bools, b :: a, hl, h => by
    have ih := matchAll_eq (get := get) (val := val) (bools := bools) (a := a) (by simpa using hl) fun w hw => h w (by simp [hw])
    simp only [List.zip_cons_cons, matchAll, h v (by simp), ih]
    by_cases e : val v = if b then 1 else 0 <;> simp [e]

/-- SPEC: enough predictions for the rows. -/
def LearnedOk (A : PlotArgs) (n : ℕ) : Prop := ∀ ls, A.learned = some ls → n ≤ ls.length

theorem plotCorrect_ok {A : PlotArgs} {n i : ℕ} (h : LearnedOk A n) (hi : i < n) (l : Bool) : ∃ c, plotCorrect A i l = .ok c := by
  unfold plotCorrect
  cases hA : A.learned with
  | none => exact ⟨true, rfl⟩
  | some ls =>
    have := h ls hA
    simp only [List.getElem?_eq_getElem (show i < ls.length by omega)]
    exact ⟨_, rfl⟩

/-- The part of a point that can be seen. -/
def PlotPoint.seen (p : PlotPoint) : PlotStyle × ℚ × ℚ := (styleOf p.label p.status, p.point)

theorem plotRow_spec {A : PlotArgs} {n i : ℕ} (hA : LearnedOk A n) (hi : i < n) {bools : List String} {a : List Bool} (hl : bools.length = a.length) (r : SeenRow)
    {x y : String} {ex ey : Except PyErr ℚ} (hx : ex = .ok (r.val x)) (hy : ey = .ok (r.val y)) {el : Except PyErr Bool} (hel : el = .ok r.label)
    {get : String → Except PyErr ℚ} (hg : ∀ v ∈ bools, get v = .ok (r.val v)) :
    ∃ ps, plotRow A (bools.zip a) i r.raw ex ey el get = .ok ps ∧
      ps.map PlotPoint.seen = if (decide (inPanel bools a r) && A.condition.all fun c => c r.raw r.label) = true then
        [(styleOf r.label (statusOf A.active A.newActive i), r.val x, r.val y)] else [] := by
  obtain ⟨c, hc⟩ := plotCorrect_ok hA hi r.label
  subst hx hy hel
  have hm := matchAll_eq hl hg
  refine ⟨_, by simp only [plotRow, hc, hm, bind, Except.bind]; rfl, ?_⟩
  have e : plotStatus A i = statusOf A.active A.newActive i := rfl
  rw [e]
  generalize A.condition = cnd
  cases cnd with
  | none =>
    show List.map _ (if (decide (inPanel bools a r) && true) = true then _ else _) = if (decide (inPanel bools a r) && true) = true then _ else _
    split <;> rfl
  | some p =>
    show List.map _ (if (decide (inPanel bools a r) && p r.raw r.label) = true then _ else _) = if (decide (inPanel bools a r) && p r.raw r.label) = true then _ else _
    split <;> rfl

/-- The marks of rows from number `i`. -/
theorem marks_cons (bools : List String) (x y : String) (A : PlotArgs) (a : List Bool) (i : ℕ) (r : SeenRow) (rs : List SeenRow) :
    (((r :: rs).zipIdx i).filter fun p => decide (inPanel bools a p.1) && A.condition.all fun c => c p.1.raw p.1.label).map
        (fun p => (styleOf p.1.label (statusOf A.active A.newActive p.2), p.1.val x, p.1.val y)) =
      (if (decide (inPanel bools a r) && A.condition.all fun c => c r.raw r.label) = true then
        [(styleOf r.label (statusOf A.active A.newActive i), r.val x, r.val y)] else []) ++
      ((rs.zipIdx (i + 1)).filter fun p => decide (inPanel bools a p.1) && A.condition.all fun c => c p.1.raw p.1.label).map
        (fun p => (styleOf p.1.label (statusOf A.active A.newActive p.2), p.1.val x, p.1.val y)) := by
  rw [List.zipIdx_cons, List.filter_cons]
  split <;> simp

theorem varIndexMap_get (hD : D.WF) {v : String} (hv : v ∈ D.vars) : dictGet (varIndexMap D) v = .ok (D.vars.idxOf v) := by
  have hz : (D.vars.zipIdx.map (·.1)) = D.vars := by simp
  have hn : (D.vars.zipIdx.map (·.1)).Nodup := by rw [hz]; exact hD.nodup
  rw [varIndexMap, dictOf_nodup hn, dictGet]
  have hlt := List.idxOf_lt_length_iff.mpr hv
  have : (v, D.vars.idxOf v) ∈ D.vars.zipIdx := by
    rw [List.mk_mem_zipIdx_iff_getElem?]
    rw [List.getElem?_eq_getElem hlt]
    simp
  rw [lookup_mem_nodup hn this]

theorem entryAt_ok {row : List ℚ} {i : ℕ} (h : i < row.length) : entryAt row i = .ok (row.getD i 0) := by
  simp [entryAt, h]

theorem tablePoints_spec (hD : D.WF) {A : PlotArgs} {bools : List String} (hb : ∀ v ∈ bools, v ∈ D.vars) {a : List Bool} (hl : bools.length = a.length)
    {x y : String} (hx : x ∈ D.vars) (hy : y ∈ D.vars) (labels : List ℚ) : ∀ (rows : List (List ℚ)) (i : ℕ), LearnedOk A (i + rows.length) →
    labels.length = i + rows.length → (∀ row ∈ rows, row.length = D.vars.length) →
    ∃ ps, tablePoints D A (bools.zip a) (D.vars.idxOf x) (D.vars.idxOf y) labels i rows = .ok ps ∧ ps.map PlotPoint.seen =
      (((seenRows D (.table rows (labels.drop i))).zipIdx i).filter fun p => decide (inPanel bools a p.1) && A.condition.all fun c => c p.1.raw p.1.label).map
        fun p => (styleOf p.1.label (statusOf A.active A.newActive p.2), p.1.val x, p.1.val y)
  | [], i, _, _, _ => ⟨[], rfl, by simp [seenRows]⟩
  | row :: rows, i, hA, hlab, hrow => by
    simp only [List.length_cons] at hA hlab
    have hi : i < labels.length := by omega
    obtain ⟨ps, h1, h2⟩ := tablePoints_spec hD hb hl hx hy labels rows (i + 1) (by rwa [show i + 1 + rows.length = i + (rows.length + 1) by omega]) (by omega)
      fun r hr => hrow r (by simp [hr])
    have hlen := hrow row (by simp)
    have hget : ∀ v ∈ D.vars, entryAt row (D.vars.idxOf v) = .ok (row.getD (D.vars.idxOf v) 0) := fun v hv =>
      entryAt_ok (by rw [hlen]; exact List.idxOf_lt_length_iff.mpr hv)
    obtain ⟨qs, g1, g2⟩ := plotRow_spec hA (show i < _ by omega) hl ⟨.arr row, fun v => row.getD (D.vars.idxOf v) 0, decide (labels[i] = 1)⟩ (hget x hx) (hget y hy)
      (el := match entryAt labels i with | .ok l => .ok (decide (l = 1)) | .error e => .error e) (by simp [entryAt, hi])
      (get := fun v => match dictGet (varIndexMap D) v with | .ok k => entryAt row k | .error e => .error e)
      (fun v hv => by simp only [varIndexMap_get hD (hb v hv)]; exact hget v (hb v hv))
    refine ⟨qs ++ ps, ?_, ?_⟩
    · exact (congrArg (fun z : Except PyErr (List PlotPoint) => z.bind fun here =>
        (tablePoints D A (bools.zip a) (D.vars.idxOf x) (D.vars.idxOf y) labels (i + 1) rows).bind fun rest => .ok (here ++ rest)) g1).trans (by
          simp only [h1, Except.bind])
    · rw [List.drop_eq_getElem_cons hi]
      simp only [seenRows, List.zip_cons_cons, List.map_cons]
      rw [marks_cons, List.map_append, g2, h2]
      rfl

theorem dictPoints_spec {A : PlotArgs} {bools : List String} (hb : ∀ v ∈ bools, v ∈ D.vars) {a : List Bool} (hl : bools.length = a.length)
    {x y : String} (hAx : A.x = .name x) (hAy : A.y = .name y) (hx : x ∈ D.vars) (hy : y ∈ D.vars) : ∀ (rows : List (List (String × ℚ) × Bool)) (i : ℕ),
    LearnedOk A (i + rows.length) → (∀ p ∈ rows, ∀ v ∈ D.vars, p.1.lookup v ≠ none) →
    ∃ ps, dictPoints A (bools.zip a) i rows = .ok ps ∧ ps.map PlotPoint.seen =
      (((seenRows D (.dicts rows)).zipIdx i).filter fun p => decide (inPanel bools a p.1) && A.condition.all fun c => c p.1.raw p.1.label).map
        fun p => (styleOf p.1.label (statusOf A.active A.newActive p.2), p.1.val x, p.1.val y)
  | [], i, _, _ => ⟨[], rfl, by simp [seenRows]⟩
  | (row, l) :: rows, i, hA, hrow => by
    simp only [List.length_cons] at hA
    obtain ⟨ps, h1, h2⟩ := dictPoints_spec hb hl hAx hAy hx hy rows (i + 1) (by rwa [show i + 1 + rows.length = i + (rows.length + 1) by omega])
      fun r hr => hrow r (by simp [hr])
    have hget : ∀ v ∈ D.vars, dictGet row v = .ok ((row.lookup v).getD 0) := fun v hv => by
      have := hrow (row, l) (by simp) v hv
      unfold dictGet
      cases hq : row.lookup v with
      | none => exact absurd hq this
      | some q => rfl
    obtain ⟨qs, g1, g2⟩ := plotRow_spec hA (show i < _ by omega) hl ⟨.inst row, fun v => (row.lookup v).getD 0, l⟩ (x := x) (y := y)
      (ex := featEntry row A.x) (ey := featEntry row A.y)
      (by rw [hAx]; exact hget x hx) (by rw [hAy]; exact hget y hy) rfl (get := dictGet row) fun v hv => hget v (hb v hv)
    refine ⟨qs ++ ps, ?_, ?_⟩
    · simp only [dictPoints, g1, h1, bind, Except.bind]
    · simp only [seenRows, List.map_cons]
      rw [marks_cons, List.map_append, g2]
      rw [h2]; rfl

theorem panelPoints_spec (hD : D.WF) {A : PlotArgs} {bools : List String} (hb : ∀ v ∈ bools, v ∈ D.vars) {a : List Bool} (hl : bools.length = a.length)
    {x y : String} (hAx : A.x = .name x) (hAy : A.y = .name y) (hx : x ∈ D.vars) (hy : y ∈ D.vars) {data : PlotData} (hdata : CompleteData D data)
    (hA : LearnedOk A (seenRows D data).length) : ∃ ps, panelPoints D A (bools.zip a) data = .ok ps ∧
      ps.map PlotPoint.seen = marksOf bools x y A.active A.newActive A.condition a (seenRows D data) := by
  cases data with
  | table rows labels =>
    obtain ⟨h1, h2⟩ := hdata
    have hlen : (seenRows D (.table rows labels)).length = rows.length := by simp [seenRows, h1]
    rw [hlen] at hA
    obtain ⟨ps, e1, e2⟩ := tablePoints_spec hD hb hl hx hy labels rows 0 (by simpa using hA) (by simpa using h1) h2
    exact ⟨ps, by simp only [panelPoints, hAx, hAy, featColumn, varIndexMap_get hD hx, varIndexMap_get hD hy, bind, Except.bind]; exact e1, by simpa [marksOf] using e2⟩
  | dicts rows =>
    have hlen : (seenRows D (.dicts rows)).length = rows.length := by simp [seenRows]
    rw [hlen] at hA
    obtain ⟨ps, e1, e2⟩ := dictPoints_spec hb hl hAx hAy hx hy rows 0 (by simpa using hA) hdata
    exact ⟨ps, e1, by simpa [marksOf] using e2⟩


/-! ### C84 -/

/-- SPEC: everything drawn by calls of `scatter`, point by point. -/
def drawn (p : PlotPanel R) : List (PlotStyle × ℚ × ℚ) := p.marks.flatMap fun c => c.2.map fun q => (c.1, q)

theorem mapE_map {α β γ : Type} {g : α → Except PyErr β} {h : β → γ} {k : α → γ} {Q : α → β → Prop} : ∀ {as : List α},
    (∀ a ∈ as, ∃ b, g a = .ok b ∧ h b = k a ∧ Q a b) → ∃ bs, mapE g as = .ok bs ∧ bs.map h = as.map k ∧ List.Forall₂ Q as bs
  | [], _ => ⟨[], rfl, rfl, .nil⟩
  | a :: as, H => by
    obtain ⟨b, h1, h2, h3⟩ := H a (by simp)
    obtain ⟨bs, e1, e2, e3⟩ := mapE_map (as := as) fun x hx => H x (by simp [hx])
    exact ⟨b :: bs, by simp [mapE, h1, e1], by simp [h2, e2], .cons h3 e3⟩

/-- SPEC: what a panel should show. -/
structure PanelShows (D : Domain) (pts : R → Set (Fin D.reals.length → ℝ)) (formula : Option Formula) (data : PlotData) (x y : String) (A : PlotArgs)
    (a : List Bool) (p : PlotPanel R) : Prop where
  index : p.index = cellOf a
  noFormula : formula = none → p.region = none
  noPlane : D.reals.length ≠ 2 → p.region = none
  region : ∀ f, formula = some f → D.reals.length = 2 →
    ∀ᵐ z, (∃ r, p.region = some r ∧ z ∈ pts r) ↔ D.inBox (plotEnv D a z) ∧ truth (plotEnv D a z) f = true
  marks : (drawn p).Perm (marksOf D.bools x y A.active A.newActive A.condition a (seenRows D data))
  xlim : D.varDomains.lookup x = some p.xlim
  ylim : D.varDomains.lookup y = some p.ylim

/-- C84: a plot of a formula and complete data has one panel per assignment of the Boolean variables, in the cell with the binary number of the
assignment.  If there are two real variables, the region of the panel is the set of points of the box that satisfy the formula under the
assignment (up to a set of area 0); with another number of real variables no region is drawn.  The marks of the panel are the rows with these
Boolean values for which the condition holds, each once, at the values of the features, in the style of label and status; the axes are
limited by the bounds of the features.  Partial: formulas with equations, conditional terms or nonlinear comparisons (below) are excluded, and the region
fits the axes only if the features are the real variables in the order of the domain (below). -/
theorem plot_panels_partial (hP : PolyLaw P D.reals.length pts) (hD : BoxOk D) {simp : Formula → Formula} (hS : PlotSimp simp) {formula : Option Formula}
    (hf : ∀ f, formula = some f → Plottable f ∧ D.covers f) {data : PlotData} (hdata : CompleteData D data) {A : PlotArgs}
    (hA : LearnedOk A (seenRows D data).length) {x y : String} (hAx : A.x = .name x) (hAy : A.y = .name y) (hx : x ∈ D.reals) (hy : y ∈ D.reals) :
    ∃ panels, plotCombined P simp D formula data A = .ok panels ∧ panels.map (·.index) = (List.range (2 ^ D.bools.length)).reverse ∧
      List.Forall₂ (fun a p => a.length = D.bools.length ∧ PanelShows D pts formula data x y A a p) (plotAssignments D.bools.length) panels := by
  have hbv : D.boolVars = .ok D.bools := hD.wf.boolVars
  have key : ∀ a ∈ plotAssignments D.bools.length, ∃ p, plotPanel P simp D D.bools formula data A a = .ok p ∧ p.index = cellOf a ∧
      (a.length = D.bools.length ∧ PanelShows D pts formula data x y A a p) := by
    intro a ha
    have hl := plotAssignments_mem.mp ha
    obtain ⟨ps, q1, q2⟩ := panelPoints_spec hD.wf (fun v hv => (mem_bools.mp hv).1) hl.symm hAx hAy (mem_reals.mp hx).1 (mem_reals.mp hy).1 hdata hA
    have lim : ∀ v ∈ D.reals, ∃ b, D.varDomains.lookup v = some b ∧ dictGet D.varDomains v = .ok b := by
      intro v hv
      obtain ⟨q, hq, rfl⟩ := List.mem_map.mp ((hD.wf.mem_real v).mpr hv)
      have := lookup_mem_nodup hD.wf.domNodup hq
      exact ⟨q.2, this, by simp [dictGet, this]⟩
    obtain ⟨bx, lx, lx'⟩ := lim x hx
    obtain ⟨by', ly, ly'⟩ := lim y hy
    have hr : ∃ o, panelRegion P simp D D.bools formula a = .ok o ∧ (formula = none → o = none) ∧ (D.reals.length ≠ 2 → o = none) ∧
        ∀ f, formula = some f → D.reals.length = 2 → ∀ᵐ z, (∃ r, o = some r ∧ z ∈ pts r) ↔ D.inBox (plotEnv D a z) ∧ truth (plotEnv D a z) f = true := by
      cases formula with
      | none => exact ⟨none, rfl, fun _ => rfl, fun _ => rfl, fun f h => by cases h⟩
      | some f =>
        obtain ⟨o, o1, o2, o3⟩ := panelRegion_spec hP hD hS (hf f rfl).1 (hf f rfl).2 hl
        exact ⟨o, o1, fun h => (by cases h), o2, fun f' h => by cases h; exact o3⟩
    obtain ⟨o, o1, o2, o3, o4⟩ := hr
    have hperm : ((scatters ps).flatMap fun c => c.2.map fun q => (c.1, q)).Perm (marksOf D.bools x y A.active A.newActive A.condition a (seenRows D data)) := by
      rw [← q2]; exact scatters_perm ps
    refine ⟨⟨panelIndex D.bools.length a, o, scatters ps, bx, by'⟩, ?_, panelIndex_eq hl, hl, panelIndex_eq hl, o2, o3, o4, hperm, lx, ly⟩
    simp only [plotPanel, o1, q1, hAx, hAy, featLimits, lx', ly', bind, Except.bind]
  obtain ⟨ps, h1, h2, h3⟩ := mapE_map key
  exact ⟨ps, by simp only [plotCombined, hbv, h1], by rw [h2, plotAssignments_cells], h3⟩

theorem inPanel_iff (bools : List String) (a : List Bool) (hl : a.length = bools.length) (r : SeenRow) :
    inPanel bools a r ↔ (∀ v ∈ bools, r.val v = 0 ∨ r.val v = 1) ∧ bools.map (fun v => decide (r.val v = 1)) = a := by
  unfold inPanel
  induction bools generalizing a with
  | nil => cases a <;> simp at hl ⊢
  | cons v bools ih =>
    cases a with
    | nil => simp at hl
    | cons b a =>
      simp only [List.map_cons, List.cons.injEq, List.forall_mem_cons, ih a (by simpa using hl)]
      cases b
      · constructor
        · rintro ⟨h1, h2, h3⟩
          have h1 : r.val v = 0 := by simpa using h1
          exact ⟨⟨.inl h1, h2⟩, by simp [h1], h3⟩
        · rintro ⟨⟨h1, h2⟩, h3, h4⟩
          have h3 : r.val v ≠ 1 := by simpa using h3
          exact ⟨by simpa using h1.resolve_right h3, h2, h4⟩
      · constructor
        · rintro ⟨h1, h2, h3⟩
          have h1 : r.val v = 1 := by simpa using h1
          exact ⟨⟨.inr h1, h2⟩, by simp [h1], h3⟩
        · rintro ⟨⟨h1, h2⟩, h3, h4⟩
          have h3 : r.val v = 1 := by simpa using h3
          exact ⟨by simpa using h3, h2, h4⟩

/-- C84: over the whole figure every row whose Boolean values are 0 or 1 and for which the condition holds is drawn exactly once; no other row is drawn. -/
theorem plot_rows_once (hP : PolyLaw P D.reals.length pts) (hD : BoxOk D) {simp : Formula → Formula} (hS : PlotSimp simp) {formula : Option Formula}
    (hf : ∀ f, formula = some f → Plottable f ∧ D.covers f) {data : PlotData} (hdata : CompleteData D data) {A : PlotArgs}
    (hA : LearnedOk A (seenRows D data).length) {x y : String} (hAx : A.x = .name x) (hAy : A.y = .name y) (hx : x ∈ D.reals) (hy : y ∈ D.reals) :
    ∃ panels, plotCombined P simp D formula data A = .ok panels ∧ (panels.flatMap drawn).Perm
      (((seenRows D data).zipIdx.filter fun p => decide (∀ v ∈ D.bools, p.1.val v = 0 ∨ p.1.val v = 1) && A.condition.all fun c => c p.1.raw p.1.label).map
        fun p => (styleOf p.1.label (statusOf A.active A.newActive p.2), p.1.val x, p.1.val y)) := by
  obtain ⟨panels, h1, h2, h3⟩ := plot_panels_partial hP hD hS hf hdata hA hAx hAy hx hy
  refine ⟨panels, h1, ?_⟩
  set rows := (seenRows D data).zipIdx.filter fun p => decide (∀ v ∈ D.bools, p.1.val v = 0 ∨ p.1.val v = 1) && A.condition.all fun c => c p.1.raw p.1.label
  have hnd : (plotAssignments D.bools.length).Nodup := by
    refine List.Nodup.of_map cellOf ?_
    rw [plotAssignments_cells]
    exact List.nodup_reverse.mpr List.nodup_range
  have hpart := perm_flatMap_filter (fun p : SeenRow × ℕ => D.bools.map fun v => decide (p.1.val v = 1)) rows hnd fun p _ => plotAssignments_mem.mpr (by simp)
  have step : ∀ {as : List (List Bool)} {ps : List (PlotPanel R)},
      List.Forall₂ (fun a p => a.length = D.bools.length ∧ PanelShows D pts formula data x y A a p) as ps →
      (ps.flatMap drawn).Perm ((as.flatMap fun a => rows.filter fun p => decide ((D.bools.map fun v => decide (p.1.val v = 1)) = a)).map
        fun p => (styleOf p.1.label (statusOf A.active A.newActive p.2), p.1.val x, p.1.val y)) := by
    intro as ps hall
    induction hall with
    | nil => simp
    | cons hap _ ih =>
      obtain ⟨hl, hp⟩ := hap
      simp only [List.flatMap_cons, List.map_append]
      refine List.Perm.append (hp.marks.trans (List.Perm.of_eq ?_)) ih
      unfold marksOf
      congr 1
      simp only [rows, List.filter_filter]
      refine List.filter_congr fun p _ => ?_
      rw [decide_eq_decide.mpr (inPanel_iff D.bools _ hl p.1), Bool.decide_and]
      cases decide (∀ v ∈ D.bools, p.1.val v = 0 ∨ p.1.val v = 1) <;> cases A.condition.all fun c => c p.1.raw p.1.label <;> simp
  exact (step h3).trans (hpart.map _)


/-- C84: `plot_formula` with two real variables and no features: one panel per assignment, each with the region of the formula. -/
theorem plot_formula_panels (hP : PolyLaw P D.reals.length pts) (hD : BoxOk D) {simp : Formula → Formula} (hS : PlotSimp simp) {f : Formula}
    (hf : Plottable f) (hc : D.covers f) (h2 : D.reals.length = 2) :
    ∃ panels, plotFormula P simp D f none = .ok panels ∧ panels.map (·.index) = (List.range (2 ^ D.bools.length)).reverse ∧
      ∀ a : List Bool, a.length = D.bools.length → ∃ p ∈ panels, p.index = cellOf a ∧ drawn p = [] ∧
        ∀ᵐ z, (∃ r, p.region = some r ∧ z ∈ pts r) ↔ D.inBox (plotEnv D a z) ∧ truth (plotEnv D a z) f = true := by
  have hrv : D.realVars = .ok D.reals := hD.wf.realVars
  obtain ⟨x, y, hxy⟩ : ∃ x y, D.reals = [x, y] := List.length_eq_two.mp h2
  obtain ⟨panels, e1, e2, e3⟩ := plot_panels_partial hP hD hS (formula := some f) (by rintro _ ⟨⟩; exact ⟨hf, hc⟩) (data := .dicts []) (by intro p hp; cases hp)
    (A := ⟨.name x, .name y, none, [], [], none⟩) (by intro ls h; cases h) rfl rfl (x := x) (y := y) (by simp [hxy]) (by simp [hxy])
  refine ⟨panels, ?_, e2, fun a ha => ?_⟩
  · have hff : formulaFeatures D none = .ok (.name x, .name y) := by simp only [formulaFeatures, hrv, hxy]
    simp only [plotFormula, hff]
    exact e1
  · have hm := plotAssignments_mem.mpr ha
    have : ∀ {as : List (List Bool)} {ps : List (PlotPanel R)} {Q : List Bool → PlotPanel R → Prop}, List.Forall₂ Q as ps → a ∈ as → ∃ p ∈ ps, Q a p := by
      intro as ps Q h
      induction h with
      | nil => simp
      | cons h1 _ ih =>
        intro hm
        rcases List.mem_cons.mp hm with rfl | hm
        · exact ⟨_, by simp, h1⟩
        · obtain ⟨p, hp, hq⟩ := ih hm
          exact ⟨p, by simp [hp], hq⟩
    obtain ⟨p, hp, -, hq⟩ := this e3 hm
    exact ⟨p, hp, hq.index, List.Perm.eq_nil hq.marks, hq.region f rfl h2⟩

/-! ### What goes wrong -/

/-- A comparison that is not linear leaves the panel blank: the exception is swallowed. -/
theorem plot_nonlinear_blank (P : Polytopes R) (D : Domain) {l r : Formula} (hl : wt .real l = true) (hr : wt .real r = true)
    (hna : ¬AffineDiff l r ℝ) (hb : ∀ m : String → Option Bool, (Formula.le l r).substB m = .le l r) (bools : List String) (a : List Bool) :
    panelRegion P id D bools (some (.le l r)) a = .ok none := by
  have h := linFromSmt_nonlinear (K := ℝ) hl hr (.inl rfl) hna
  have : regionOf P D (.le l r) = .error .valueError := by
    rw [regionOf_eq]
    simp [Walker.dispatch, regionW, compareRegion, h]
  simp only [panelRegion, id, hb, this]

/-- An equation, or a conditional formula, cannot be drawn at all. -/
theorem plot_equation_fails (P : Polytopes R) (D : Domain) (bools : List String) (a : List Bool) :
    (∀ l r, panelRegion P id D bools (some (.equals l r)) a = .error .runtimeError) ∧
    ∀ c t e, panelRegion P id D bools (some (.ite c t e)) a = .error .runtimeError := by
  refine ⟨fun l r => ?_, fun c t e => ?_⟩
  · simp only [panelRegion, id, substB]; rw [regionOf_eq]; rfl
  · simp only [panelRegion, id, substB]; rw [regionOf_eq]; rfl

/-- Features given as column numbers never work, although the signature offers them: the limits of the axes are looked up by name. -/
theorem plot_index_fails (P : Polytopes R) (simp : Formula → Formula) (D : Domain) (formula : Option Formula) (data : PlotData) (A : PlotArgs) {i : ℕ}
    (h : A.x = .index i ∨ A.y = .index i) (panels : List (PlotPanel R)) : plotCombined P simp D formula data A ≠ .ok panels := by
  intro hc
  have hpan : ∀ bools a p, plotPanel P simp D bools formula data A a ≠ .ok p := by
    intro bools a p hp
    simp only [plotPanel, bind, Except.bind] at hp
    split at hp <;> try cases hp
    split at hp <;> try cases hp
    split at hp <;> try cases hp
    split at hp <;> try cases hp
    rename_i _ _ _ _ _ hx _ _ hy
    rcases h with h | h
    · rw [h] at hx; cases hx
    · rw [h] at hy; cases hy
  unfold plotCombined at hc
  split at hc
  · cases hc
  · rename_i bools _
    cases hq : plotAssignments bools.length with
    | nil => exact absurd (plotAssignments_mem.mpr (List.length_replicate : (List.replicate bools.length true).length = _)) (by rw [hq]; simp)
    | cons a as =>
      rw [hq, mapE] at hc
      cases hp : plotPanel P simp D bools formula data A a with
      | ok p => exact hpan _ _ _ hp
      | error e => rw [hp] at hc; cases hc

/-- One feature in `plot_formula` is used for both axes. -/
theorem plot_one_feature (D : Domain) (n : String) : formulaFeatures D (some (.name n, .missing)) = .ok (.name n, .name n) := rfl

end

/-! ### Instances -/

open Classical in
/-- Sets are polytopes enough. -/
noncomputable def setPolytopes (n : ℕ) : Polytopes (Set (Fin n → ℝ)) where
  make rows := {x | ∀ row ∈ rows, dotRow row.1 x ≤ (row.2 : ℝ)}
  inter := (· ∩ ·)
  union := (· ∪ ·)
  diff := (· \ ·)
  dim r := .ok (if ∀ᵐ x, x ∉ r then 0 else n)

theorem setPolytopes_law (n : ℕ) : PolyLaw (setPolytopes n) n id := by
  refine ⟨fun rows _ => .of_forall fun x => Iff.rfl, fun r s => .of_forall fun x => Iff.rfl, fun r s => .of_forall fun x => Iff.rfl,
    fun r s => .of_forall fun x => Iff.rfl, fun r => ?_⟩
  by_cases h : ∀ᵐ x, x ∉ r
  · exact .inr ⟨h, .inl (by simp [setPolytopes, h])⟩
  · exact .inl (by simp [setPolytopes, h])

theorem plotSimp_id : PlotSimp id := ⟨fun _ h => h, fun _ _ _ h => h, fun _ _ _ => rfl⟩

/-- A domain with a Boolean variable and two real variables. -/
def plotDomain : Domain := ⟨["b", "x", "y"], [("b", .bool), ("x", .real), ("y", .real)], [("x", some 0, some 1), ("y", some 0, some 2)]⟩

theorem plotDomain_ok : BoxOk plotDomain := by
  refine ⟨⟨by decide, by decide, by intro v; simp [plotDomain], by decide, ?_⟩, ?_⟩
  · intro v
    simp [plotDomain]
  · intro v b h
    simp only [plotDomain, List.lookup_cons, List.lookup_nil] at h
    split at h
    · cases h; exact ⟨0, 1, rfl, by norm_num⟩
    · split at h
      · cases h; exact ⟨0, 2, rfl, by norm_num⟩
      · cases h

/-- `b ∨ y ≥ 1`. -/
def plotExample : Formula := .or [.sym "b" .bool, .le (.realC 1) (.sym "y" .real)]

theorem plotExample_ok : Plottable plotExample := by
  refine .or (by simp) fun a ha => ?_
  simp only [List.mem_cons, List.not_mem_nil, or_false] at ha
  rcases ha with rfl | rfl
  · exact .sym _
  · refine .le rfl rfl ⟨⟨fun _ => false, fun _ => 0⟩, ⟨fun _ => false, fun _ => 1⟩, ?_⟩
    simp [value]

theorem plotExample_covers : plotDomain.covers plotExample := by
  intro p hp
  simp only [plotExample, syms, symsList, List.append_nil, List.nil_append, List.cons_append, List.mem_cons, List.not_mem_nil, or_false] at hp
  rcases hp with rfl | rfl <;> decide

/-- Rows of an array: two in the panel of `b`, one in the other, and one that is not drawn. -/
def plotTable : PlotData := .table [[1, 1/2, 1/2], [0, 1/4, 3/2], [1, 1, 2], [1/2, 0, 0]] [1, 0, 0, 1]

example : CompleteData plotDomain plotTable := ⟨rfl, by decide⟩

example : plotDomain.bools = ["b"] ∧ plotDomain.reals = ["x", "y"] := ⟨by decide, by decide⟩

example : marksOf ["b"] "x" "y" [0] [1] none [true] (seenRows plotDomain plotTable) =
    [(⟨"+", "black", 1/2⟩, 1/2, 1/2), (⟨".", "red", 1/5⟩, 1, 2)] := by decide +kernel

example : marksOf ["b"] "x" "y" [0] [1] none [false] (seenRows plotDomain plotTable) = [(⟨".", "red", 1⟩, 1/4, 3/2)] := by decide +kernel

/-- The hypotheses of C84 hold for this problem. -/
example : ∃ panels, plotCombined (setPolytopes 2) id plotDomain (some plotExample) plotTable ⟨.name "x", .name "y", none, [0], [1], none⟩ = .ok panels ∧
    panels.map (·.index) = [1, 0] := by
  obtain ⟨ps, h1, h2, -⟩ := plot_panels_partial (P := setPolytopes 2) (D := plotDomain) (pts := id) (setPolytopes_law 2) plotDomain_ok plotSimp_id
    (formula := some plotExample) (by rintro _ ⟨⟩; exact ⟨plotExample_ok, plotExample_covers⟩) (data := plotTable) ⟨rfl, by decide⟩
    (A := ⟨.name "x", .name "y", none, [0], [1], none⟩) (by intro ls h; cases h) rfl rfl (x := "x") (y := "y") (by decide) (by decide)
  exact ⟨ps, h1, h2⟩

/-- Nonlinear comparisons exist: `x * x ≤ 1` is drawn as an empty panel. -/
theorem plot_blank_counterexample (P : Polytopes (Set (Fin 2 → ℝ))) :
    panelRegion P id plotDomain ["b"] (some (.le (.times [.sym "x" .real, .sym "x" .real]) (.realC 1))) [true] = .ok none := by
  refine plot_nonlinear_blank P plotDomain (by decide) (by decide) ?_ (fun _ => by simp [substB, substBList]) _ _
  rintro ⟨c0, cs, h⟩
  have hs : ∀ t : ℝ, (cs.map fun p => (p.2 : ℝ) * t).sum = (cs.map fun p => (p.2 : ℝ)).sum * t := fun t => List.sum_map_mul_right _ _ _
  have g : ∀ t : ℝ, t * t - 1 = c0 + (cs.map fun p => (p.2 : ℝ)).sum * t := by
    intro t
    have := h ⟨fun _ => false, fun _ => t⟩
    simpa [value, valueProd, hs] using this
  have g0 := g 0
  have g1 := g 1
  have g2 := g 2
  linarith

/-- The region is always drawn over the first two real variables in the order of the domain.  With the features the other way round the
data are mirrored and the region is not: the row `x = 1/4, y = 3/2` satisfies the formula, it is drawn at `(3/2, 1/4)`, but the region
of its panel has no area where the first coordinate exceeds 1. -/
theorem plot_swapped_counterexample {R : Type} {P : Polytopes R} {pts : R → Set (Fin 2 → ℝ)} (hP : PolyLaw P 2 pts) :
    truth (⟨fun _ => false, fun v => if v = "x" then 1/4 else 3/2⟩ : Env ℝ) plotExample = true ∧
    ∃ panels, plotCombined P id plotDomain (some plotExample) plotTable ⟨.name "y", .name "x", none, [0], [1], none⟩ = .ok panels ∧
      ∃ p ∈ panels, (⟨".", "red", 1⟩, 3/2, 1/4) ∈ drawn p ∧ ∀ᵐ z, ∀ r, p.region = some r → z ∈ pts r → z 0 ≤ 1 := by
  refine ⟨?_, ?_⟩
  · simp [plotExample, truth, truthAny, value]; norm_num
  · obtain ⟨ps, h1, -, h3⟩ := plot_panels_partial (P := P) (D := plotDomain) (pts := pts) hP plotDomain_ok plotSimp_id
      (formula := some plotExample) (by rintro _ ⟨⟩; exact ⟨plotExample_ok, plotExample_covers⟩) (data := plotTable) ⟨rfl, by decide⟩
      (A := ⟨.name "y", .name "x", none, [0], [1], none⟩) (by intro ls h; cases h) rfl rfl (x := "y") (y := "x") (by decide) (by decide)
    refine ⟨ps, h1, ?_⟩
    have e : plotAssignments plotDomain.bools.length = [[true], [false]] := by decide
    rw [e] at h3
    obtain ⟨p0, qs0, -, h4, rfl⟩ := List.forall₂_cons_left_iff.mp h3
    obtain ⟨p, qs, ⟨-, hp⟩, -, rfl⟩ := List.forall₂_cons_left_iff.mp h4
    refine ⟨p, by simp, ?_, ?_⟩
    · refine hp.marks.mem_iff.mpr ?_
      show _ ∈ marksOf plotDomain.bools "y" "x" [0] [1] none [false] (seenRows plotDomain plotTable)
      decide +kernel
    · filter_upwards [hp.region _ rfl rfl] with z hz r hr hm
      have hb := (hz.mp ⟨r, hr, hm⟩).1 ("x", some 0, some 1) (by simp [plotDomain])
      have := hb.2 1 rfl
      have hv : (plotEnv plotDomain [false] z).r "x" = z 0 := by
        have := setReals_get (σ := ⟨fun n => ((plotDomain.bools.zip [false]).lookup n).getD false, fun _ => 0⟩) (reals_nodup plotDomain_ok.wf) (x := z) ⟨0, by decide⟩
        exact this
      simp only [hv] at this
      simpa using this

end Pywmi
