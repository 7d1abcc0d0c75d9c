import Verif.Sample.Mean
import Verif.Props.Sample
import Verif.Smt.Congr

set_option linter.unusedSectionVars false
set_option linter.unusedSimpArgs false

/-!
# The rows of the rejection engine as blocks of the stream of the generator

Helper lemmas for Props/RejectionLaw.lean.
-/

namespace Pywmi
open Formula MeasureTheory ProbabilityTheory

/-! ## The stream -/

/-- SPEC: the state after some numbers. -/
def Rng.skip {K : Type} (R : Rng K) (s : R.State) : ℕ → R.State
  | 0 => s
  | k + 1 => R.skip (R.next s).2 k

/-- SPEC: the numbers the generator gives from a state on. -/
def Rng.out {K : Type} (R : Rng K) (s : R.State) (k : ℕ) : K := (R.next (R.skip s k)).1

section
variable {K : Type} [Field K] [LinearOrder K]

theorem Rng.skip_add (R : Rng K) (s : R.State) (m k : ℕ) : R.skip (R.skip s m) k = R.skip s (m + k) := by
  induction m generalizing s with
  | zero => simp [Rng.skip]
  | succ m ih => rw [Nat.succ_add]; exact ih _

theorem drawRow_out (R : Rng K) (m : ℕ) (s : R.State) : drawRow R m s = (List.ofFn fun j : Fin m => R.out s j, R.skip s m) := by
  induction m generalizing s with
  | zero => simp [drawRow, Rng.skip]
  | succ m ih =>
    simp only [drawRow, ih, List.ofFn_succ]
    rfl

theorem drawRows_out (R : Rng K) (m n : ℕ) (s : R.State) :
    (drawRows R m n s).1 = List.ofFn fun i : Fin n => List.ofFn fun j : Fin m => R.out s (i * m + j) := by
  induction n generalizing s with
  | zero => simp [drawRows]
  | succ n ih =>
    simp only [drawRows, ih, drawRow_out, List.ofFn_succ]
    have : ∀ (i j : ℕ), R.out (R.skip s m) (i * m + j) = R.out s ((i + 1) * m + j) := by
      intro i j
      simp only [Rng.out, Rng.skip_add]
      congr 3
      ring
    simp [this]

end

/-! ## The assignment of a row -/

theorem drawEntry_other (D : Domain) {v w : String} (h : w ≠ v) (u : ℝ) (σ : Env ℝ) :
    (D.drawEntry v u σ).b w = σ.b w ∧ (D.drawEntry v u σ).r w = σ.r w := by
  unfold Domain.drawEntry
  split
  · simp [Env.setB, h]
  · split
    · simp [Env.setR, h]
    · simp
  · simp

theorem drawEnv_other (D : Domain) : ∀ (vs : List String) {w : String}, w ∉ vs → ∀ (x : Fin vs.length → ℝ) (σ : Env ℝ),
    (D.drawEnv vs x σ).b w = σ.b w ∧ (D.drawEnv vs x σ).r w = σ.r w := by
  intro vs
  induction vs with
  | nil => intro w _ x σ; exact ⟨rfl, rfl⟩
  | cons v vs ih =>
    intro w hw x σ
    simp only [List.mem_cons, not_or] at hw
    obtain ⟨h1, h2⟩ := ih hw.2 (fun i => x i.succ) (D.drawEntry v (x 0) σ)
    obtain ⟨h3, h4⟩ := drawEntry_other D hw.1 (x 0) σ
    exact ⟨h1.trans h3, h2.trans h4⟩

/-- The row that `uniform` makes and the drawn assignment agree. -/
theorem drawEnv_agree (D : Domain) : ∀ (vs : List String), vs.Nodup → (∀ v ∈ vs, D.drawable v) →
    ∃ fs : List (ℝ → ℝ), Prog.mapE (columnMap D) vs = .ok fs ∧ ∀ (x : Fin vs.length → ℝ) (σ : Env ℝ) (w : String), w ∈ vs →
      ∀ t, D.varTypes.lookup w = some t → Agree (rowEnv vs (List.zipWith (fun f x => f x) fs (List.ofFn x))) (D.drawEnv vs x σ) (w, t) := by
  intro vs
  induction vs with
  | nil => intro _ _; exact ⟨[], rfl, by simp⟩
  | cons v vs ih =>
    intro hnd hd
    have hnd' := List.nodup_cons.mp hnd
    obtain ⟨fs, e, h⟩ := ih hnd'.2 fun w hw => hd w (by simp [hw])
    have hhead : ∃ f : ℝ → ℝ, columnMap D v = .ok f ∧ ∀ (u : ℝ) (σ : Env ℝ) t, D.varTypes.lookup v = some t →
        match t with
        | .bool => decide (f u ≠ 0) = (D.drawEntry v u σ).b v
        | .real => f u = (D.drawEntry v u σ).r v := by
      rcases hd v (by simp) with hb | ⟨hr, l, h', hlk, _⟩
      · refine ⟨_, by simp only [columnMap, dictGet, hb]; rfl, fun u σ t ht => ?_⟩
        rw [hb] at ht
        cases ht
        simp only [Domain.drawEntry, hb, Env.setB]
        by_cases hu : u < 1 / 2
        · simp only [hu, if_true, decide_true]; simp
        · simp only [hu, if_false, decide_false]; simp
      · refine ⟨_, by simp only [columnMap, dictGet, hr, hlk]; rfl, fun u σ t ht => ?_⟩
        rw [hr] at ht
        cases ht
        simp only [Domain.drawEntry, hr, hlk, Env.setR]
        simp
    obtain ⟨f, ef, hf⟩ := hhead
    refine ⟨f :: fs, by simp only [Prog.mapE, ef, e], fun x σ w hw t ht => ?_⟩
    have hrow : List.zipWith (fun f x => f x) (f :: fs) (List.ofFn x) =
        f (x 0) :: List.zipWith (fun f x => f x) fs (List.ofFn fun i : Fin vs.length => x i.succ) := by
      have : List.ofFn x = x 0 :: List.ofFn fun i : Fin vs.length => x i.succ := List.ofFn_succ (f := x)
      rw [this, List.zipWith_cons_cons]
    rw [hrow]
    by_cases hwv : w = v
    · subst hwv
      obtain ⟨h1, h2⟩ := drawEnv_other D vs hnd'.1 (fun i => x i.succ) (D.drawEntry w (x 0) σ)
      have := hf (x 0) σ t ht
      cases t with
      | bool =>
        simp only [Agree, rowEnv, List.idxOf_cons_self, List.getD_cons_zero]
        exact this.trans h1.symm
      | real =>
        simp only [Agree, rowEnv, List.idxOf_cons_self, List.getD_cons_zero]
        exact this.trans h2.symm
    · have hw' : w ∈ vs := (List.mem_cons.mp hw).resolve_left hwv
      have := h (fun i => x i.succ) (D.drawEntry v (x 0) σ) w hw' t ht
      have hidx : (v :: vs).idxOf w = vs.idxOf w + 1 := List.idxOf_cons_ne vs (Ne.symm hwv)
      cases t with
      | bool =>
        simp only [Agree, rowEnv, hidx, List.getD_cons_succ] at this ⊢
        exact this
      | real =>
        simp only [Agree, rowEnv, hidx, List.getD_cons_succ] at this ⊢
        exact this

theorem BoxOk.drawable {D : Domain} (hD : BoxOk D) {v : String} (hv : v ∈ D.vars) : D.drawable v := by
  obtain ⟨t, ht⟩ := lookup_of_key ((hD.wf.types v).mpr hv)
  cases t with
  | bool => exact .inl ht
  | real =>
    have hk : v ∈ D.varDomains.map (·.1) := (hD.wf.mem_real v).mpr (List.mem_filter.mpr ⟨hv, by simpa using ht⟩)
    obtain ⟨b, hb⟩ := lookup_of_key hk
    obtain ⟨l, u, rfl, hle⟩ := hD.box v b hb
    exact .inr ⟨ht, l, u, hb, hle⟩

/-- A drawn assignment is in the box. -/
theorem drawEnv_bounds (D : Domain) : ∀ (vs : List String), vs.Nodup → ∀ (x : Fin vs.length → ℝ), (∀ i, 0 ≤ x i ∧ x i < 1) → ∀ σ : Env ℝ,
    ∀ w ∈ vs, D.varTypes.lookup w = some .real → ∀ l h : ℚ, l ≤ h → D.varDomains.lookup w = some (some l, some h) →
      (l : ℝ) ≤ (D.drawEnv vs x σ).r w ∧ (D.drawEnv vs x σ).r w ≤ (h : ℝ) := by
  intro vs
  induction vs with
  | nil => intro _ _ _ _ w hw; simp at hw
  | cons v vs ih =>
    intro hnd x hx σ w hw hr l h hle hlk
    have hnd' := List.nodup_cons.mp hnd
    by_cases hwv : w = v
    · subst hwv
      have e := (drawEnv_other D vs hnd'.1 (fun i => x i.succ) (D.drawEntry w (x 0) σ)).2
      have e2 : (D.drawEnv (w :: vs) x σ).r w = (l : ℝ) + x 0 * ((h : ℝ) - (l : ℝ)) := by
        refine e.trans ?_
        simp only [Domain.drawEntry, hr, hlk, Env.setR]
        simp
      obtain ⟨h0, h1⟩ := hx 0
      have hle' : (l : ℝ) ≤ (h : ℝ) := by exact_mod_cast hle
      rw [e2]
      constructor <;> nlinarith
    · exact ih hnd'.2 (fun i => x i.succ) (fun i => hx i.succ) _ w ((List.mem_cons.mp hw).resolve_left hwv) hr l h hle hlk

theorem drawEnv_inBox {D : Domain} (hD : BoxOk D) {x : Fin D.vars.length → ℝ} (hx : ∀ i, 0 ≤ x i ∧ x i < 1) (σ : Env ℝ) :
    D.inBox (D.drawEnv D.vars x σ) := by
  rintro ⟨v, b⟩ hp
  have hk : v ∈ D.varDomains.map (·.1) := List.mem_map.mpr ⟨_, hp, rfl⟩
  obtain ⟨hv, hr⟩ := List.mem_filter.mp ((hD.wf.mem_real v).mp hk)
  have hlk := lookup_mem_nodup hD.wf.domNodup hp
  obtain ⟨l, u, rfl, hle⟩ := hD.box v b hlk
  have := drawEnv_bounds D D.vars hD.wf.nodup x hx σ v hv (by simpa using hr) l u hle hlk
  simpa [Domain.inBounds] using this

/-- The volume of the sampled set is the product of the widths. -/
theorem boxVolume_width {D : Domain} (hD : BoxOk D) :
    boxVolume D (2 ^ (D.vars.filter fun v => D.varTypes.lookup v = some .bool).length) = (D.vars.map D.width).prod := by
  have h1 : ∀ vs : List String, (∀ v ∈ vs, D.drawable v) → (vs.map D.width).prod =
      ((vs.filter fun v => D.varTypes.lookup v = some .real).map D.width).prod * 2 ^ (vs.filter fun v => D.varTypes.lookup v = some .bool).length := by
    intro vs
    induction vs with
    | nil => simp
    | cons v vs ih =>
      intro hd
      have ih := ih fun w hw => hd w (by simp [hw])
      rcases hd v (by simp) with hb | ⟨hr, _⟩
      · simp [List.filter_cons, hb, ih, Domain.width, pow_succ]; ring
      · simp [List.filter_cons, hr, ih, mul_assoc]
  rw [h1 D.vars fun v hv => hD.drawable hv, boxVolume]
  congr 1
  have hperm : (D.varDomains.map (·.1)).Perm (D.vars.filter fun v => D.varTypes.lookup v = some .real) :=
    (List.perm_ext_iff_of_nodup hD.wf.domNodup (hD.wf.nodup.filter _)).mpr hD.wf.mem_real
  rw [← (hperm.map D.width).prod_eq, List.map_map]
  congr 1
  refine List.map_congr_left ?_
  rintro ⟨v, b⟩ hp
  have hlk := lookup_mem_nodup hD.wf.domNodup hp
  obtain ⟨l, u, rfl, hle⟩ := hD.box v b hlk
  have hr := (List.mem_filter.mp ((hD.wf.mem_real v).mp (List.mem_map.mpr ⟨_, hp, rfl⟩))).2
  simp only [decide_eq_true_eq] at hr
  simp [Domain.width, hr, hlk]

end Pywmi
