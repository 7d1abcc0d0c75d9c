import Verif.Smt.Formula

set_option linter.unusedSectionVars false
set_option linter.unusedSimpArgs false

/-! # The meaning of a well-typed formula depends only on its symbols -/

namespace Pywmi
namespace Formula
variable {K : Type} [Field K] [LinearOrder K]

/-- Two assignments agree on a typed symbol. -/
def Agree (σ τ : Env K) (p : String × Ty) : Prop :=
  match p.2 with
  | .bool => σ.b p.1 = τ.b p.1
  | .real => σ.r p.1 = τ.r p.1

theorem all_of_eq {as : List Formula} {f g : Formula → Bool} (h : ∀ a ∈ as, f a = g a) : as.all f = as.all g := by
  induction as with
  | nil => rfl
  | cons a as ih => simp [h a (by simp), ih fun x hx => h x (by simp [hx])]

theorem any_of_eq {as : List Formula} {f g : Formula → Bool} (h : ∀ a ∈ as, f a = g a) : as.any f = as.any g := by
  induction as with
  | nil => rfl
  | cons a as ih => simp [h a (by simp), ih fun x hx => h x (by simp [hx])]

theorem meaning_congr {σ τ : Env K} (f : Formula) : ∀ ty, wt ty f = true → (∀ p ∈ syms f, Agree σ τ p) →
    (ty = .bool → truth σ f = truth τ f) ∧ (ty = .real → value σ f = value τ f) := by
  have two : ∀ {l r : Formula}, (∀ p ∈ syms l ++ syms r, Agree σ τ p) →
      (∀ p ∈ syms l, Agree σ τ p) ∧ ∀ p ∈ syms r, Agree σ τ p := fun h =>
    ⟨fun p hp => h p (by simp [hp]), fun p hp => h p (by simp [hp])⟩
  have lst : ∀ {as : List Formula}, (∀ p ∈ symsList as, Agree σ τ p) → ∀ a ∈ as, ∀ p ∈ syms a, Agree σ τ p :=
    fun h a ha p hp => h p (mem_symsList.mpr ⟨a, ha, hp⟩)
  induction f using Formula.induct with
  | and as ih =>
    intro ty hw hs
    cases ty <;> simp only [wt, Bool.and_eq_true, wtAll_iff, Bool.false_eq_true] at hw
    refine ⟨fun _ => ?_, fun h => by cases h⟩
    simp only [truth, truthAll_eq]
    exact all_of_eq fun a ha => (ih a ha .bool (hw.2 a ha) (lst hs a ha)).1 rfl
  | or as ih =>
    intro ty hw hs
    cases ty <;> simp only [wt, Bool.and_eq_true, wtAll_iff, Bool.false_eq_true] at hw
    refine ⟨fun _ => ?_, fun h => by cases h⟩
    simp only [truth, truthAny_eq]
    exact any_of_eq fun a ha => (ih a ha .bool (hw.2 a ha) (lst hs a ha)).1 rfl
  | times as ih =>
    intro ty hw hs
    cases ty <;> simp only [wt, Bool.and_eq_true, wtAll_iff, Bool.false_eq_true] at hw
    refine ⟨fun h => by (cases h), fun _ => ?_⟩
    simp only [value, valueProd_eq]
    exact congrArg _ (List.map_congr_left fun a ha => (ih a ha .real (hw.2 a ha) (lst hs a ha)).2 rfl)
  | plus as ih =>
    intro ty hw hs
    cases ty <;> simp only [wt, Bool.and_eq_true, wtAll_iff, Bool.false_eq_true] at hw
    refine ⟨fun h => by (cases h), fun _ => ?_⟩
    simp only [value, valueSum_eq]
    exact congrArg _ (List.map_congr_left fun a ha => (ih a ha .real (hw.2 a ha) (lst hs a ha)).2 rfl)
  | implies l r ihl ihr =>
    intro ty hw hs
    cases ty <;> simp only [wt, Bool.and_eq_true, Bool.false_eq_true] at hw
    refine ⟨fun _ => ?_, fun h => by cases h⟩
    simp only [truth, (ihl _ hw.1 (two hs).1).1 rfl, (ihr _ hw.2 (two hs).2).1 rfl]
  | iff l r ihl ihr =>
    intro ty hw hs
    cases ty <;> simp only [wt, Bool.and_eq_true, Bool.false_eq_true] at hw
    refine ⟨fun _ => ?_, fun h => by cases h⟩
    simp only [truth, (ihl _ hw.1 (two hs).1).1 rfl, (ihr _ hw.2 (two hs).2).1 rfl]
  | not a ih =>
    intro ty hw hs
    cases ty <;> simp only [wt, Bool.false_eq_true] at hw
    exact ⟨fun _ => by simp only [truth, (ih _ hw hs).1 rfl], fun h => by cases h⟩
  | le l r ihl ihr =>
    intro ty hw hs
    cases ty <;> simp only [wt, Bool.and_eq_true, Bool.false_eq_true] at hw
    refine ⟨fun _ => ?_, fun h => by cases h⟩
    simp only [truth, (ihl _ hw.1 (two hs).1).2 rfl, (ihr _ hw.2 (two hs).2).2 rfl]
  | lt l r ihl ihr =>
    intro ty hw hs
    cases ty <;> simp only [wt, Bool.and_eq_true, Bool.false_eq_true] at hw
    refine ⟨fun _ => ?_, fun h => by cases h⟩
    simp only [truth, (ihl _ hw.1 (two hs).1).2 rfl, (ihr _ hw.2 (two hs).2).2 rfl]
  | equals l r ihl ihr =>
    intro ty hw hs
    cases ty <;> simp only [wt, Bool.and_eq_true, Bool.false_eq_true] at hw
    refine ⟨fun _ => ?_, fun h => by cases h⟩
    simp only [truth, (ihl _ hw.1 (two hs).1).2 rfl, (ihr _ hw.2 (two hs).2).2 rfl]
  | minus l r ihl ihr =>
    intro ty hw hs
    cases ty <;> simp only [wt, Bool.and_eq_true, Bool.false_eq_true] at hw
    refine ⟨fun h => by (cases h), fun _ => ?_⟩
    simp only [value, (ihl _ hw.1 (two hs).1).2 rfl, (ihr _ hw.2 (two hs).2).2 rfl]
  | ite c t e ihc iht ihe =>
    intro ty hw hs
    simp only [wt, Bool.and_eq_true] at hw
    have h1 : ∀ p ∈ syms c, Agree σ τ p := fun p hp => hs p (by simp [syms, hp])
    have h2 : ∀ p ∈ syms t, Agree σ τ p := fun p hp => hs p (by simp [syms, hp])
    have h3 : ∀ p ∈ syms e, Agree σ τ p := fun p hp => hs p (by simp [syms, hp])
    have hc := (ihc _ hw.1.1 h1).1 rfl
    cases ty with
    | bool => exact ⟨fun _ => by simp only [truth, hc, (iht _ hw.1.2 h2).1 rfl, (ihe _ hw.2 h3).1 rfl], fun h => by cases h⟩
    | real => exact ⟨fun h => by (cases h), fun _ => by simp only [value, hc, (iht _ hw.1.2 h2).2 rfl, (ihe _ hw.2 h3).2 rfl]⟩
  | pow b e ihb ihe =>
    intro ty hw hs
    cases e with
    | realC q =>
      cases ty <;> simp only [wt, Bool.and_eq_true, Bool.false_eq_true] at hw
      exact ⟨fun h => by (cases h), fun _ => by simp only [value, (ihb _ hw.1 (two hs).1).2 rfl]⟩
    | _ => cases ty <;> simp [wt] at hw
  | sym n t =>
    intro ty hw hs
    have := hs (n, t) (by simp [syms])
    have ht : ty = t := by cases ty <;> cases t <;> simp_all [wt]
    subst ht
    cases ty with
    | bool => exact ⟨fun _ => by simpa [truth, Agree] using this, fun h => by cases h⟩
    | real => exact ⟨fun h => by (cases h), fun _ => by simpa [value, Agree] using this⟩
  | boolC b =>
    intro ty hw _
    cases ty <;> simp [wt] at hw
    exact ⟨fun _ => by simp [truth], fun h => by cases h⟩
  | realC q =>
    intro ty hw _
    cases ty <;> simp [wt] at hw
    exact ⟨fun h => by (cases h), fun _ => by simp [value]⟩

theorem truth_congr {σ τ : Env K} {f : Formula} (hw : wt .bool f = true) (h : ∀ p ∈ syms f, Agree σ τ p) :
    truth σ f = truth τ f := (meaning_congr f .bool hw h).1 rfl

theorem value_congr {σ τ : Env K} {f : Formula} (hw : wt .real f = true) (h : ∀ p ∈ syms f, Agree σ τ p) :
    value σ f = value τ f := (meaning_congr f .real hw h).2 rfl

end Formula
end Pywmi
