import Verif.Xadd.Invert
import Verif.Xadd.LeafTransform

set_option linter.unusedSectionVars false
set_option linter.unusedSimpArgs false

/-!
# Transformations of leaves: what a walk returns
-/

namespace Pywmi
open Prog Formula

section
variable {E : Type} [DecidableEq E] {X : XCtx E} {ev : E → (String → ℝ) → ℝ}

/-- `transform_leaves` with a leaf function that never raises. -/
theorem transformLeaves_run {Rel : (Formula → Bool) → E → E → Prop} {P : Formula → Prop} {O : Prop} (hs : SimpLaw X.simp) (hb : BackLaw X.back ev)
    {p : Pool E} (hp : InvP X p) {n : ℕ} {T : XTree E} (hT : Den p n T) {f : ℕ → E → XM E ℕ}
    (hf : ∀ q m e, Inv1 X q → Ext p q → q.node m = some (.leaf e) → Run (Inv1 X) Fr1 (f m e) q True fun a q' => LeafMsg Rel P O q' m a) :
    Run (InvP X) FrI (transformLeaves X f n) p (∀ pr, p.profiles.lookup n = some pr → Clean pr)
      (fun r q => (∃ T', Den q r T' ∧ LeafSpec Rel P O q.tests T T')) := by
  have hv : ∀ S, Visitors X p n f (leafInternal X (invert X)) (LeafMsg Rel P O) S := by
    intro S
    refine ⟨fun q q' m a hq _ he h => h.mono hq.core he, fun q m e hq hpq _ hx => (hf q m e hq hpq hx).imp (fun _ => trivial) fun _ _ _ _ h => h, ?_, ?_⟩
    · intro q m d t f a b hq _ _ hx ha hb'
      exact (leafInternal_run hs hb hq hx ha hb' 1).imp (fun _ => trivial) fun _ _ _ _ h => h
    · intro q m d t f a b hq _ _ hx ha _ hl
      exact leafInternal_lost hs hb hq hx ha hl 1
  have fin : ∀ {r : ℕ} {q : Pool E}, Ext p q → LeafMsg Rel P O q n r → ∃ T', Den q r T' ∧ LeafSpec Rel P O q.tests T T' := by
    rintro r q hpq ⟨U, T', hU, hT', h⟩
    rw [hU.unique (hpq.den hT)] at h
    exact ⟨T', hT', h⟩
  have weak : ∀ (S safe : Prop), (S ∨ ¬ safe) → (∀ (pr : Profile) (q : Pool E), ProfOk q n pr S → ProfOk q n pr (Bin X T)) → IP X n S p →
      Run (InvP X) FrI (transformLeaves X f n) p safe (fun r q => ∃ T', Den q r T' ∧ LeafSpec Rel P O q.tests T T') := by
    intro S safe hS hpr hip
    refine Run.imp (Run.weaken (bottomUp_run hip hT.isSome (hv S)) (R' := FrI) (I' := InvP X) ?_ fun q hpq => ⟨hpq.toExt, hpq.resolveC, hpq.walkC⟩)
      (fun h => hS.resolve_right (not_not_intro h)) fun r q _ hpq h => fin hpq.toExt h
    intro q hq hpq
    refine ⟨hq.toInv1, fun r pr hl => ?_⟩
    by_cases hr : r = n
    · subst hr
      exact ⟨T, hpq.den hT, hpr _ _ (hq.prof pr hl)⟩
    · rw [hpq.profC r hr] at hl
      obtain ⟨U, h1, h2⟩ := hp.prof r pr hl
      exact ⟨U, hpq.den h1, h2.mono hpq.toExt hp.core⟩
  by_cases hfr : ∀ pr, p.profiles.lookup n = some pr → Clean pr
  · refine weak True _ (Or.inl trivial) (fun pr q h => ⟨h.1, h.2.1, Or.inl (h.2.2.resolve_right (not_not_intro trivial))⟩) ⟨hp.toInv1, fun pr hl => ?_⟩
    obtain ⟨U, -, h2⟩ := hp.prof n pr hl
    exact ⟨h2.1, h2.2.1, Or.inl (hfr pr hl)⟩
  · refine weak (Bin X T) _ (Or.inr hfr) (fun _ _ h => h) ⟨hp.toInv1, fun pr hl => ?_⟩
    obtain ⟨U, h1, h2⟩ := hp.prof n pr hl
    rw [h1.unique hT] at h2
    exact h2

/-- SPEC: the leaf is `g` of the leaf. -/
def MapRel (g : E → E) (_ : Formula → Bool) (e e' : E) : Prop := e' = g e

/-- The leaf function of `to_binary`. -/
theorem toBinaryLeaf_run (z : E → Bool) {q : Pool E} (hq : Inv1 X q) {m : ℕ} {e : E} (hx : q.node m = some (.leaf e)) :
    Run (Inv1 X) Fr1 (toBinaryLeaf z m e) q True fun a q' =>
      LeafMsg (MapRel fun e => if z e then X.back.alg.zero else X.back.alg.one) (fun _ => False) True q' m a := by
  unfold toBinaryLeaf
  refine Run.bindGet (Run.ret Fr1.refl hq ⟨_, .leaf (if z e then X.back.alg.zero else X.back.alg.one), .leaf hx, .leaf ?_, fun c => rfl,
    fun g hg => (by cases hg), fun _ => trivial⟩)
  split
  · exact hq.core.zero
  · exact hq.core.one

/-- A leaf function that computes an expression. -/
theorem mapLeaf_run (g : E → E) {q : Pool E} (hq : Inv1 X q) {m : ℕ} {e : E} (hx : q.node m = some (.leaf e)) :
    Run (Inv1 X) Fr1 (mapLeaf g m e) q True fun a q' => LeafMsg (MapRel g) (fun _ => False) True q' m a :=
  (((terminal_run hq.core (g e)).core hq.toInv0).inv0 hq).imp id fun _ _ _ he h =>
    ⟨_, _, .leaf (he.node hx), .leaf h, fun _ => rfl, fun g hg => (by cases hg), fun _ => trivial⟩

/-- `transform_leaves` with a leaf function that computes an expression. -/
theorem transformMap_run (hs : SimpLaw X.simp) (hb : BackLaw X.back ev) {p : Pool E} (hp : InvP X p) {n : ℕ} {T : XTree E} (hT : Den p n T) (g : E → E) :
    Run (InvP X) FrI (transformLeaves X (mapLeaf g) n) p (∀ pr, p.profiles.lookup n = some pr → Clean pr)
      (fun r q => (∃ T', Den q r T' ∧ LeafSpec (MapRel g) (fun _ => False) True q.tests T T')) :=
  transformLeaves_run hs hb hp hT fun _ _ _ hq _ hx => mapLeaf_run g hq hx

/-- `to_binary`. -/
theorem toBinary_run (hs : SimpLaw X.simp) (hb : BackLaw X.back ev) {p : Pool E} (hp : InvP X p) {n : ℕ} {T : XTree E} (hT : Den p n T) (z : E → Bool) :
    Run (InvP X) FrI (toBinary X z n) p (∀ pr, p.profiles.lookup n = some pr → Clean pr)
      (fun r q => (∃ T', Den q r T' ∧ LeafSpec (MapRel fun e => if z e then X.back.alg.zero else X.back.alg.one) (fun _ => False) True q.tests T T')) :=
  transformLeaves_run hs hb hp hT fun _ _ _ hq _ hx => toBinaryLeaf_run z hq hx

end
end Pywmi
