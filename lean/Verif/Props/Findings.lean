import Verif.Props.FactorExamples
import Verif.Props.Math

set_option linter.unusedSectionVars false
set_option linter.unusedSimpArgs false

/-!
# Smaller findings: inputs on which the code raises or collects the wrong inequality
-/

namespace Pywmi
open Formula Prog

/-- C08, finding: the polynomial without terms cannot be exported (`smt.Plus` gets no argument). -/
theorem polyToSmt_empty : polyToSmt [] = .error .typeError := rfl

/-- C61, finding: a closed inequality is collected as a strict one, so a point of the boundary satisfies the formula but not the
collected inequality. -/
theorem inequalities_of_closed : ∃ (f : Formula) (s : List Formula) (σ : Env ℝ), (boundsW true).walk f = .ok s ∧
    truth σ f = true ∧ ∃ x ∈ s, truth σ x = false :=
  ⟨.le (.sym "x" .real) (.realC 1), [.lt (.sym "x" .real) (.realC 1)], ⟨fun _ => false, fun _ => 1⟩, by decide +kernel,
    by simp [truth, value], _, List.mem_singleton.mpr rfl, by simp [truth, value]⟩

theorem labelGroups_missing {L : LiteralInfo} {groups : List VarGroup} {labels : List (String × Formula × Formula)}
    {p : String × Formula × Formula} (hp : p ∈ labels) (hL : L.booleans.lookup p.1 = none) :
    ∀ d r, foldE (labelGroups L groups) d labels ≠ .ok r := by
  induction labels with
  | nil => cases hp
  | cons q qs ih =>
    intro d r h
    rcases List.mem_cons.mp hp with rfl | hq
    · simp only [foldE, labelGroups, hL] at h
      cases h
    · simp only [foldE] at h
      split at h
      · cases h
      · exact ih hq _ _ h

/-- C49, finding: if the weight labels a Boolean variable that the support does not mention, the factorised engine raises,
whatever the diagram, the domain and the options. -/
theorem label_missing_raises {E : Type} (o : FactOpts E) (D : Domain) {labels : List (String × Formula × Formula)} (t : Dict)
    {L : LiteralInfo} (s : Sdd) {p : String × Formula × Formula} (hp : p ∈ labels) (hL : L.booleans.lookup p.1 = none) :
    ¬∃ e, o.termVolume D labels t L s = .ok e := by
  rintro ⟨e, h⟩
  unfold FactOpts.termVolume at h
  split at h
  · cases h
  · dsimp only at h
    split at h
    · cases h
    · split at h
      · cases h
      · rename_i l2g hl
        unfold literalGroups at hl
        split at hl
        · cases hl
        · exact labelGroups_missing hp hL _ _ hl

/-- The exception is a `KeyError`: weight labels on `B`, support that mentions only `A`. -/
example : literalGroups ⟨[("b0", .bool "A")], [], [("A", "b0")]⟩ [("B", .realC 3, .realC 5)] [([], [([], 1)])] = .error .keyError := by
  decide +kernel

end Pywmi
