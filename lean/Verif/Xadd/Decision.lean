import Verif.Math.LinLemmas
import Verif.Math.Latte

set_option linter.unusedSectionVars false
set_option linter.unusedSimpArgs false

/-!
# Decisions of extended algebraic decision diagrams

Model of /repo/pywmi/engines/pyxadd/decision.py.  pysmt's `simplify` is a parameter `simp`.
-/

namespace Pywmi

/-- `Decision` (/repo/pywmi/engines/pyxadd/decision.py:19-26): the test, the stored inequality and the flag
`is_canonical`.  The cached fields `_variables` and `_is_bool` are recomputed. -/
structure Decision where
  test : Formula
  ineq : Option Dict := none
  canonical : Bool := false
deriving DecidableEq, Repr

namespace Decision

/-- `Decision.is_bool` (/repo/pywmi/engines/pyxadd/decision.py:57-62). -/
def isBoolTest : Formula → Bool
  | .sym _ .bool => true
  | .not (.sym _ _) => true
  | _ => false

/-- `Decision.inequality` (/repo/pywmi/engines/pyxadd/decision.py:34-38). -/
def inequality (d : Decision) : Except PyErr Dict :=
  match d.ineq with
  | some q => .ok q
  | none => linFromSmt d.test

/-- The simplified test of `get_valid_branches` (/repo/pywmi/engines/pyxadd/decision.py:44-49). -/
def simplified (simp : Formula → Formula) (d : Decision) : Except PyErr Formula :=
  if d.test = .boolC true ∨ d.test = .boolC false then .ok d.test
  else if isBoolTest d.test then .ok (simp d.test)
  else
    match d.inequality with
    | .ok q =>
      match linToSmt q with
      | .ok f => .ok (simp f)
      | .error e => .error e
    | .error e => .error e

/-- `Decision.get_valid_branches` (/repo/pywmi/engines/pyxadd/decision.py:40-55). -/
def validBranches (simp : Formula → Formula) (d : Decision) : Except PyErr (List Bool) :=
  match d.simplified simp with
  | .ok f =>
    if f = .boolC true then .ok [true]
    else if f = .boolC false then .ok [false]
    else .ok [true, false]
  | .error e => .error e

/-- The arithmetic part of `to_canonical` (/repo/pywmi/engines/pyxadd/decision.py:78-87): the canonical inequality
and whether the children are swapped.  `keys[0]` of an empty list raises IndexError. -/
def canonDict (q : Dict) : Except PyErr (Dict × Bool) :=
  match sortedKeys q with
  | [] => .error .indexError
  | k :: _ =>
    let factor := |linCoef q k|
    let result := q.map fun p => (p.1, p.2 / factor)
    if linCoef result k < 0 then .ok (linMk (result.map fun p => (p.1, -p.2)), true)
    else .ok (linMk result, false)

/-- `Decision.to_canonical` (/repo/pywmi/engines/pyxadd/decision.py:64-95).  The print statements are left out. -/
def toCanonical (simp : Formula → Formula) (d : Decision) (t f : ℕ) : Except PyErr (Decision × ℕ × ℕ) :=
  if d.canonical then .ok (d, t, f)
  else if isBoolTest d.test then
    match d.test with
    | .sym _ _ => .ok ({ d with canonical := true }, t, f)
    | _ =>
      match simp (mkNot d.test) with
      | .sym n ty => .ok (⟨.sym n ty, none, true⟩, f, t)
      | _ => .error .assertionError
  else
    match linFromSmt d.test with
    | .error e => .error e
    | .ok q =>
      match canonDict q with
      | .error e => .error e
      | .ok (c, swap) =>
        match linToSmt c with
        | .error e => .error e
        | .ok g => .ok (⟨g, some c, true⟩, if swap then f else t, if swap then t else f)

end Decision

/-! ### Facts about the canonical dictionary -/

section
variable {K : Type} [Field K] [LinearOrder K] [IsStrictOrderedRing K]

theorem mem_sortedKeys {d : Dict} {k : Mono} : k ∈ sortedKeys d ↔ k ∈ d.map (·.1) :=
  List.mem_insertionSort _

theorem sortedKeys_mapVal (d : Dict) (f : Mono × ℚ → ℚ) : sortedKeys (d.map fun p => (p.1, f p)) = sortedKeys d := by
  simp [sortedKeys, Function.comp_def]

theorem sortedKeys_ne_nil {d : Dict} (h : d ≠ []) : ∃ k ks, sortedKeys d = k :: ks := by
  cases hs : sortedKeys d with
  | nil =>
    cases d with
    | nil => exact absurd rfl h
    | cons p d =>
      have : p.1 ∈ sortedKeys (p :: d) := mem_sortedKeys.mpr (by simp)
      rw [hs] at this; cases this
  | cons k ks => exact ⟨k, ks, rfl⟩

theorem lookup_mapVal (d : Dict) (g : ℚ → ℚ) (k : Mono) :
    (d.map fun p => (p.1, g p.2)).lookup k = (d.lookup k).map g := by
  induction d with
  | nil => rfl
  | cons p d ih =>
    obtain ⟨k', v⟩ := p
    simp only [List.map_cons, List.lookup_cons, ih]
    cases h : (k == k') <;> simp

theorem linCoef_mapVal (d : Dict) {g : ℚ → ℚ} (hg : g 0 = 0) (k : Mono) :
    linCoef (d.map fun p => (p.1, g p.2)) k = g (linCoef d k) := by
  unfold linCoef
  rw [lookup_mapVal]
  cases d.lookup k <;> simp [hg]

theorem linCoef_ne_zero {d : Dict} (hn : KeysNodup d) (hz : ∀ p ∈ d, p.2 ≠ 0) {k : Mono} (hk : k ∈ d.map (·.1)) :
    linCoef d k ≠ 0 := by
  obtain ⟨p, hp, rfl⟩ := List.mem_map.mp hk
  rw [linCoef, lookup_of_mem hn (show (p.1, p.2) ∈ d from hp)]
  exact hz p hp

theorem polyEval_div (ρ : String → K) (d : Dict) (c : ℚ) :
    polyEval ρ (d.map fun p => (p.1, p.2 / c)) = polyEval ρ d / (c : K) := by
  have := polyEval_scale ρ d c⁻¹
  simp only [← div_eq_mul_inv] at this
  rw [this]; push_cast; rw [div_eq_mul_inv]

theorem polyEval_neg (ρ : String → K) (d : Dict) : polyEval ρ (d.map fun p => (p.1, -p.2)) = -polyEval ρ d :=
  polyEval_dictNeg ρ d

/-- The coefficient that decides about the orientation of a canonical test: the one of the smallest key. -/
def leadCoef (q : Dict) : ℚ :=
  match sortedKeys q with
  | [] => 0
  | k :: _ => linCoef q k

theorem leadCoef_mapVal (d : Dict) {g : ℚ → ℚ} (hg : g 0 = 0) :
    leadCoef (d.map fun p => (p.1, g p.2)) = g (leadCoef d) := by
  unfold leadCoef
  rw [sortedKeys_mapVal d (fun p => g p.2)]
  cases sortedKeys d with
  | nil => exact hg.symm
  | cons k ks => exact linCoef_mapVal d hg k

theorem leadCoef_ne_zero {d : Dict} (hn : KeysNodup d) (hz : ∀ p ∈ d, p.2 ≠ 0) (hne : d ≠ []) : leadCoef d ≠ 0 := by
  obtain ⟨k, ks, h⟩ := sortedKeys_ne_nil hne
  unfold leadCoef
  rw [h]
  exact linCoef_ne_zero hn hz (mem_sortedKeys.mp (by rw [h]; simp))

/-- The canonical dictionary is the given one divided by its leading coefficient, and the children are swapped iff
that coefficient is negative. -/
theorem canonDict_eq {q : Dict} (hn : KeysNodup q) (hz : ∀ p ∈ q, p.2 ≠ 0) (hne : q ≠ []) :
    Decision.canonDict q = .ok (q.map fun p => (p.1, p.2 / leadCoef q), decide (leadCoef q < 0)) := by
  obtain ⟨k, ks, hs⟩ := sortedKeys_ne_nil hne
  have hlc : leadCoef q = linCoef q k := by unfold leadCoef; rw [hs]
  have h0 := leadCoef_ne_zero hn hz hne
  unfold Decision.canonDict
  rw [hs]
  simp only [← hlc]
  have hc : linCoef (q.map fun p => (p.1, p.2 / |leadCoef q|)) k = leadCoef q / |leadCoef q| := by
    rw [linCoef_mapVal q (g := fun x => x / |leadCoef q|) (by simp), hlc]
  rw [hc]
  rcases lt_or_gt_of_ne h0 with h | h
  · rw [if_pos (by rw [abs_of_neg h, div_neg, div_self h0]; norm_num), linMk_of_nonzero]
    · rw [List.map_map]
      congr 2
      · apply List.map_congr_left
        intro p _
        simp [abs_of_neg h, div_neg]
      · simp [h]
    · intro p hp
      obtain ⟨r, hr, rfl⟩ := List.mem_map.mp hp
      obtain ⟨s, hs', rfl⟩ := List.mem_map.mp hr
      simpa using ⟨hz s hs', h0⟩
  · rw [if_neg (by rw [abs_of_pos h, div_self h0]; norm_num), linMk_of_nonzero]
    · congr 2
      · apply List.map_congr_left
        intro p _
        simp [abs_of_pos h]
      · simp [h.le]
    · intro p hp
      obtain ⟨r, hr, rfl⟩ := List.mem_map.mp hp
      simpa using ⟨hz r hr, h0⟩

/-- How the pool reads a linear form: strictly below zero if the leading coefficient is positive, at most zero
otherwise. -/
def readDict (ρ : String → K) (q : Dict) : Bool :=
  if 0 < leadCoef q then decide (polyEval ρ q < 0) else decide (polyEval ρ q ≤ 0)

theorem readDict_of_ne (ρ : String → K) {q : Dict} (h : polyEval ρ q ≠ 0) :
    readDict ρ q = decide (polyEval ρ q < 0) := by
  unfold readDict
  split
  · rfl
  · congr 1
    exact propext ⟨fun h' => lt_of_le_of_ne h' h, le_of_lt⟩

/-- A dictionary as stored in canonical decisions: linear, without zero coefficients, with leading coefficient one
and at least one variable. -/
structure CanonLin (q : Dict) : Prop where
  nodup : KeysNodup q
  nz : ∀ p ∈ q, p.2 ≠ 0
  lin : ∀ p ∈ q, p.1.length ≤ 1
  lead : leadCoef q = 1
  var : ∃ p ∈ q, p.1 ≠ []

theorem CanonLin.ne_nil {q : Dict} (h : CanonLin q) : q ≠ [] := by
  rintro rfl; obtain ⟨p, hp, -⟩ := h.var; cases hp

theorem canonLin_div {q : Dict} (hn : KeysNodup q) (hz : ∀ p ∈ q, p.2 ≠ 0) (hl : ∀ p ∈ q, p.1.length ≤ 1)
    (hv : ∃ p ∈ q, p.1 ≠ []) : CanonLin (q.map fun p => (p.1, p.2 / leadCoef q)) := by
  have hne : q ≠ [] := by rintro rfl; obtain ⟨p, hp, -⟩ := hv; cases hp
  have h0 := leadCoef_ne_zero hn hz hne
  refine ⟨hn.mapVal _, ?_, ?_, ?_, ?_⟩
  · intro p hp
    obtain ⟨r, hr, rfl⟩ := List.mem_map.mp hp
    exact div_ne_zero (hz r hr) h0
  · intro p hp
    obtain ⟨r, hr, rfl⟩ := List.mem_map.mp hp
    exact hl r hr
  · rw [leadCoef_mapVal q (g := fun x => x / leadCoef q) (by simp), div_self h0]
  · obtain ⟨p, hp, h⟩ := hv
    exact ⟨_, List.mem_map.mpr ⟨p, hp, rfl⟩, h⟩

/-- The canonical test, with the swap, is the reading of the dictionary. -/
theorem canon_read {q : Dict} (h0 : leadCoef q ≠ 0) (ρ : String → K) :
    (if leadCoef q < 0 then !decide (polyEval ρ (q.map fun p => (p.1, p.2 / leadCoef q)) < 0)
      else decide (polyEval ρ (q.map fun p => (p.1, p.2 / leadCoef q)) < 0)) = readDict ρ q := by
  rw [polyEval_div, readDict]
  rcases lt_or_gt_of_ne h0 with h | h
  · have hK : ((leadCoef q : ℚ) : K) < 0 := by exact_mod_cast h
    rw [if_pos h, if_neg (not_lt.mpr h.le)]
    rw [← decide_not]
    congr 1
    rw [not_lt, div_nonneg_iff]
    apply propext
    constructor
    · rintro (⟨-, h'⟩ | ⟨h', -⟩)
      · exact absurd hK (not_lt.mpr h')
      · exact h'
    · exact fun h' => Or.inr ⟨h', hK.le⟩
  · have hK : (0 : K) < ((leadCoef q : ℚ) : K) := by exact_mod_cast h
    rw [if_neg (not_lt.mpr h.le), if_pos h]
    congr 1
    rw [div_lt_iff₀ hK, zero_mul]

end
end Pywmi
