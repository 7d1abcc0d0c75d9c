import Verif.Parse.JsonLemmas

set_option linter.unusedSectionVars false
set_option linter.unusedSimpArgs false

/-!
# C100: saving and loading as JSON text

The specification: a text that was written is read as the value that was written, a text that was cut off is refused, and
every text is either read or refused with ValueError.  For domains and densities this is stated for `dumps`, `loads`,
`to_file` and `from_file`, with every point at which a save may be interrupted.
-/

namespace Pywmi

open Json Formula

section
variable {L : NumLib} {Rep : ℚ → Prop}

/-- **C100**: `json.loads(json.dumps(v)) == v`. -/
theorem json_roundtrip (hL : ∀ q, Rep q → L.read (L.text q) = q) {v : Json} (hv : Fine Rep v) :
    Json.loads L (enc L v) = .ok v := by
  have h := readVal_enc hL hv [] (.inl rfl) (2 * (enc L v).length + 1) (by simp)
  rw [List.append_nil] at h
  have hs := skip_enc L v []
  rw [List.append_nil] at hs
  simp only [Json.loads, hs, h]
  rfl

/-- **C100**: every text is read or refused with ValueError. -/
theorem json_ends (L : NumLib) (cs : List Char) :
    (∃ v, Json.loads L cs = .ok v) ∨ Json.loads L cs = .error .valueError := by
  have hk := skip_length cs
  rcases (read_ends L (2 * cs.length + 1)).1 (skip cs) (by omega) with ⟨v, r, h, -⟩ | h
  · by_cases he : (skip r).isEmpty
    · exact .inl ⟨v, by simp [Json.loads, h, he]⟩
    · exact .inr (by simp [Json.loads, h, he])
  · exact .inr (by simp [Json.loads, h])

/-- **C100**: the text of a dictionary, list or string that was cut off is refused. -/
theorem json_prefix (hL : ∀ q, Rep q → L.read (L.text q) = q) {v : Json} (hv : Fine Rep v) (hc : Closed v)
    {p : List Char} (hp : p <+: enc L v) (hne : p ≠ enc L v) : Json.loads L p = .error .valueError := by
  rcases json_ends L p with ⟨w, h⟩ | h
  · exfalso
    unfold Json.loads at h
    rw [skip_prefix (v := v) (t := []) (by simpa using hp)] at h
    cases hr : readVal L (2 * p.length + 1) p with
    | error e => simp [hr] at h
    | ok y => exact (enc_cut hL hv p hp hne _ (le_refl _) y.1 y.2 hr).1 hc
  · exact h

/-- **C100**: different values have different texts. -/
theorem json_injective (hL : ∀ q, Rep q → L.read (L.text q) = q) {v w : Json} (hv : Fine Rep v) (hw : Fine Rep w)
    (h : enc L v = enc L w) : v = w := by
  have h1 := json_roundtrip hL hv
  rw [h, json_roundtrip hL hw] at h1
  exact (Except.ok.inj h1).symm

/-- SPEC: a printable ASCII character. -/
def Printable (c : Char) : Prop := 32 ≤ c.toNat ∧ c.toNat ≤ 126

theorem hexChar_ascii {n : ℕ} (h : n < 16) : Printable (hexChar n) := by
  have : ∀ m : Fin 16, Printable (hexChar m) := by unfold Printable; decide
  exact this ⟨n, h⟩

theorem u4_ascii {n : ℕ} (h : n < 65536) {c : Char} (hc : c ∈ u4 n) : Printable c := by
  simp only [u4, List.mem_cons, List.not_mem_nil, or_false] at hc
  rcases hc with rfl | rfl | rfl | rfl | rfl | rfl
  · unfold Printable; decide
  · unfold Printable; decide
  all_goals exact hexChar_ascii (by omega)

theorem two_ascii : ∀ c ∈ ['"', '\\', 'n', 'r', 't', 'f', 'b'], Printable c := by unfold Printable; decide

theorem escChar_ascii {c d : Char} (h : d ∈ escChar c) : Printable d := by
  have hv := char_valid c
  unfold escChar at h
  split at h
  · simp at h; rcases h with rfl | rfl <;> exact two_ascii _ (by simp)
  split at h
  · simp at h; subst h; exact two_ascii _ (by simp)
  split at h
  · simp at h; rcases h with rfl | rfl <;> exact two_ascii _ (by simp)
  split at h
  · simp at h; rcases h with rfl | rfl <;> exact two_ascii _ (by simp)
  split at h
  · simp at h; rcases h with rfl | rfl <;> exact two_ascii _ (by simp)
  split at h
  · simp at h; rcases h with rfl | rfl <;> exact two_ascii _ (by simp)
  split at h
  · simp at h; rcases h with rfl | rfl <;> exact two_ascii _ (by simp)
  split at h
  · rename_i hc; rw [List.mem_singleton] at h; subst h; exact hc
  split at h
  · rename_i hc; exact u4_ascii hc h
  · rcases List.mem_append.mp h with h | h
    · exact u4_ascii (by omega) h
    · exact u4_ascii (by omega) h

theorem encStr_ascii {s : String} {c : Char} (h : c ∈ encStr s) : Printable c := by
  simp only [encStr, List.mem_cons, List.mem_append, List.mem_flatMap, List.not_mem_nil, or_false] at h
  rcases h with rfl | ⟨a, -, h⟩ | rfl
  · unfold Printable; decide
  · exact escChar_ascii h
  · unfold Printable; decide

theorem numChars_ascii {t : Numeral} {c : Char} (h : c ∈ numChars t) : Printable c := by
  have : ∀ d : Fin 10, Printable (digitChar d) := by unfold Printable; decide
  rcases numChars_mem h with ⟨d, rfl⟩ | rfl | rfl | rfl | rfl
  · exact this d
  all_goals (unfold Printable; decide)

mutual
theorem enc_ascii (L : NumLib) : ∀ (v : Json) (c : Char), c ∈ enc L v → Printable c
  | .null, c, h => by
    rw [enc] at h
    have : ∀ x ∈ ['n', 'u', 'l', 'l'], Printable x := by unfold Printable; decide
    exact this c h
  | .bool true, c, h => by
    rw [enc] at h
    have : ∀ x ∈ ['t', 'r', 'u', 'e'], Printable x := by unfold Printable; decide
    exact this c h
  | .bool false, c, h => by
    rw [enc] at h
    have : ∀ x ∈ ['f', 'a', 'l', 's', 'e'], Printable x := by unfold Printable; decide
    exact this c h
  | .num q, c, h => by rw [enc] at h; exact numChars_ascii h
  | .special s, c, h => by
    rw [enc] at h
    have : ∀ s : JSpecial, ∀ x ∈ specialChars s, Printable x := by intro s; cases s <;> (unfold Printable; decide)
    exact this s c h
  | .str s, c, h => by rw [enc] at h; exact encStr_ascii h
  | .arr [], c, h => by
    rw [enc] at h
    have : ∀ x ∈ ['[', ']'], Printable x := by unfold Printable; decide
    exact this c h
  | .arr (v :: vs), c, h => by
    rw [enc] at h
    have h0 : ∀ x ∈ ['[', ']'], Printable x := by unfold Printable; decide
    simp only [List.mem_cons, List.mem_append, List.not_mem_nil, or_false] at h
    rcases h with rfl | h | h | rfl
    · exact h0 _ (by simp)
    · exact enc_ascii L v c h
    · exact encMore_ascii L vs c h
    · exact h0 _ (by simp)
  | .obj [], c, h => by
    rw [enc] at h
    have : ∀ x ∈ ['{', '}'], Printable x := by unfold Printable; decide
    exact this c h
  | .obj ((k, v) :: ps), c, h => by
    rw [enc] at h
    have h0 : ∀ x ∈ ['{', '}', ':', ' '], Printable x := by unfold Printable; decide
    simp only [List.mem_cons, List.mem_append, List.not_mem_nil, or_false] at h
    rcases h with rfl | h | rfl | rfl | h | h | rfl
    · exact h0 _ (by simp)
    · exact encStr_ascii h
    · exact h0 _ (by simp)
    · exact h0 _ (by simp)
    · exact enc_ascii L v c h
    · exact encPairs_ascii L ps c h
    · exact h0 _ (by simp)
theorem encMore_ascii (L : NumLib) : ∀ (vs : List Json) (c : Char), c ∈ encMore L vs → Printable c
  | [], c, h => by rw [encMore] at h; cases h
  | v :: vs, c, h => by
    rw [encMore] at h
    have h0 : ∀ x ∈ [',', ' '], Printable x := by unfold Printable; decide
    simp only [List.mem_cons, List.mem_append] at h
    rcases h with rfl | rfl | h | h
    · exact h0 _ (by simp)
    · exact h0 _ (by simp)
    · exact enc_ascii L v c h
    · exact encMore_ascii L vs c h
theorem encPairs_ascii (L : NumLib) : ∀ (ps : List (String × Json)) (c : Char), c ∈ encPairs L ps → Printable c
  | [], c, h => by rw [encPairs] at h; cases h
  | (k, v) :: ps, c, h => by
    rw [encPairs] at h
    have h0 : ∀ x ∈ [',', ' ', ':'], Printable x := by unfold Printable; decide
    simp only [List.mem_cons, List.mem_append] at h
    rcases h with rfl | rfl | h | rfl | rfl | h | h
    · exact h0 _ (by simp)
    · exact h0 _ (by simp)
    · exact encStr_ascii h
    · exact h0 _ (by simp)
    · exact h0 _ (by simp)
    · exact enc_ascii L v c h
    · exact encPairs_ascii L ps c h
end

/-- **C100**: only printable ASCII characters are written, on one line: the text does not depend on the encoding of files. -/
theorem dumps_ascii (L : NumLib) (v : Json) : ∀ c ∈ enc L v, 32 ≤ c.toNat ∧ c.toNat ≤ 126 := enc_ascii L v

/-! ## Domains -/

theorem strings_map (vs : List String) : strings (vs.map .str) = .ok vs := by
  induction vs with
  | nil => rfl
  | cons v vs ih => simp [strings, ih]

theorem stringDict_map (ps : List (String × String)) : stringDict (ps.map fun p => (p.1, .str p.2)) = .ok ps := by
  induction ps with
  | nil => rfl
  | cons p ps ih => simp [stringDict, ih]

theorem bound_of (b : Option ℚ) : bound (ofBound b) = .ok b := by cases b <;> rfl

theorem boundDict_map (ps : List (String × Bounds)) :
    boundDict (ps.map fun p => (p.1, .arr [ofBound p.2.1, ofBound p.2.2])) = .ok ps := by
  induction ps with
  | nil => rfl
  | cons p ps ih => simp [boundDict, bound_of, ih]

theorem Domain.State.ofJson_toJson (S : Domain.State) : Domain.State.ofJson S.toJson = .ok S := by
  simp [Domain.State.ofJson, Domain.State.toJson, Json.get, dictGet, List.lookup_cons, strings_map, stringDict_map,
    boundDict_map]

theorem Density.State.ofJson_toJson (S : Density.State) : Density.State.ofJson S.toJson = .ok S := by
  have h : strings (S.queries.map fun q => Json.str (String.ofList q)) = .ok (S.queries.map String.ofList) := by
    rw [← strings_map (S.queries.map String.ofList), List.map_map]; rfl
  have h2 : (S.queries.map String.ofList).map String.toList = S.queries := by simp [Function.comp_def]
  simp [Density.State.ofJson, Density.State.toJson, Json.get, dictGet, List.lookup_cons, Domain.State.ofJson_toJson,
    h, h2]

/-- SPEC: the bounds of a domain are numbers that are read back from their text. -/
def BoundsRep (Rep : ℚ → Prop) (D : Domain) : Prop :=
  ∀ p ∈ D.varDomains, ∀ q, p.2.1 = some q ∨ p.2.2 = some q → Rep q

theorem ofBound_fine {b : Option ℚ} (h : ∀ q, b = some q → Rep q) : Fine Rep (ofBound b) := by
  cases b with
  | none => exact .null
  | some q => exact .num (h q rfl)

theorem domain_fine {D : Domain} (hwf : D.WF) (hb : BoundsRep Rep D) : Fine Rep D.getState.toJson := by
  have hk : ((D.varTypes.map fun p => (p.1, Domain.exportType p.2)).map (·.1)).Nodup := by
    simpa [Function.comp_def] using hwf.typesNodup
  refine .obj (by simp) fun p hp => ?_
  simp only [List.mem_cons, List.not_mem_nil, or_false] at hp
  rcases hp with rfl | rfl | rfl
  · refine .arr fun v hv => ?_
    obtain ⟨s, -, rfl⟩ := List.mem_map.mp hv
    exact .str s
  · refine .obj ?_ fun q hq => ?_
    · simp only [Domain.getState, dictOf_nodup hk, List.map_map, Function.comp_def]
      simpa [Function.comp_def] using hk
    · obtain ⟨a, -, rfl⟩ := List.mem_map.mp hq
      exact .str _
  · refine .obj ?_ fun q hq => ?_
    · simpa [Domain.getState, Function.comp_def] using hwf.domNodup
    · obtain ⟨a, ha, rfl⟩ := List.mem_map.mp hq
      refine .arr fun v hv => ?_
      simp only [List.mem_cons, List.not_mem_nil, or_false] at hv
      rcases hv with rfl | rfl
      · exact ofBound_fine fun q hq => hb a ha q (.inl hq)
      · exact ofBound_fine fun q hq => hb a ha q (.inr hq)

/-- **C100**: `Domain.loads(domain.dumps()) == domain`. -/
theorem domain_text_roundtrip (hL : ∀ q, Rep q → L.read (L.text q) = q) {D : Domain} (hwf : D.WF) (hb : BoundsRep Rep D) :
    Domain.loads L (D.dumps L) = .ok D := by
  simp only [Domain.loads, Domain.dumps, json_roundtrip hL (domain_fine hwf hb), Domain.State.ofJson_toJson]
  exact Domain.fromState_getState hwf.typesNodup hwf.domNodup

/-- **C100**: different domains have different texts. -/
theorem domain_text_injective (hL : ∀ q, Rep q → L.read (L.text q) = q) {D E : Domain} (hD : D.WF) (hE : E.WF)
    (bD : BoundsRep Rep D) (bE : BoundsRep Rep E) (h : D.dumps L = E.dumps L) : D = E := by
  have h1 := domain_text_roundtrip hL hD bD
  rw [h, domain_text_roundtrip hL hE bE] at h1
  exact (Except.ok.inj h1).symm

/-- **C100**: a text of a domain that was cut off is refused. -/
theorem domain_text_cut (hL : ∀ q, Rep q → L.read (L.text q) = q) {D : Domain} (hwf : D.WF) (hb : BoundsRep Rep D)
    {p : List Char} (hp : p <+: D.dumps L) (hne : p ≠ D.dumps L) : Domain.loads L p = .error .valueError := by
  simp only [Domain.loads, json_prefix hL (domain_fine hwf hb) (by simp [Closed, Domain.State.toJson]) hp hne]

/-! ## Densities -/

section
variable {showReal : ℚ → Tok} {readReal : Tok → Option ℚ} {D : Density}

theorem getState_domain {S : Density.State} (h : D.getState showReal = .ok S) : S.domain = D.domain.getState := by
  unfold Density.getState at h
  split at h
  · cases h
  split at h
  · cases h
  split at h
  · cases h
  cases h
  rfl

theorem density_fine (hwf : D.domain.WF) (hb : BoundsRep Rep D.domain) {S : Density.State}
    (h : D.getState showReal = .ok S) : Fine Rep S.toJson := by
  refine .obj (by simp) fun p hp => ?_
  simp only [List.mem_cons, List.not_mem_nil, or_false] at hp
  rcases hp with rfl | rfl | rfl | rfl
  · rw [getState_domain h]; exact domain_fine hwf hb
  · refine .arr fun v hv => ?_
    obtain ⟨s, -, rfl⟩ := List.mem_map.mp hv
    exact .str _
  · exact .str _
  · exact .str _

/-- The text of a density is read as the state that was written. -/
theorem density_text_state (hL : ∀ q, Rep q → L.read (L.text q) = q) (hwf : D.domain.WF) (hb : BoundsRep Rep D.domain)
    {S : Density.State} (h : D.getState showReal = .ok S) :
    D.dumps L showReal = .ok (enc L S.toJson) ∧
      Density.loads L readReal (enc L S.toJson) = Density.fromState readReal S := by
  constructor
  · simp [Density.dumps, h]
  · simp [Density.loads, json_roundtrip hL (density_fine hwf hb h), Density.State.ofJson_toJson]

/-- **C100**: a text of a density that was cut off is refused: it is never read as another density. -/
theorem density_text_cut (hL : ∀ q, Rep q → L.read (L.text q) = q) (hwf : D.domain.WF) (hb : BoundsRep Rep D.domain)
    {t p : List Char} (h : D.dumps L showReal = .ok t) (hp : p <+: t) (hne : p ≠ t) :
    Density.loads L readReal p = .error .valueError := by
  unfold Density.dumps at h
  cases hS : D.getState showReal with
  | error e => simp [hS] at h
  | ok S =>
    simp only [hS, Except.ok.injEq] at h
    subst h
    simp only [Density.loads, json_prefix hL (density_fine hwf hb hS) (by simp [Closed, Density.State.toJson]) hp hne]

variable {K : Type} [Field K] [LinearOrder K] [IsStrictOrderedRing K]

/-- **C100** (partial, like C28 and C59: no constant `False`): `Density.loads(density.dumps())` has the same domain, and its
support, weight and queries have the same meaning. -/
theorem density_text_roundtrip_partial (hL : ∀ q, Rep q → L.read (L.text q) = q)
    (hread : ∀ q, Rep q → TokSafe (showReal q) ∧ readReal (showReal q) = some q) (hwf : D.domain.WF)
    (hb : BoundsRep Rep D.domain)
    (hs : Formula.wt .bool D.support = true) (hw : Formula.wt .real D.weight = true)
    (hq : ∀ q ∈ D.queries, Formula.wt .bool q = true)
    (hexp : ∀ f, f = D.support ∨ f = D.weight ∨ f ∈ D.queries →
      (∀ p ∈ syms f, TokSafe p.1.toList) ∧ (∀ q ∈ consts f, Rep q) ∧ false ∉ boolConsts f) :
    ∃ t E, D.dumps L showReal = .ok t ∧ Density.loads L readReal t = .ok E ∧ E.domain = D.domain ∧
      (∀ σ : Env K, truth σ E.support = truth σ D.support) ∧ (∀ σ : Env K, value σ E.weight = value σ D.weight) ∧
      List.Forall₂ (fun q q' => ∀ σ : Env K, truth σ q' = truth σ q) D.queries E.queries := by
  obtain ⟨S, E, h1, h2, h3⟩ := density_state_roundtrip_partial (K := K) hread hwf hs hw hq hexp
  obtain ⟨t1, t2⟩ := density_text_state (readReal := readReal) hL hwf hb h1
  exact ⟨_, E, t1, t2.trans h2, h3⟩

/-- **C100**: a save that is finished can be loaded, whatever was in the file before; a save that dies at any point leaves
the old content, a complete text, or a file that `from_file` refuses. -/
theorem density_save (hL : ∀ q, Rep q → L.read (L.text q) = q) (hwf : D.domain.WF) (hb : BoundsRep Rep D.domain)
    {S : Density.State} (h : D.getState showReal = .ok S) (old : Option (List Char)) :
    (D.toFile L showReal old).1 = .ok () ∧
    Density.fromFile L readReal (D.toFile L showReal old).2 = Density.fromState readReal S ∧
    ∀ k, D.crashed L showReal old k = old ∨
      Density.fromFile L readReal (D.crashed L showReal old k) = Density.fromState readReal S ∨
      Density.fromFile L readReal (D.crashed L showReal old k) = .error .valueError := by
  obtain ⟨t1, t2⟩ := density_text_state (readReal := readReal) hL hwf hb h
  refine ⟨by simp [Density.toFile, t1], by simp [Density.toFile, t1, Density.fromFile, t2], fun k => ?_⟩
  cases k with
  | zero => exact .inl rfl
  | succ k =>
    refine .inr ?_
    simp only [Density.crashed, t1, Density.fromFile]
    by_cases hk : (enc L S.toJson).take k = enc L S.toJson
    · rw [hk, t2]; exact .inl rfl
    · exact .inr (density_text_cut hL hwf hb t1 (List.take_prefix _ _) hk)

/-- Saving is not atomic: a process that dies right after opening the file has lost the old content, and nothing can be
loaded. -/
theorem density_save_loses (L : NumLib) (showReal : ℚ → Tok) (readReal : Tok → Option ℚ) (D : Density)
    (old : Option (List Char)) :
    D.crashed L showReal old 1 = some [] ∧ Density.fromFile L readReal (D.crashed L showReal old 1) = .error .valueError := by
  have h : D.crashed L showReal old 1 = some [] := by
    show (match D.dumps L showReal with | .error _ => some [] | .ok t => some (t.take 0)) = some []
    split <;> simp
  refine ⟨h, ?_⟩
  rw [h]
  simp [Density.fromFile, Density.loads, Json.loads, skip, readVal]

end

/-! ## Tests of diagrams -/

/-- `Decision.loads(decision.dumps())` holds the text of the test, never a formula: the round trip fails for every
decision. -/
theorem decision_loads_wrong {showReal : ℚ → Tok} {f : Formula} {t : List Char} (h : decisionDumps L showReal f = .ok t) :
    ∃ s, smtToNested showReal f = .ok s ∧ decisionLoads L t = .ok (.value (.str (String.ofList s))) ∧
      ∀ g, decisionLoads L t ≠ .ok (.formula g) := by
  unfold decisionDumps at h
  cases hs : smtToNested showReal f with
  | error e => simp [hs] at h
  | ok s =>
    simp only [hs, Except.ok.injEq] at h
    subst h
    have hf : Fine (fun _ => False) (.obj [("test", .str (String.ofList s))]) :=
      .obj (by simp) fun p hp => by rw [List.mem_singleton] at hp; subst hp; exact .str _
    have hl := json_roundtrip (L := L) (fun _ h => h.elim) hf
    have : decisionLoads L (enc L (.obj [("test", .str (String.ofList s))])) =
        .ok (.value (.str (String.ofList s))) := by
      simp [decisionLoads, hl, Json.get, dictGet, List.lookup_cons]
    exact ⟨s, rfl, this, fun g => by rw [this]; simp⟩

end

/-! ## The hypotheses are met -/

/-- Numbers with one digit after the point. -/
def tenthsLib : NumLib where
  text q := let n := ⌊q * 10⌋; ⟨n < 0, n.natAbs / 10, [Fin.ofNat 10 n.natAbs], none⟩
  read t := (if t.neg then -1 else 1) * ((t.int : ℚ) + (t.frac.headD 0).val / 10)

theorem tenthsLib_read (q : ℚ) (h : ∃ n : ℤ, q = n / 10) : tenthsLib.read (tenthsLib.text q) = q := by
  obtain ⟨n, rfl⟩ := h
  have h1 : ⌊((n : ℚ) / 10 * 10)⌋ = n := by
    rw [div_mul_cancel₀ _ (by norm_num)]; exact Int.floor_intCast n
  have h2 : ((n.natAbs / 10 : ℕ) : ℚ) + ((n.natAbs % 10 : ℕ) : ℚ) / 10 = (n.natAbs : ℚ) / 10 := by
    have h3 : 10 * (n.natAbs / 10) + n.natAbs % 10 = n.natAbs := Nat.div_add_mod _ _
    have h4 : (10 : ℚ) * ((n.natAbs / 10 : ℕ) : ℚ) + ((n.natAbs % 10 : ℕ) : ℚ) = (n.natAbs : ℚ) := by exact_mod_cast h3
    linarith
  simp only [tenthsLib, h1, List.headD_cons, Fin.ofNat, h2]
  by_cases hn : n < 0
  · have : ((n.natAbs : ℕ) : ℚ) = -(n : ℚ) := by
      have : ((n.natAbs : ℕ) : ℤ) = -n := by omega
      rw [← Int.cast_natCast, this, Int.cast_neg]
    simp only [hn, decide_true, if_true, this]; ring
  · have : ((n.natAbs : ℕ) : ℚ) = (n : ℚ) := by
      have : ((n.natAbs : ℕ) : ℤ) = n := by omega
      rw [← Int.cast_natCast, this]
    simp only [hn, decide_false, this]; simp

/-- A name with a quote, a Greek letter and a character outside the first plane. -/
def oddDomain : Domain :=
  ⟨["a\"", "α", "𝑥"], [("a\"", .bool), ("α", .real), ("𝑥", .real)],
    [("α", some (-1/2), some 10), ("𝑥", none, some 3)]⟩

theorem oddDomain_wf : oddDomain.WF := by
  refine ⟨by decide, by decide, fun v => ?_, by decide, fun v => ?_⟩ <;> simp [oddDomain]

theorem oddDomain_rep : BoundsRep (fun q => ∃ n : ℤ, q = n / 10) oddDomain := by
  intro p hp q hq
  simp only [oddDomain, List.mem_cons, List.not_mem_nil, or_false] at hp
  rcases hp with rfl | rfl <;> simp at hq
  · rcases hq with rfl | rfl
    · exact ⟨-5, by norm_num⟩
    · exact ⟨100, by norm_num⟩
  · subst hq; exact ⟨30, by norm_num⟩

example : Domain.loads tenthsLib (oddDomain.dumps tenthsLib) = .ok oddDomain :=
  domain_text_roundtrip (fun q h => tenthsLib_read q h) oddDomain_wf oddDomain_rep

example : String.ofList (oddDomain.dumps tenthsLib) =
    "{\"variables\": [\"a\\\"\", \"\\u03b1\", \"\\ud835\\udc65\"], \"var_types\": {\"a\\\"\": \"bool\", \"\\u03b1\": \"real\", \"\\ud835\\udc65\": \"real\"}, \"var_domains\": {\"\\u03b1\": [-0.5, 10.0], \"\\ud835\\udc65\": [null, 3.0]}}" := by
  decide +kernel

/-- A density with a weight and a query over that domain can be saved and loaded. -/
example (showReal : ℚ → Tok) (readReal : Tok → Option ℚ)
    (hread : ∀ q : ℚ, (∃ n : ℤ, q = n / 10) → TokSafe (showReal q) ∧ readReal (showReal q) = some q) :
    ∃ t E, (Density.mk oddDomain (.le (.sym "α" .real) (.realC 2)) (.sym "α" .real) [.sym "a\"" .bool]).dumps tenthsLib
        showReal = .ok t ∧ Density.loads tenthsLib readReal t = .ok E ∧ E.domain = oddDomain := by
  obtain ⟨t, E, h1, h2, h3, -⟩ := density_text_roundtrip_partial (K := ℚ)
    (D := ⟨oddDomain, .le (.sym "α" .real) (.realC 2), .sym "α" .real, [.sym "a\"" .bool]⟩)
    (fun q h => tenthsLib_read q h) hread oddDomain_wf oddDomain_rep (by decide) (by decide) (by decide) (by
      intro f hf
      simp only [List.mem_singleton] at hf
      rcases hf with rfl | rfl | rfl
      · refine ⟨by decide, ?_, by decide⟩
        intro q hq
        simp [consts] at hq
        exact ⟨20, by rw [hq]; norm_num⟩
      · exact ⟨by decide, by simp [consts], by decide⟩
      · exact ⟨by decide, by simp [consts], by decide⟩)
  exact ⟨t, E, h1, h2, h3⟩

end Pywmi
