import Verif.Props.Json
import Verif.Props.Agree

set_option linter.unusedSectionVars false
set_option linter.unusedSimpArgs false

/-!
# C101: a problem that is saved and loaded has the same answers
-/

namespace Pywmi
open Formula Prog

namespace Reread
variable {K : Type} [Field K] [LinearOrder K] [IsStrictOrderedRing K] {f g : Formula}

/-- The argument an argument that is read back comes from. -/
theorem partner {α β : Type} {as : List α} {gs : List β} (h : as.length = gs.length) {y : β} (hy : y ∈ gs) : ∃ x ∈ as, (x, y) ∈ as.zip gs := by
  induction as generalizing gs with
  | nil => cases gs with
    | nil => simp at hy
    | cons _ _ => simp at h
  | cons a as ih => cases gs with
    | nil => simp at hy
    | cons b gs =>
      rcases List.mem_cons.mp hy with rfl | hy
      · exact ⟨a, by simp, by simp⟩
      · obtain ⟨x, h1, h2⟩ := ih (by simpa using h) hy
        exact ⟨x, by simp [h1], by simp [h2]⟩

theorem partner' {α β : Type} {as : List α} {gs : List β} (h : as.length = gs.length) {x : α} (hx : x ∈ as) : ∃ y ∈ gs, (x, y) ∈ as.zip gs := by
  induction as generalizing gs with
  | nil => simp at hx
  | cons a as ih => cases gs with
    | nil => simp at h
    | cons b gs =>
      rcases List.mem_cons.mp hx with rfl | hx
      · exact ⟨b, by simp, by simp⟩
      · obtain ⟨y, h1, h2⟩ := ih (by simpa using h) hx
        exact ⟨y, by simp [h1], by simp [h2]⟩

theorem mkTimes_cases {gs : List Formula} {x : Formula} (h : mkTimes gs = .ok x) : gs = [x] ∨ x = .times gs ∧ gs ≠ [] := by
  unfold mkTimes at h
  split at h <;> simp_all

theorem mkPlus_cases {gs : List Formula} {x : Formula} (h : mkPlus gs = .ok x) : gs = [x] ∨ x = .plus gs ∧ gs ≠ [] := by
  unfold mkPlus at h
  split at h <;> simp_all

theorem mkAnd_cases {gs : List Formula} (h : gs ≠ []) : gs = [mkAnd gs] ∨ mkAnd gs = .and gs := by
  unfold mkAnd
  split <;> simp_all

theorem mkOr_cases {gs : List Formula} (h : gs ≠ []) : gs = [mkOr gs] ∨ mkOr gs = .or gs := by
  unfold mkOr
  split <;> simp_all

theorem mkPow_cases {x y : Formula} {q : ℚ} (h : mkPow x (.realC q) = .ok y) : (∃ c, y = .realC c) ∨ y = .pow x (.realC q) := by
  unfold mkPow at h
  simp only at h
  split at h
  · split at h
    · exact .inl ⟨_, (Except.ok.inj h).symm⟩
    · cases h
  · exact .inr (Except.ok.inj h).symm

theorem ne_nil {as gs : List Formula} (hne : as ≠ []) (h : as.length = gs.length) : gs ≠ [] := by
  rintro rfl
  exact hne (List.length_eq_zero_iff.mp h)

/-- No symbol is invented. -/
theorem symbols (h : Reread K f g) : ∀ p ∈ syms g, p ∈ syms f := by
  have list : ∀ {as gs : List Formula}, as.length = gs.length → (∀ p ∈ as.zip gs, ∀ s ∈ syms p.2, s ∈ syms p.1) →
      ∀ s, s ∈ symsList gs → s ∈ symsList as := by
    intro as gs hl ih s hs
    obtain ⟨y, hy, hsy⟩ := mem_symsList.mp hs
    obtain ⟨x, hx, hz⟩ := partner hl hy
    exact mem_symsList.mpr ⟨x, hx, ih _ hz s hsy⟩
  induction h with
  | @and as gs hne hl _ ih =>
    intro s hs
    rcases mkAnd_cases (ne_nil hne hl) with h | h
    · exact list hl ih s (by rw [h]; simpa [symsList] using hs)
    · rw [h] at hs; exact list hl ih s hs
  | @or as gs hne hl _ ih =>
    intro s hs
    rcases mkOr_cases (ne_nil hne hl) with h | h
    · exact list hl ih s (by rw [h]; simpa [symsList] using hs)
    · rw [h] at hs; exact list hl ih s hs
  | @times as gs x hl _ hx ih =>
    intro s hs
    rcases mkTimes_cases hx with h | ⟨rfl, -⟩
    · exact list hl ih s (by rw [h]; simpa [symsList] using hs)
    · exact list hl ih s hs
  | @plus as gs x hl _ hx ih =>
    intro s hs
    rcases mkPlus_cases hx with h | ⟨rfl, -⟩
    · exact list hl ih s (by rw [h]; simpa [symsList] using hs)
    · exact list hl ih s hs
  | not _ ih => intro s hs; rw [syms_mkNot] at hs; exact ih s hs
  | minus _ _ ih1 ih2 | le _ _ _ ih1 ih2 | lt _ _ _ ih1 ih2 | equals _ _ _ ih1 ih2 =>
    intro s hs
    simp only [syms, List.mem_append] at hs ⊢
    exact hs.imp (ih1 s) (ih2 s)
  | ite _ _ _ ih1 ih2 ih3 =>
    intro s hs
    simp only [syms, List.mem_append] at hs ⊢
    exact hs.imp (ih1 s) (Or.imp (ih2 s) (ih3 s))
  | powOne _ ih => intro s hs; simp only [syms, List.mem_append]; exact .inl (ih s hs)
  | pow _ _ hy ih =>
    intro s hs
    rcases mkPow_cases hy with ⟨c, rfl⟩ | rfl
    · simp [syms] at hs
    · simp only [syms, List.append_nil] at hs ⊢; exact ih s hs
  | sym | tt | real => exact fun _ h => h
  | implies _ ih =>
    intro s hs
    have := ih s hs
    simpa [mkOr, syms, symsList, syms_mkNot] using this
  | iff _ ih =>
    intro s hs
    have := ih s hs
    simp only [syms, symsList, List.append_nil, List.mem_append] at this ⊢
    tauto

/-- Linear terms stay linear. -/
theorem linear (h : Reread K f g) : linTerm f = true → linTerm g = true := by
  have list : ∀ {as gs : List Formula}, as.length = gs.length → (∀ p ∈ as.zip gs, linTerm p.1 = true → linTerm p.2 = true) →
      linTermAll as = true → linTermAll gs = true := by
    intro as gs hl ih hs
    rw [linTermAll_iff] at hs ⊢
    intro y hy
    obtain ⟨x, hx, hz⟩ := partner hl hy
    exact ih _ hz (hs x hx)
  have count : ∀ {as gs : List Formula}, as.length = gs.length → (∀ p ∈ as.zip gs, Reread K p.1 p.2) →
      gs.countP (fun a => !(syms a).isEmpty) ≤ as.countP (fun a => !(syms a).isEmpty) := by
    intro as
    induction as with
    | nil => intro gs hl _; cases gs with
      | nil => exact le_refl _
      | cons _ _ => simp at hl
    | cons a as ih =>
      intro gs hl h
      cases gs with
      | nil => simp at hl
      | cons b gs =>
        have i := ih (gs := gs) (by simpa using hl) fun p hp => h p (by simp [hp])
        have hs := (h (a, b) (by simp)).symbols
        rw [List.countP_cons, List.countP_cons]
        have : (if (!(syms b).isEmpty) = true then 1 else 0) ≤ (if (!(syms a).isEmpty) = true then 1 else 0) := by
          by_cases hb : (syms b) = []
          · simp [hb]
          · have ha : syms a ≠ [] := by
              obtain ⟨s, hs'⟩ := List.exists_mem_of_ne_nil _ hb
              intro h0
              have := hs s hs'
              simp [h0] at this
            simp [ha, hb]
        omega
  induction h with
  | and | or | not | ite | le | lt | equals | tt | implies | iff => intro h; simp [linTerm] at h
  | @times as gs x hl hk hx ih =>
    intro h
    simp only [linTerm, Bool.and_eq_true, decide_eq_true_eq] at h
    have hL := list hl ih h.1.2
    rcases mkTimes_cases hx with hg | ⟨rfl, hne⟩
    · rw [hg] at hL; simpa [linTermAll] using hL
    · simp only [linTerm, Bool.and_eq_true, decide_eq_true_eq]
      exact ⟨⟨by simpa using hne, hL⟩, (count hl hk).trans h.2⟩
  | @plus as gs x hl _ hx ih =>
    intro h
    simp only [linTerm, Bool.and_eq_true] at h
    have hL := list hl ih h.2
    rcases mkPlus_cases hx with hg | ⟨rfl, hne⟩
    · rw [hg] at hL; simpa [linTermAll] using hL
    · simp only [linTerm, Bool.and_eq_true]
      exact ⟨by simpa using hne, hL⟩
  | minus _ _ ih1 ih2 =>
    intro h
    simp only [linTerm, Bool.and_eq_true] at h ⊢
    exact h.imp ih1 ih2
  | powOne _ ih => intro h; simp only [linTerm, Bool.and_eq_true] at h; exact ih h.1
  | pow hq _ _ _ => intro h; simp only [linTerm, Bool.and_eq_true, decide_eq_true_eq] at h; exact absurd h.2 hq
  | sym | real => exact fun h => h

theorem litOk_mkNot {a : Formula} : litOk (mkNot a) = litOk a := by
  unfold mkNot; split <;> simp [litOk]

/-- Propositional combinations of linear comparisons stay such. -/
theorem literals (h : Reread K f g) : litOk f = true → litOk g = true := by
  have list : ∀ {as gs : List Formula}, as.length = gs.length → (∀ p ∈ as.zip gs, litOk p.1 = true → litOk p.2 = true) →
      litOkAll as = true → ∀ y ∈ gs, litOk y = true := by
    intro as gs hl ih hs y hy
    rw [litOkAll_iff] at hs
    obtain ⟨x, hx, hz⟩ := partner hl hy
    exact ih _ hz (hs x hx)
  induction h with
  | @and as gs hne hl _ ih => intro h; exact (mkList_litOk (list hl ih h)).1
  | @or as gs hne hl _ ih =>
    intro h
    rcases mkOr_cases (ne_nil hne hl) with hg | hg
    · exact list hl ih h _ (by rw [hg]; simp [mkOr])
    · rw [hg, litOk, litOkAll_iff]; exact list hl ih h
  | times | plus | minus | powOne | pow | equals | real => intro h; simp [litOk] at h
  | not _ ih => intro h; rw [litOk_mkNot]; exact ih h
  | ite _ _ _ ih1 ih2 ih3 =>
    intro h
    simp only [litOk, Bool.and_eq_true] at h ⊢
    exact ⟨ih1 h.1, ih2 h.2.1, ih3 h.2.2⟩
  | le h1 h2 | lt h1 h2 =>
    intro h
    simp only [litOk, Bool.and_eq_true] at h ⊢
    exact ⟨h1.linear h.1, h2.linear h.2⟩
  | sym | tt => exact fun h => h
  | implies _ ih =>
    intro h
    simp only [litOk, Bool.and_eq_true] at h
    exact ih (by simp [mkOr, litOk, litOkAll, litOk_mkNot, h.1, h.2])
  | iff _ ih =>
    intro h
    simp only [litOk, Bool.and_eq_true] at h
    exact ih (by simp [litOk, litOkAll, h.1, h.2])

/-- Every comparison that is read back is one that was printed, with sides of the same value. -/
theorem comparisons (h : Reread K f g) : ∀ a ∈ atoms g, ∃ b ∈ atoms f, ∀ σ : Env K, strictAt σ b → strictAt σ a := by
  have list : ∀ {as gs : List Formula}, as.length = gs.length →
      (∀ p ∈ as.zip gs, ∀ a ∈ atoms p.2, ∃ b ∈ atoms p.1, ∀ σ : Env K, strictAt σ b → strictAt σ a) →
      ∀ a ∈ atomsList gs, ∃ b ∈ atomsList as, ∀ σ : Env K, strictAt σ b → strictAt σ a := by
    intro as gs hl ih a ha
    obtain ⟨y, hy, hay⟩ := mem_atomsList.mp ha
    obtain ⟨x, hx, hz⟩ := partner hl hy
    obtain ⟨b, hb, h⟩ := ih _ hz a hay
    exact ⟨b, mem_atomsList.mpr ⟨x, hx, hb⟩, h⟩
  induction h with
  | @and as gs hne hl _ ih =>
    intro a ha
    rcases mkAnd_cases (ne_nil hne hl) with h | h
    · exact list hl ih a (by rw [h]; simpa [atomsList] using ha)
    · rw [h] at ha; exact list hl ih a ha
  | @or as gs hne hl _ ih =>
    intro a ha
    rcases mkOr_cases (ne_nil hne hl) with h | h
    · exact list hl ih a (by rw [h]; simpa [atomsList] using ha)
    · rw [h] at ha; exact list hl ih a ha
  | @times as gs x hl _ hx ih =>
    intro a ha
    rcases mkTimes_cases hx with h | ⟨rfl, -⟩
    · exact list hl ih a (by rw [h]; simpa [atomsList] using ha)
    · exact list hl ih a ha
  | @plus as gs x hl _ hx ih =>
    intro a ha
    rcases mkPlus_cases hx with h | ⟨rfl, -⟩
    · exact list hl ih a (by rw [h]; simpa [atomsList] using ha)
    · exact list hl ih a ha
  | not _ ih => intro a ha; rw [atoms_mkNot] at ha; exact ih a ha
  | minus _ _ ih1 ih2 =>
    intro a ha
    simp only [atoms, List.mem_append] at ha ⊢
    rcases ha with ha | ha
    · obtain ⟨b, hb, h⟩ := ih1 a ha; exact ⟨b, .inl hb, h⟩
    · obtain ⟨b, hb, h⟩ := ih2 a ha; exact ⟨b, .inr hb, h⟩
  | le _ _ hv ih1 ih2 | lt _ _ hv ih1 ih2 =>
    intro a ha
    simp only [atoms, List.mem_cons, List.mem_append] at ha ⊢
    rcases ha with rfl | ha | ha
    · exact ⟨_, .inl rfl, fun σ h => by simpa only [strictAt, (hv σ).1, (hv σ).2] using h⟩
    · obtain ⟨b, hb, h⟩ := ih1 a ha; exact ⟨b, .inr (.inl hb), h⟩
    · obtain ⟨b, hb, h⟩ := ih2 a ha; exact ⟨b, .inr (.inr hb), h⟩
  | equals _ _ hv ih1 ih2 =>
    intro a ha
    simp only [atoms, List.mem_cons, List.mem_append] at ha ⊢
    rcases ha with rfl | ha | ha
    · exact ⟨_, .inl rfl, fun σ h => trivial⟩
    · obtain ⟨b, hb, h⟩ := ih1 a ha; exact ⟨b, .inr (.inl hb), h⟩
    · obtain ⟨b, hb, h⟩ := ih2 a ha; exact ⟨b, .inr (.inr hb), h⟩
  | ite _ _ _ ih1 ih2 ih3 =>
    intro a ha
    simp only [atoms, List.mem_append] at ha ⊢
    rcases ha with ha | ha | ha
    · obtain ⟨b, hb, h⟩ := ih1 a ha; exact ⟨b, .inl hb, h⟩
    · obtain ⟨b, hb, h⟩ := ih2 a ha; exact ⟨b, .inr (.inl hb), h⟩
    · obtain ⟨b, hb, h⟩ := ih3 a ha; exact ⟨b, .inr (.inr hb), h⟩
  | powOne _ ih =>
    intro a ha
    obtain ⟨b, hb, h⟩ := ih a ha
    exact ⟨b, by simp [atoms, hb], h⟩
  | pow _ _ hy ih =>
    intro a ha
    rcases mkPow_cases hy with ⟨c, rfl⟩ | rfl
    · simp [atoms] at ha
    · simp only [atoms, List.append_nil] at ha ⊢; exact ih a ha
  | sym | tt | real => intro a ha; simp [atoms] at ha
  | implies _ ih =>
    intro a ha
    obtain ⟨b, hb, h⟩ := ih a ha
    exact ⟨b, by simpa [mkOr, atoms, atomsList, atoms_mkNot] using hb, h⟩
  | iff _ ih =>
    intro a ha
    obtain ⟨b, hb, h⟩ := ih a ha
    refine ⟨b, ?_, h⟩
    simp only [atoms, atomsList, List.append_nil, List.mem_append] at hb ⊢
    tauto

/-- Every condition of a weight that is read back is one that was printed. -/
theorem conditions (h : Reread K f g) : wt .real f = true → ∀ c ∈ condsOf g, ∃ d ∈ condsOf f, Reread K d c := by
  have list : ∀ {as gs : List Formula}, as.length = gs.length →
      (∀ p ∈ as.zip gs, wt .real p.1 = true → ∀ c ∈ condsOf p.2, ∃ d ∈ condsOf p.1, Reread K d c) →
      (∀ a ∈ as, wt .real a = true) → ∀ c ∈ condsOfList gs, ∃ d ∈ condsOfList as, Reread K d c := by
    intro as gs hl ih hw c hc
    obtain ⟨y, hy, hcy⟩ := mem_condsOfList.mp hc
    obtain ⟨x, hx, hz⟩ := partner hl hy
    obtain ⟨d, hd, h⟩ := ih _ hz (hw x hx) c hcy
    exact ⟨d, mem_condsOfList.mpr ⟨x, hx, hd⟩, h⟩
  induction h with
  | and | or | not | le | lt | equals | tt | implies | iff => intro h; simp [wt] at h
  | @times as gs x hl _ hx ih =>
    intro hw c hc
    simp only [wt, Bool.and_eq_true, wtAll_iff] at hw
    rcases mkTimes_cases hx with h | ⟨rfl, -⟩
    · exact list hl ih hw.2 c (by rw [h]; simpa [condsOfList] using hc)
    · exact list hl ih hw.2 c hc
  | @plus as gs x hl _ hx ih =>
    intro hw c hc
    simp only [wt, Bool.and_eq_true, wtAll_iff] at hw
    rcases mkPlus_cases hx with h | ⟨rfl, -⟩
    · exact list hl ih hw.2 c (by rw [h]; simpa [condsOfList] using hc)
    · exact list hl ih hw.2 c hc
  | minus _ _ ih1 ih2 =>
    intro hw c hc
    simp only [wt, Bool.and_eq_true] at hw
    simp only [condsOf, List.mem_append] at hc ⊢
    rcases hc with hc | hc
    · obtain ⟨d, hd, h⟩ := ih1 (by simpa using hw.1) c hc; exact ⟨d, .inl hd, h⟩
    · obtain ⟨d, hd, h⟩ := ih2 (by simpa using hw.2) c hc; exact ⟨d, .inr hd, h⟩
  | ite h0 _ _ _ ih2 ih3 =>
    intro hw c hc
    simp only [wt, Bool.and_eq_true] at hw
    simp only [condsOf, List.mem_cons, List.mem_append] at hc ⊢
    rcases hc with rfl | hc | hc
    · exact ⟨_, .inl rfl, h0⟩
    · obtain ⟨d, hd, h⟩ := ih2 (by tauto) c hc; exact ⟨d, .inr (.inl hd), h⟩
    · obtain ⟨d, hd, h⟩ := ih3 (by tauto) c hc; exact ⟨d, .inr (.inr hd), h⟩
  | powOne _ ih =>
    intro hw c hc
    simp only [wt, Bool.and_eq_true] at hw
    simp only [condsOf]
    exact ih (by tauto) c hc
  | pow _ _ hy ih =>
    intro hw c hc
    simp only [wt, Bool.and_eq_true] at hw
    rcases mkPow_cases hy with ⟨c', rfl⟩ | rfl
    · simp [condsOf] at hc
    · simp only [condsOf] at hc ⊢; exact ih (by tauto) c hc
  | sym | real => intro _ c hc; simp [condsOf] at hc

/-- SPEC: a negation. -/
def isNegation : Formula → Bool
  | .not _ => true
  | _ => false

/-- SPEC: a number. -/
def isNumber : Formula → Bool
  | .realC _ => true
  | _ => false

mutual
/-- SPEC: a formula without implications, equivalences and the constant `False` that is written the way pysmt writes formulas: operators
have several arguments, negations are not doubled, powers are neither first powers nor powers of numbers. -/
def written : Formula → Bool
  | .and as => decide (2 ≤ as.length) && writtenAll as
  | .or as => decide (2 ≤ as.length) && writtenAll as
  | .times as => decide (2 ≤ as.length) && writtenAll as
  | .plus as => decide (2 ≤ as.length) && writtenAll as
  | .not a => !isNegation a && written a
  | .minus l r => written l && written r
  | .ite c t e => written c && (written t && written e)
  | .pow b (.realC q) => (decide (q ≠ 1) && !isNumber b) && written b
  | .le l r => written l && written r
  | .lt l r => written l && written r
  | .equals l r => written l && written r
  | .sym _ _ => true
  | .boolC b => b
  | .realC _ => true
  | _ => false
/-- SPEC: the same for all formulas of a list. -/
def writtenAll : List Formula → Bool
  | [] => true
  | a :: as => written a && writtenAll as
end

theorem writtenAll_iff (as : List Formula) : writtenAll as = true ↔ ∀ a ∈ as, written a = true := by
  induction as with
  | nil => simp [writtenAll]
  | cons a as ih => simp [writtenAll, ih]

/-- Such a formula is read back as it was. -/
theorem same (h : Reread K f g) : written f = true → g = f := by
  have list : ∀ {as gs : List Formula}, as.length = gs.length → (∀ p ∈ as.zip gs, written p.1 = true → p.2 = p.1) →
      writtenAll as = true → gs = as := by
    intro as
    induction as with
    | nil => intro gs hl _ _; exact List.length_eq_zero_iff.mp hl.symm
    | cons a as ih =>
      intro gs hl h hw
      cases gs with
      | nil => simp at hl
      | cons b gs =>
        simp only [writtenAll, Bool.and_eq_true] at hw
        rw [show b = a from h (a, b) (by simp) hw.1, ih (gs := gs) (by simpa using hl) (fun p hp => h p (by simp [hp])) hw.2]
  induction h with
  | @and as gs _ hl _ ih =>
    intro h
    simp only [written, Bool.and_eq_true, decide_eq_true_eq] at h
    rw [list hl ih h.2]
    match as, h.1 with
    | _ :: _ :: _, _ => rfl
  | @or as gs _ hl _ ih =>
    intro h
    simp only [written, Bool.and_eq_true, decide_eq_true_eq] at h
    rw [list hl ih h.2]
    match as, h.1 with
    | _ :: _ :: _, _ => rfl
  | @times as gs x hl _ hx ih =>
    intro h
    simp only [written, Bool.and_eq_true, decide_eq_true_eq] at h
    rw [list hl ih h.2] at hx
    match as, h.1, hx with
    | _ :: _ :: _, _, hx => exact (Except.ok.inj hx).symm
  | @plus as gs x hl _ hx ih =>
    intro h
    simp only [written, Bool.and_eq_true, decide_eq_true_eq] at h
    rw [list hl ih h.2] at hx
    match as, h.1, hx with
    | _ :: _ :: _, _, hx => exact (Except.ok.inj hx).symm
  | @not a x _ ih =>
    intro h
    simp only [written, Bool.and_eq_true] at h
    rw [ih h.2]
    cases a <;> first | rfl | simp [isNegation] at h
  | minus _ _ ih1 ih2 | le _ _ _ ih1 ih2 | lt _ _ _ ih1 ih2 | equals _ _ _ ih1 ih2 =>
    intro h
    simp only [written, Bool.and_eq_true] at h
    rw [ih1 h.1, ih2 h.2]
  | ite _ _ _ ih1 ih2 ih3 =>
    intro h
    simp only [written, Bool.and_eq_true] at h
    rw [ih1 h.1, ih2 h.2.1, ih3 h.2.2]
  | powOne => intro h; simp [written] at h
  | @pow b x y q hq _ hy ih =>
    intro h
    simp only [written, Bool.and_eq_true] at h
    rw [ih h.2] at hy
    cases b <;> first | exact (Except.ok.inj hy).symm | simp [isNumber] at h
  | sym | tt | real => intro _; rfl
  | implies | iff => intro h; simp [written] at h

theorem written_noFalse (f : Formula) : written f = true → false ∉ boolConsts f := by
  induction f using Formula.induct with
  | and as ih | or as ih | times as ih | plus as ih =>
    intro h hm
    simp only [written, Bool.and_eq_true, writtenAll_iff] at h
    obtain ⟨a, ha, hm⟩ := mem_boolConstsList.mp hm
    exact ih a ha (h.2 a ha) hm
  | not a ih =>
    intro h
    simp only [written, Bool.and_eq_true] at h
    exact ih h.2
  | minus l r ihl ihr | le l r ihl ihr | lt l r ihl ihr | equals l r ihl ihr =>
    intro h
    simp only [written, Bool.and_eq_true] at h
    simp only [boolConsts, List.mem_append, not_or]
    exact ⟨ihl h.1, ihr h.2⟩
  | ite c t e ihc iht ihe =>
    intro h
    simp only [written, Bool.and_eq_true] at h
    simp only [boolConsts, List.mem_append, not_or]
    exact ⟨ihc h.1, iht h.2.1, ihe h.2.2⟩
  | pow b e ihb _ =>
    intro h
    cases e with
    | realC q =>
      simp only [written, Bool.and_eq_true] at h
      simp only [boolConsts, List.append_nil]
      exact ihb h.2
    | _ => simp [written] at h
  | boolC b => intro h; simp only [written] at h; subst h; simp [boolConsts]
  | sym | realC => intro _; simp [boolConsts]
  | implies | iff => intro h; simp [written] at h

theorem of_sym {n : String} {t : Ty} (h : Reread K (.sym n t) g) : g = .sym n t := by cases h; rfl
theorem of_real {q : ℚ} (h : Reread K (.realC q) g) : g = .realC q := by cases h; rfl

theorem conjunct_mkAnd {a x : Formula} {gs : List Formula} (hx : x ∈ gs) (h : Conjunct a x) : Conjunct a (mkAnd gs) := by
  rcases mkAnd_cases (List.ne_nil_of_mem hx) with hg | hg
  · rw [hg] at hx; rw [List.mem_singleton.mp hx] at h; exact h
  · rw [hg]; exact .inside _ _ hx h

/-- A conjunct that is read back as it was. -/
theorem conjunct {a : Formula} (ha : ∀ b, Reread K a b → b = a) {f : Formula} (hc : Conjunct a f) :
    ∀ g, Reread K f g → Conjunct a g := by
  induction hc with
  | here => intro g h; rw [ha g h]; exact .here
  | inside as x hx _ ih =>
    intro g h
    cases h with
    | and hne hl hz =>
      obtain ⟨y, hy, hz'⟩ := partner' hl hx
      exact conjunct_mkAnd hy (ih y (hz _ hz'))

/-- The bounds a support states are read back. -/
theorem bounded {D : Domain} (h : Reread K f g) (hb : Bounded D f) : Bounded D g := by
  intro v hv
  obtain ⟨l, u, h1, h2⟩ := hb v hv
  refine ⟨l, u, h1.imp ?_ ?_, h2.imp ?_ ?_⟩ <;> intro hc <;> refine conjunct (fun b hb => ?_) hc g h
  · cases hb with | le a b _ => rw [a.of_real, b.of_sym]
  · cases hb with | lt a b _ => rw [a.of_real, b.of_sym]
  · cases hb with | le a b _ => rw [a.of_sym, b.of_real]
  · cases hb with | lt a b _ => rw [a.of_sym, b.of_real]

/-- A formula the engines accept is read back as one they accept. -/
theorem xok {D : Domain} (h : Reread ℝ f g) (hw : wt .bool g = true) (hf : XOk D f) : XOk D g where
  wt := hw
  lit := h.literals hf.lit
  vars p hp := hf.vars p (h.symbols p hp)
  generic a ha := by
    obtain ⟨b, hb, hs⟩ := h.comparisons a ha
    obtain ⟨τ, hτ⟩ := hf.generic b hb
    exact ⟨τ, hs τ hτ⟩
  noReals hr := by
    rw [List.eq_nil_iff_forall_not_mem]
    intro a ha
    obtain ⟨b, hb, -⟩ := h.comparisons a ha
    rw [hf.noReals hr] at hb
    simp at hb

end Reread

/-- C28, as an equality of formulas: what is written the way pysmt writes it is read back as it was. -/
theorem nested_same_partial {Rep : ℚ → Prop} {showReal : ℚ → Tok} {readReal : Tok → Option ℚ}
    (hread : ∀ q, Rep q → TokSafe (showReal q) ∧ readReal (showReal q) = some q) {ty : Ty} {f : Formula} (hwt : wt ty f = true)
    (hs : ∀ p ∈ syms f, TokSafe p.1.toList) (hc : ∀ q ∈ consts f, Rep q) (hf : Reread.written f = true) :
    ∃ s, smtToNested showReal f = .ok s ∧ nestedToSmt readReal s = .ok f := by
  obtain ⟨s, g, h1, h2, -, h3, -⟩ := nested_reread (K := ℚ) showReal hread hwt hs hc (Reread.written_noFalse f hf)
  exact ⟨s, h1, h3.same hf ▸ h2⟩

/-- The conditions of a real-valued formula are Boolean. -/
theorem wt_condsOf (w : Formula) : wt .real w = true → ∀ c ∈ condsOf w, wt .bool c = true := by
  induction w using Formula.induct with
  | plus as ih | times as ih =>
    intro h c hc
    simp only [wt, Bool.and_eq_true, wtAll_iff] at h
    obtain ⟨a, ha, hc⟩ := mem_condsOfList.mp hc
    exact ih a ha (h.2 a ha) c hc
  | minus l r ihl ihr =>
    intro h c hc
    simp only [wt, Bool.and_eq_true] at h
    simp only [condsOf, List.mem_append] at hc
    rcases hc with hc | hc
    · exact ihl (by simpa using h.1) c hc
    · exact ihr (by simpa using h.2) c hc
  | ite i t e ihi iht ihe =>
    intro h c hc
    simp only [wt, Bool.and_eq_true] at h
    simp only [condsOf, List.mem_cons, List.mem_append] at hc
    rcases hc with rfl | hc | hc
    · tauto
    · exact iht (by tauto) c hc
    · exact ihe (by tauto) c hc
  | pow b e ihb ihe =>
    intro h c hc
    cases e with
    | realC q =>
      simp only [wt, Bool.and_eq_true] at h
      exact ihb (by tauto) c hc
    | _ => simp [wt] at h
  | _ => intros; simp_all [condsOf]

/-- The engine object made of a density. -/
def Density.engine (D : Density) : EngineObj := ⟨D.domain, D.support, some D.weight⟩

section
variable {L : NumLib} {Rep : ℚ → Prop} {showReal : ℚ → Tok} {readReal : Tok → Option ℚ} {D : Density}

/-- What is loaded, formula by formula. -/
theorem density_text_reread (hL : ∀ q, Rep q → L.read (L.text q) = q)
    (hread : ∀ q, Rep q → TokSafe (showReal q) ∧ readReal (showReal q) = some q) (hwf : D.domain.WF)
    (hb : BoundsRep Rep D.domain)
    (hs : Formula.wt .bool D.support = true) (hw : Formula.wt .real D.weight = true)
    (hq : ∀ q ∈ D.queries, Formula.wt .bool q = true)
    (hexp : ∀ f, f = D.support ∨ f = D.weight ∨ f ∈ D.queries →
      (∀ p ∈ syms f, TokSafe p.1.toList) ∧ (∀ q ∈ consts f, Rep q) ∧ false ∉ boolConsts f) :
    ∃ t E, D.dumps L showReal = .ok t ∧ Density.loads L readReal t = .ok E ∧ E.domain = D.domain ∧
      (wt .bool E.support = true ∧ Reread ℝ D.support E.support ∧ ∀ σ : Env ℝ, truth σ E.support = truth σ D.support) ∧
      (wt .real E.weight = true ∧ Reread ℝ D.weight E.weight ∧ ∀ σ : Env ℝ, value σ E.weight = value σ D.weight) ∧
      List.Forall₂ (fun q q' => wt .bool q' = true ∧ Reread ℝ q q' ∧ ∀ σ : Env ℝ, truth σ q' = truth σ q) D.queries E.queries := by
  obtain ⟨s1, s2, s3⟩ := hexp D.support (.inl rfl)
  obtain ⟨ts, gs, t1, t2, t4, t5, t3⟩ := nested_reread (K := ℝ) (ty := .bool) showReal hread hs s1 s2 s3
  obtain ⟨w1, w2, w3⟩ := hexp D.weight (.inr (.inl rfl))
  obtain ⟨tw, gw, u1, u2, u4, u5, u3⟩ := nested_reread (K := ℝ) (ty := .real) showReal hread hw w1 w2 w3
  have hqs : ∀ qs : List Formula, (∀ q ∈ qs, q ∈ D.queries) → ∃ ts gs, mapE (smtToNested showReal) qs = .ok ts ∧
      mapE (nestedToSmt readReal) ts = .ok gs ∧
      List.Forall₂ (fun q q' => wt .bool q' = true ∧ Reread ℝ q q' ∧ ∀ σ : Env ℝ, truth σ q' = truth σ q) qs gs := by
    intro qs
    induction qs with
    | nil => intro _; exact ⟨[], [], rfl, rfl, .nil⟩
    | cons q qs ih =>
      intro h
      obtain ⟨ts, gs, i1, i2, i3⟩ := ih fun x hx => h x (by simp [hx])
      have hm := h q (by simp)
      obtain ⟨q1, q2, q3⟩ := hexp q (.inr (.inr hm))
      obtain ⟨t, g, v1, v2, v4, v5, v3⟩ := nested_reread (K := ℝ) (ty := .bool) showReal hread (hq q hm) q1 q2 q3
      exact ⟨t :: ts, g :: gs, by simp [mapE, v1, i1], by simp [mapE, v2, i2],
        .cons ⟨v4, v5, fun σ => by simpa [den] using v3 σ⟩ i3⟩
  obtain ⟨tq, gq, v1, v2, v3⟩ := hqs D.queries fun _ h => h
  have g1 : D.getState showReal = .ok ⟨D.domain.getState, tq, ts, tw⟩ := by simp [Density.getState, v1, t1, u1]
  have g2 : Density.fromState readReal ⟨D.domain.getState, tq, ts, tw⟩ = .ok ⟨D.domain, gs, gw, gq⟩ := by
    simp [Density.fromState, Domain.fromState_getState hwf.typesNodup hwf.domNodup, t2, u2, v2]
  obtain ⟨x1, x2⟩ := density_text_state (readReal := readReal) hL hwf hb g1
  exact ⟨_, ⟨D.domain, gs, gw, gq⟩, x1, x2.trans g2, rfl, ⟨t4, t5, fun σ => by simpa [den] using t3 σ⟩,
    ⟨u4, u5, fun σ => by simpa [den] using u3 σ⟩, v3⟩

/-- **C101** (partial, like C100: no constant `False`; and within the scope of C98): the text of a problem is loaded as a problem that
the exact engines still accept, and every engine that is right on it returns the volume and the answers that every engine that is
right on the original returns. -/
theorem saved_answers_partial (hL : ∀ q, Rep q → L.read (L.text q) = q)
    (hread : ∀ q, Rep q → TokSafe (showReal q) ∧ readReal (showReal q) = some q)
    (hb : BoundsRep Rep D.domain) {wide ab : Bool} {Γ : String → Ty} (hS : Shared wide Γ D.engine D.weight ab)
    (hq : ∀ q ∈ D.queries, XOk D.domain q)
    (hexp : ∀ f, f = D.support ∨ f = D.weight ∨ f ∈ D.queries →
      (∀ p ∈ syms f, TokSafe p.1.toList) ∧ (∀ q ∈ consts f, Rep q) ∧ false ∉ boolConsts f) :
    ∃ t E, D.dumps L showReal = .ok t ∧ Density.loads L readReal t = .ok E ∧
      Shared wide Γ E.engine E.weight ab ∧ (∀ q ∈ E.queries, XOk E.domain q) ∧
      ∀ g g' : StatefulEngine, g.Right wide Γ D.weight → g'.Right wide Γ E.weight →
        g'.volume E.engine ab = g.volume D.engine ab ∧
        g'.probabilities E.engine E.queries ab = g.probabilities D.engine D.queries ab := by
  obtain ⟨t, E, h1, h2, hd, ⟨s1, s2, s3⟩, ⟨w1, w2, w3⟩, hqs⟩ := density_text_reread hL hread hS.box.1 hb hS.support.wt hS.wtW
    (fun q h => (hq q h).wt) hexp
  have hden : density E.support E.weight = density D.support D.weight := by
    funext σ; simp only [density, s3, w3]
  have hSE : Shared wide Γ E.engine E.weight ab := by
    obtain ⟨k1, k2, k3, k4, k5, k6, k7, k8, k9, k10, k11⟩ := hS
    simp only [Density.engine] at k2 k3 k4 k5 k6 k8 k9 k10 k11
    refine ⟨rfl, ?_, ?_, ?_, ?_, ?_, w1, ?_, ?_, ?_, ?_⟩ <;> simp only [Density.engine, hd]
    · exact k2
    · exact k3
    · exact k4
    · exact k5
    · exact k6
    · exact fun p hp => k8 p (w2.symbols p hp)
    · intro c hc
      obtain ⟨d, hd, hr⟩ := w2.conditions k7 c hc
      exact hr.xok (wt_condsOf _ w1 c hc) (k9 d hd)
    · exact s2.xok s1 k10
    · exact k11.imp id fun h => ⟨s2.bounded h.1, by rw [hden]; exact h.2⟩
  have hqE : ∀ q ∈ E.queries, XOk E.domain q := fun q' hq' => by
    obtain ⟨q, hm, h⟩ := forall₂_mem_right hqs q' hq'
    rw [hd]
    exact h.2.1.xok h.1 (hq q hm)
  refine ⟨t, E, h1, h2, hSE, hqE, fun g g' hg hg' => ?_⟩
  obtain ⟨a1, a2⟩ := hg.returns hS hq
  obtain ⟨b1, b2⟩ := hg'.returns hSE hqE
  have hi : E.engine.integral E.weight ab = D.engine.integral D.weight ab := by
    simp only [EngineObj.integral, Density.engine, hd, hden]
  refine ⟨by rw [a1, b1, hi], ?_⟩
  rw [a2, b2, hi]
  congr 1
  have key : ∀ {qs qs' : List Formula}, List.Forall₂ (fun q q' => wt .bool q' = true ∧ Reread ℝ q q' ∧ ∀ σ : Env ℝ, truth σ q' = truth σ q) qs qs' →
      qs'.map (fun q => (E.engine.withConstraint q).integral E.weight ab) = qs.map (fun q => (D.engine.withConstraint q).integral D.weight ab) := by
    intro qs qs' h
    induction h with
    | nil => rfl
    | @cons q q' qs qs' h _ ih =>
      rw [List.map_cons, List.map_cons, ih]
      congr 1
      simp only [EngineObj.integral, Density.engine, EngineObj.withConstraint, EngineObj.copyWith, Option.getD, hd]
      congr 1
      funext σ
      simp [density, truth_mkAnd, truth, truthAll, s3, w3, h.2.2]
  have hk := congrArg (List.map fun x => if D.engine.integral D.weight ab > 0 then some (x / D.engine.integral D.weight ab) else none) (key hqs)
  simpa only [List.map_map, Function.comp_def] using hk

/-- C101: formulas written the way pysmt writes them are loaded as they were, so every engine gets the same problem. -/
theorem saved_same_partial (hL : ∀ q, Rep q → L.read (L.text q) = q)
    (hread : ∀ q, Rep q → TokSafe (showReal q) ∧ readReal (showReal q) = some q) (hwf : D.domain.WF)
    (hb : BoundsRep Rep D.domain)
    (hs : Formula.wt .bool D.support = true) (hw : Formula.wt .real D.weight = true)
    (hq : ∀ q ∈ D.queries, Formula.wt .bool q = true)
    (hexp : ∀ f, f = D.support ∨ f = D.weight ∨ f ∈ D.queries →
      (∀ p ∈ syms f, TokSafe p.1.toList) ∧ (∀ q ∈ consts f, Rep q) ∧ Reread.written f = true) :
    ∃ t, D.dumps L showReal = .ok t ∧ Density.loads L readReal t = .ok D := by
  obtain ⟨t, E, h1, h2, hd, ⟨-, s2, -⟩, ⟨-, w2, -⟩, hqs⟩ := density_text_reread (readReal := readReal) hL hread hwf hb hs hw hq
    fun f hf => ⟨(hexp f hf).1, (hexp f hf).2.1, Reread.written_noFalse f (hexp f hf).2.2⟩
  refine ⟨t, h1, h2.trans ?_⟩
  have e1 := s2.same (hexp _ (.inl rfl)).2.2
  have e2 := w2.same (hexp _ (.inr (.inl rfl))).2.2
  have e3 : E.queries = D.queries := by
    have : ∀ {qs qs' : List Formula}, List.Forall₂ (fun q q' => wt .bool q' = true ∧ Reread ℝ q q' ∧ ∀ σ : Env ℝ, truth σ q' = truth σ q) qs qs' →
        (∀ q ∈ qs, Reread.written q = true) → qs' = qs := by
      intro qs qs' h
      induction h with
      | nil => intro _; rfl
      | cons h _ ih => intro hw; rw [h.2.1.same (hw _ (by simp)), ih fun q hq => hw q (by simp [hq])]
    exact this hqs fun q h => (hexp q (.inr (.inr h))).2.2
  obtain ⟨a, b, c, d⟩ := E
  obtain ⟨a', b', c', d'⟩ := D
  simp only at hd e1 e2 e3
  subst hd e1 e2 e3
  rfl

/-- C101: PyXADD needs nothing more. -/
theorem saved_pyxadd_partial (hL : ∀ q, Rep q → L.read (L.text q) = q)
    (hread : ∀ q, Rep q → TokSafe (showReal q) ∧ readReal (showReal q) = some q)
    (hb : BoundsRep Rep D.domain) {wide ab : Bool} {Γ : String → Ty} (hS : Shared wide Γ D.engine D.weight ab)
    (hq : ∀ q ∈ D.queries, XOk D.domain q)
    (hexp : ∀ f, f = D.support ∨ f = D.weight ∨ f ∈ D.queries →
      (∀ p ∈ syms f, TokSafe p.1.toList) ∧ (∀ q ∈ consts f, Rep q) ∧ false ∉ boolConsts f)
    {E : Type} [DecidableEq E] {X : XCtx E} {ev : E → (String → ℝ) → ℝ} (hX : XLaw X ev) {C : RCtx E} (hC : C.X = X)
    (ho : OrdLaw C.ord) {p p' : Pool E} (hp : Reachable X Γ p) (hp' : Reachable X Γ p') :
    ∃ t D', D.dumps L showReal = .ok t ∧ Density.loads L readReal t = .ok D' ∧
      (pyxaddEngine C p').volume D'.engine ab = (pyxaddEngine C p).volume D.engine ab ∧
      (pyxaddEngine C p').probabilities D'.engine D'.queries ab = (pyxaddEngine C p).probabilities D.engine D.queries ab := by
  obtain ⟨t, D', h1, h2, -, -, h3⟩ := saved_answers_partial hL hread hb hS hq hexp
  obtain ⟨h4, h5⟩ := h3 _ _ (pyxadd_right_partial hX hC ho hp) (pyxadd_right_partial hX hC ho hp')
  exact ⟨t, D', h1, h2, h4, h5⟩

end

/-! ### The hypotheses are met -/

/-- The problem of C98 with two queries, one of them an implication. -/
def savedDensity : Density := ⟨factDomain, factSupport, xsddWeight, [agreeQuery, .implies (.sym "a" .bool) agreeQuery]⟩

/-- Numbers with one digit after the point. -/
abbrev Tenth (q : ℚ) : Prop := ∃ n : ℤ, q = n / 10

theorem factDomain_tenths : BoundsRep Tenth factDomain := by
  intro p hp q hq
  simp only [factDomain, List.mem_cons, List.not_mem_nil, or_false] at hp
  rcases hp with rfl | rfl <;> simp at hq
  · rcases hq with rfl | rfl
    · exact ⟨0, by norm_num⟩
    · exact ⟨20, by norm_num⟩
  · rcases hq with rfl | rfl
    · exact ⟨-10, by norm_num⟩
    · exact ⟨30, by norm_num⟩

theorem savedDensity_text (f : Formula) (hf : f = factSupport ∨ f = xsddWeight ∨ f ∈ savedDensity.queries) :
    (∀ p ∈ syms f, TokSafe p.1.toList) ∧ (∀ q ∈ consts f, Tenth q) ∧ false ∉ boolConsts f := by
  have key : ∀ q ∈ [(0 : ℚ), 1, 2, 3, -1], Tenth q := by
    intro q hq
    simp only [List.mem_cons, List.not_mem_nil, or_false] at hq
    rcases hq with rfl | rfl | rfl | rfl | rfl
    exacts [⟨0, by norm_num⟩, ⟨10, by norm_num⟩, ⟨20, by norm_num⟩, ⟨30, by norm_num⟩, ⟨-10, by norm_num⟩]
  have h : ∀ f ∈ [factSupport, xsddWeight, agreeQuery, .implies (.sym "a" .bool) agreeQuery],
      (∀ p ∈ syms f, TokSafe p.1.toList) ∧ (∀ q ∈ consts f, q ∈ [(0 : ℚ), 1, 2, 3, -1]) ∧ false ∉ boolConsts f := by decide +kernel
  obtain ⟨h1, h2, h3⟩ := h f (by simpa [savedDensity] using hf)
  exact ⟨h1, fun q hq => key q (h2 q hq), h3⟩

/-- The problem is saved and loaded, and PyXADD answers as before, on a used pool. -/
example : ∃ t E, savedDensity.dumps tenthsLib unaryShow = .ok t ∧ Density.loads tenthsLib unaryRead t = .ok E ∧
    (pyxaddEngine exFull exPool).volume E.engine true = .ok 15 ∧
    (pyxaddEngine exFull exPool).probabilities E.engine E.queries true =
      (pyxaddEngine exFull exPool).probabilities agreeEngine savedDensity.queries true := by
  obtain ⟨t, E, h1, h2, h3, h4⟩ := saved_pyxadd_partial (D := savedDensity) (Rep := Tenth) (fun q h => tenthsLib_read q h)
    (fun q _ => unary_ok q) factDomain_tenths (agree_shared true)
    (by
      intro q hq
      simp only [savedDensity, List.mem_cons, List.not_mem_nil, or_false] at hq
      rcases hq with rfl | rfl
      · exact agreeQuery_ok
      · refine ⟨by decide, by decide, by simp only [Domain.covers]; decide +kernel, fun a ha => ?_, fun h => absurd h (by decide)⟩
        exact agreeQuery_ok.generic a (by simpa [atoms] using ha)) savedDensity_text exLaw (C := exFull) rfl id_ordLaw exPool_reachable exPool_reachable
  exact ⟨t, E, h1, h2, h3.trans (agree_concrete _ (List.mem_cons_self ..)).1, h4⟩

/-- Without the implication the density is loaded as it was. -/
example : ∃ t, (Density.mk factDomain factSupport xsddWeight [agreeQuery]).dumps tenthsLib unaryShow = .ok t ∧
    Density.loads tenthsLib unaryRead t = .ok ⟨factDomain, factSupport, xsddWeight, [agreeQuery]⟩ :=
  saved_same_partial (Rep := Tenth) (fun q h => tenthsLib_read q h) (fun q _ => unary_ok q) factDomain_box.1 factDomain_tenths
    factSupport_ok.wt (agree_shared true).wtW (by decide) fun f hf => by
      obtain ⟨h1, h2, -⟩ := savedDensity_text f (by
        rcases hf with h | h | h
        · exact .inl h
        · exact .inr (.inl h)
        · exact .inr (.inr (by rw [List.mem_singleton.mp h]; simp [savedDensity])))
      refine ⟨h1, h2, ?_⟩
      rcases hf with rfl | rfl | h
      · decide +kernel
      · decide +kernel
      · rw [List.mem_singleton.mp h]; decide +kernel

end Pywmi
