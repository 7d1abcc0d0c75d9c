import Verif.Props.Domain

set_option linter.unusedSectionVars false
set_option linter.unusedSimpArgs false

/-!
# C109: constants in saved problems are floats
-/

namespace Pywmi
open Formula Prog

/-- SPEC: what is assumed of floats and their texts.  `In q`: `float(q)` does not overflow; `rd q`: its value; `showReal q` is
`str(float(q))` and `readReal` is `float` of a text.  Whole numbers are rounded to whole numbers, and to 1 only if they are 1. -/
structure FloatText (In : ℚ → Prop) (rd : ℚ → ℚ) (showReal : ℚ → Tok) (readReal : Tok → Option ℚ) : Prop where
  range : ∀ {q}, In q → In (rd q)
  again : ∀ {q}, In q → rd (rd q) = rd q
  same : ∀ {q}, In q → showReal (rd q) = showReal q
  safe : ∀ {q}, In q → TokSafe (showReal q)
  read : ∀ {q}, In q → readReal (showReal q) = some (rd q)
  whole : ∀ {n : ℕ}, In n → ∃ m : ℕ, rd n = m ∧ (m = 1 ↔ n = 1)
  binary : ∀ {q}, In q → ∃ k : ℕ, (rd q).den = 2 ^ k

/-! ## The text does not change when constants are rounded -/

/-- Two method bodies that return the same and make corresponding calls. -/
def Prog.Sim {I R : Type} (P : I → Prop) (ρ : I → I) : Prog I R → Prog I R → Prop
  | .done r, .done r' => r = r'
  | .fail e, .fail e' => e = e'
  | .call i k, .call j k' => P i ∧ j = ρ i ∧ ∀ r, Sim P ρ (k r) (k' r)
  | _, _ => False

theorem Prog.Sim.interp {I R : Type} {P : I → Prop} {ρ : I → I} {g : I → Except PyErr R} (hg : ∀ i, P i → g i = g (ρ i)) :
    ∀ {p p' : Prog I R}, p.Sim P ρ p' → p.interp g = p'.interp g
  | .done r, .done r', h => by rw [show r = r' from h]
  | .fail e, .fail e', h => by rw [show e = e' from h]
  | .call i k, .call j k', h => by
    obtain ⟨h1, rfl, h3⟩ := h
    simp only [Prog.interp, ← hg i h1]
    cases g i with
    | error e => rfl
    | ok r => exact Prog.Sim.interp hg (h3 r)
  | .done _, .fail _, h => h.elim
  | .done _, .call _ _, h => h.elim
  | .fail _, .done _, h => h.elim
  | .fail _, .call _ _, h => h.elim
  | .call _ _, .done _, h => h.elim
  | .call _ _, .fail _, h => h.elim

theorem Prog.Sim.callAll {I R : Type} {P : I → Prop} {ρ : I → I} : ∀ {as : List I} {k k' : List R → Prog I R}, (∀ a ∈ as, P a) →
    (∀ rs, (k rs).Sim P ρ (k' rs)) → (Prog.callAll as k).Sim P ρ (Prog.callAll (as.map ρ) k')
  | [], _, _, _, h => h []
  | a :: as, _, _, ha, h => ⟨ha a (by simp), rfl, fun r => Prog.Sim.callAll (fun x hx => ha x (by simp [hx])) fun rs => h (r :: rs)⟩

theorem run_sim {I R : Type} {P : I → Prop} {ρ : I → I} {body : I → Prog I R} (h : ∀ i, P i → (body i).Sim P ρ (body (ρ i))) :
    ∀ n i, P i → run body n i = run body n (ρ i)
  | 0, _, _ => rfl
  | n + 1, i, hi => (h i hi).interp fun j hj => run_sim h n j hj

theorem walk_sim {R : Type} {P : Formula → Prop} {ρ : Formula → Formula} {w : Walker R} (hd : w.Decr)
    (h : ∀ f, P f → (w.dispatch f).Sim P ρ (w.dispatch (ρ f))) {f : Formula} (hf : P f) : w.walk f = w.walk (ρ f) := by
  have h1 := run_enough hd (msize f + msize (ρ f) + 1) f (by omega)
  have h2 := run_enough hd (msize f + msize (ρ f) + 1) (ρ f) (by omega)
  rw [Walker.walk, Walker.walk, ← h1, ← h2]
  exact run_sim h _ _ hf

theorem mapConst_mkNot (rd : ℚ → ℚ) (a : Formula) : mapConst rd (mkNot a) = mkNot (mapConst rd a) := by
  cases a <;> simp [mkNot, mapConst]

section
variable {In : ℚ → Prop} {rd : ℚ → ℚ} {showReal : ℚ → Tok} {readReal : Tok → Option ℚ}

/-- Well-typed, with constants in range. -/
def Ranged (In : ℚ → Prop) (f : Formula) : Prop := (∃ ty, wt ty f = true) ∧ ∀ q ∈ consts f, In q

theorem call2_sim {P : Formula → Prop} {ρ : Formula → Formula} {R : Type} {l r : Formula} (hl : P l) (hr : P r) (k : R → R → Except PyErr R) :
    (call2 l r k).Sim P ρ (call2 (ρ l) (ρ r) k) := by
  refine ⟨hl, rfl, fun a => ⟨hr, rfl, fun b => ?_⟩⟩
  show (Prog.ofExcept (k a b)).Sim P ρ (Prog.ofExcept (k a b))
  cases k a b <;> exact rfl

theorem nestedW_sim (h : FloatText In rd showReal readReal) (f : Formula) (hf : Ranged In f) :
    ((nestedW showReal).dispatch f).Sim (Ranged In) (mapConst rd) ((nestedW showReal).dispatch (mapConst rd f)) := by
  obtain ⟨⟨ty, hty⟩, hc⟩ := hf
  have hlist : ∀ {ty' : Ty} {as : List Formula}, wtAll ty' as = true → (∀ q ∈ constsList as, In q) → ∀ a ∈ as, Ranged In a := fun hw hi a ha =>
    ⟨⟨_, (wtAll_iff _ _).mp hw a ha⟩, fun q hq => hi q (mem_constsList.mpr ⟨a, ha, hq⟩)⟩
  cases f with
  | and as =>
    cases ty <;> simp [wt] at hty
    simp only [mapConst, mapConstList_eq, Walker.dispatch, nestedW]
    exact Prog.Sim.callAll (hlist hty.2 hc) fun rs => rfl
  | or as =>
    cases ty <;> simp [wt] at hty
    simp only [mapConst, mapConstList_eq, Walker.dispatch, nestedW]
    exact Prog.Sim.callAll (hlist hty.2 hc) fun rs => rfl
  | times as =>
    cases ty <;> simp [wt] at hty
    simp only [mapConst, mapConstList_eq, Walker.dispatch, nestedW]
    exact Prog.Sim.callAll (hlist hty.2 hc) fun rs => rfl
  | plus as =>
    cases ty <;> simp [wt] at hty
    simp only [mapConst, mapConstList_eq, Walker.dispatch, nestedW]
    exact Prog.Sim.callAll (hlist hty.2 hc) fun rs => rfl
  | implies l r =>
    cases ty <;> simp [wt] at hty
    refine ⟨⟨⟨.bool, ?_⟩, ?_⟩, ?_, fun r => rfl⟩
    · exact wt_mkOr fun x hx => by
        simp only [List.mem_cons, List.not_mem_nil, or_false] at hx
        rcases hx with rfl | rfl
        · exact wt_mkNot hty.1
        · exact hty.2
    · simpa [mkOr, consts, constsList, consts_mkNot] using hc
    · simp [mkOr, mapConst, mapConstList, mapConst_mkNot]
  | iff l r =>
    cases ty <;> simp [wt] at hty
    refine ⟨⟨⟨.bool, by simp [wt, hty.1, hty.2]⟩, ?_⟩, rfl, fun a => ⟨⟨⟨.bool, by simp [wt, hty.1, hty.2]⟩, ?_⟩, rfl, fun b => rfl⟩⟩
    · simpa [consts] using hc
    · intro q hq; apply hc; simp [consts] at hq ⊢; tauto
  | not a =>
    cases ty <;> simp [wt] at hty
    exact ⟨⟨⟨_, hty⟩, hc⟩, rfl, fun r => rfl⟩
  | minus l r =>
    cases ty <;> simp [wt] at hty
    exact call2_sim ⟨⟨_, hty.1⟩, fun q hq => hc q (by simp [consts, hq])⟩ ⟨⟨_, hty.2⟩, fun q hq => hc q (by simp [consts, hq])⟩ _
  | le l r =>
    cases ty <;> simp [wt] at hty
    exact call2_sim ⟨⟨_, hty.1⟩, fun q hq => hc q (by simp [consts, hq])⟩ ⟨⟨_, hty.2⟩, fun q hq => hc q (by simp [consts, hq])⟩ _
  | lt l r =>
    cases ty <;> simp [wt] at hty
    exact call2_sim ⟨⟨_, hty.1⟩, fun q hq => hc q (by simp [consts, hq])⟩ ⟨⟨_, hty.2⟩, fun q hq => hc q (by simp [consts, hq])⟩ _
  | equals l r =>
    cases ty <;> simp [wt] at hty
    exact call2_sim ⟨⟨_, hty.1⟩, fun q hq => hc q (by simp [consts, hq])⟩ ⟨⟨_, hty.2⟩, fun q hq => hc q (by simp [consts, hq])⟩ _
  | ite c t e =>
    have hw : wt .bool c = true ∧ wt ty t = true ∧ wt ty e = true := by cases ty <;> simpa [wt, and_assoc] using hty
    exact ⟨⟨⟨_, hw.1⟩, fun q hq => hc q (by simp [consts, hq])⟩, rfl, fun _ => ⟨⟨⟨_, hw.2.1⟩, fun q hq => hc q (by simp [consts, hq])⟩, rfl,
      fun _ => ⟨⟨⟨_, hw.2.2⟩, fun q hq => hc q (by simp [consts, hq])⟩, rfl, fun _ => rfl⟩⟩⟩
  | pow b e =>
    cases ty
    · simp [wt] at hty
    · cases e <;> simp only [wt, Bool.false_eq_true] at hty
      rename_i q
      simp only [Bool.and_eq_true, decide_eq_true_eq] at hty
      have hq : In q := hc q (by simp [consts])
      have hn : q = ((q.num.toNat : ℕ) : ℚ) := by
        have h1 : ((q.num.toNat : ℕ) : ℤ) = q.num := Int.toNat_of_nonneg hty.2.2
        have h2 : (q.num : ℚ) = q := Rat.coe_int_num_of_den_eq_one hty.2.1
        rw [← h2]
        exact_mod_cast h1.symm
      obtain ⟨m, hm, hm1⟩ := h.whole (n := q.num.toNat) (by rwa [← hn])
      rw [← hn] at hm
      have hiff : q = 1 ↔ rd q = 1 := by
        rw [hm, hn, Nat.cast_eq_one, Nat.cast_eq_one, hm1]
      have hb : Ranged In b := ⟨⟨_, hty.1⟩, fun x hx => hc x (by simp [consts, hx])⟩
      simp only [mapConst, Walker.dispatch, nestedW, Formula.realC.injEq]
      by_cases h1 : q = 1
      · rw [if_pos h1, if_pos (hiff.mp h1)]
        exact ⟨hb, rfl, fun _ => rfl⟩
      · rw [if_neg h1, if_neg fun h' => h1 (hiff.mpr h')]
        exact call2_sim hb ⟨⟨.real, rfl⟩, fun x hx => by simp [consts] at hx; rwa [hx]⟩ _
  | sym n t => exact rfl
  | boolC b => exact rfl
  | realC q =>
    have := h.same (hc q (by simp [consts]))
    simp only [mapConst, Walker.dispatch, nestedW, this]
    exact rfl

/-- The text of a formula is the text of the one with rounded constants. -/
theorem smtToNested_round (h : FloatText In rd showReal readReal) {ty : Ty} {f : Formula} (hf : wt ty f = true) (hc : ∀ q ∈ consts f, In q) :
    smtToNested showReal f = smtToNested showReal (mapConst rd f) :=
  walk_sim (nestedW_decr showReal) (nestedW_sim h) ⟨⟨ty, hf⟩, hc⟩

mutual
theorem consts_mapConst (c : ℚ → ℚ) : ∀ f : Formula, consts (mapConst c f) = (consts f).map c
  | .and as => constsList_mapConst c as
  | .or as => constsList_mapConst c as
  | .times as => constsList_mapConst c as
  | .plus as => constsList_mapConst c as
  | .not a => consts_mapConst c a
  | .implies l r => by simp [mapConst, consts, consts_mapConst c l, consts_mapConst c r]
  | .minus l r => by simp [mapConst, consts, consts_mapConst c l, consts_mapConst c r]
  | .pow l r => by simp [mapConst, consts, consts_mapConst c l, consts_mapConst c r]
  | .le l r => by simp [mapConst, consts, consts_mapConst c l, consts_mapConst c r]
  | .lt l r => by simp [mapConst, consts, consts_mapConst c l, consts_mapConst c r]
  | .equals l r => by simp [mapConst, consts, consts_mapConst c l, consts_mapConst c r]
  | .iff l r => by simp [mapConst, consts, consts_mapConst c l, consts_mapConst c r]
  | .ite i t e => by simp [mapConst, consts, consts_mapConst c i, consts_mapConst c t, consts_mapConst c e]
  | .sym _ _ => rfl
  | .boolC _ => rfl
  | .realC _ => rfl
theorem constsList_mapConst (c : ℚ → ℚ) : ∀ as : List Formula, constsList (mapConstList c as) = (constsList as).map c
  | [] => rfl
  | a :: as => by simp [mapConstList, constsList, consts_mapConst c a, constsList_mapConst c as]
end

mutual
theorem boolConsts_mapConst (c : ℚ → ℚ) : ∀ f : Formula, boolConsts (mapConst c f) = boolConsts f
  | .and as => boolConstsList_mapConst c as
  | .or as => boolConstsList_mapConst c as
  | .times as => boolConstsList_mapConst c as
  | .plus as => boolConstsList_mapConst c as
  | .not a => boolConsts_mapConst c a
  | .implies l r => by simp [mapConst, boolConsts, boolConsts_mapConst c l, boolConsts_mapConst c r]
  | .minus l r => by simp [mapConst, boolConsts, boolConsts_mapConst c l, boolConsts_mapConst c r]
  | .pow l r => by simp [mapConst, boolConsts, boolConsts_mapConst c l, boolConsts_mapConst c r]
  | .le l r => by simp [mapConst, boolConsts, boolConsts_mapConst c l, boolConsts_mapConst c r]
  | .lt l r => by simp [mapConst, boolConsts, boolConsts_mapConst c l, boolConsts_mapConst c r]
  | .equals l r => by simp [mapConst, boolConsts, boolConsts_mapConst c l, boolConsts_mapConst c r]
  | .iff l r => by simp [mapConst, boolConsts, boolConsts_mapConst c l, boolConsts_mapConst c r]
  | .ite i t e => by simp [mapConst, boolConsts, boolConsts_mapConst c i, boolConsts_mapConst c t, boolConsts_mapConst c e]
  | .sym _ _ => rfl
  | .boolC _ => rfl
  | .realC _ => rfl
theorem boolConstsList_mapConst (c : ℚ → ℚ) : ∀ as : List Formula, boolConstsList (mapConstList c as) = boolConstsList as
  | [] => rfl
  | a :: as => by simp [mapConstList, boolConstsList, boolConsts_mapConst c a, boolConstsList_mapConst c as]
end

mutual
theorem syms_mapConst (c : ℚ → ℚ) : ∀ f : Formula, syms (mapConst c f) = syms f
  | .and as => symsList_mapConst c as
  | .or as => symsList_mapConst c as
  | .times as => symsList_mapConst c as
  | .plus as => symsList_mapConst c as
  | .not a => syms_mapConst c a
  | .implies l r => by simp [mapConst, syms, syms_mapConst c l, syms_mapConst c r]
  | .minus l r => by simp [mapConst, syms, syms_mapConst c l, syms_mapConst c r]
  | .pow l r => by simp [mapConst, syms, syms_mapConst c l, syms_mapConst c r]
  | .le l r => by simp [mapConst, syms, syms_mapConst c l, syms_mapConst c r]
  | .lt l r => by simp [mapConst, syms, syms_mapConst c l, syms_mapConst c r]
  | .equals l r => by simp [mapConst, syms, syms_mapConst c l, syms_mapConst c r]
  | .iff l r => by simp [mapConst, syms, syms_mapConst c l, syms_mapConst c r]
  | .ite i t e => by simp [mapConst, syms, syms_mapConst c i, syms_mapConst c t, syms_mapConst c e]
  | .sym _ _ => rfl
  | .boolC _ => rfl
  | .realC _ => rfl
theorem symsList_mapConst (c : ℚ → ℚ) : ∀ as : List Formula, symsList (mapConstList c as) = symsList as
  | [] => rfl
  | a :: as => by simp [mapConstList, symsList, syms_mapConst c a, symsList_mapConst c as]
end

mutual
theorem wt_mapConst (h : FloatText In rd showReal readReal) : ∀ (f : Formula) (ty : Ty), wt ty f = true → (∀ q ∈ consts f, In q) → wt ty (mapConst rd f) = true
  | .and as, ty, hw, hc => by
    cases ty <;> simp [wt] at hw
    simp only [mapConst, wt, Bool.and_eq_true]
    exact ⟨by cases as <;> simp_all [mapConstList], wtAll_mapConst h as _ hw.2 hc⟩
  | .or as, ty, hw, hc => by
    cases ty <;> simp [wt] at hw
    simp only [mapConst, wt, Bool.and_eq_true]
    exact ⟨by cases as <;> simp_all [mapConstList], wtAll_mapConst h as _ hw.2 hc⟩
  | .times as, ty, hw, hc => by
    cases ty <;> simp [wt] at hw
    simp only [mapConst, wt, Bool.and_eq_true]
    exact ⟨by cases as <;> simp_all [mapConstList], wtAll_mapConst h as _ hw.2 hc⟩
  | .plus as, ty, hw, hc => by
    cases ty <;> simp [wt] at hw
    simp only [mapConst, wt, Bool.and_eq_true]
    exact ⟨by cases as <;> simp_all [mapConstList], wtAll_mapConst h as _ hw.2 hc⟩
  | .not a, ty, hw, hc => by
    cases ty <;> simp [wt] at hw
    simpa [mapConst, wt] using wt_mapConst h a _ hw hc
  | .implies l r, ty, hw, hc => by
    cases ty <;> simp [wt] at hw
    simp only [mapConst, wt, Bool.and_eq_true]
    exact ⟨wt_mapConst h l _ hw.1 fun q hq => hc q (by simp [consts, hq]), wt_mapConst h r _ hw.2 fun q hq => hc q (by simp [consts, hq])⟩
  | .iff l r, ty, hw, hc => by
    cases ty <;> simp [wt] at hw
    simp only [mapConst, wt, Bool.and_eq_true]
    exact ⟨wt_mapConst h l _ hw.1 fun q hq => hc q (by simp [consts, hq]), wt_mapConst h r _ hw.2 fun q hq => hc q (by simp [consts, hq])⟩
  | .minus l r, ty, hw, hc => by
    cases ty <;> simp [wt] at hw
    simp only [mapConst, wt, Bool.and_eq_true]
    exact ⟨wt_mapConst h l _ hw.1 fun q hq => hc q (by simp [consts, hq]), wt_mapConst h r _ hw.2 fun q hq => hc q (by simp [consts, hq])⟩
  | .le l r, ty, hw, hc => by
    cases ty <;> simp [wt] at hw
    simp only [mapConst, wt, Bool.and_eq_true]
    exact ⟨wt_mapConst h l _ hw.1 fun q hq => hc q (by simp [consts, hq]), wt_mapConst h r _ hw.2 fun q hq => hc q (by simp [consts, hq])⟩
  | .lt l r, ty, hw, hc => by
    cases ty <;> simp [wt] at hw
    simp only [mapConst, wt, Bool.and_eq_true]
    exact ⟨wt_mapConst h l _ hw.1 fun q hq => hc q (by simp [consts, hq]), wt_mapConst h r _ hw.2 fun q hq => hc q (by simp [consts, hq])⟩
  | .equals l r, ty, hw, hc => by
    cases ty <;> simp [wt] at hw
    simp only [mapConst, wt, Bool.and_eq_true]
    exact ⟨wt_mapConst h l _ hw.1 fun q hq => hc q (by simp [consts, hq]), wt_mapConst h r _ hw.2 fun q hq => hc q (by simp [consts, hq])⟩
  | .ite c t e, ty, hw, hc => by
    have hw' : wt .bool c = true ∧ wt ty t = true ∧ wt ty e = true := by cases ty <;> simpa [wt, and_assoc] using hw
    have h1 := wt_mapConst h c _ hw'.1 fun q hq => hc q (by simp [consts, hq])
    have h2 := wt_mapConst h t _ hw'.2.1 fun q hq => hc q (by simp [consts, hq])
    have h3 := wt_mapConst h e _ hw'.2.2 fun q hq => hc q (by simp [consts, hq])
    cases ty <;> simp [mapConst, wt, h1, h2, h3]
  | .pow b (.realC q), ty, hw, hc => by
    cases ty <;> simp only [wt, Bool.false_eq_true, Bool.and_eq_true, decide_eq_true_eq] at hw
    have hn : q = ((q.num.toNat : ℕ) : ℚ) := by
      have h1 : ((q.num.toNat : ℕ) : ℤ) = q.num := Int.toNat_of_nonneg hw.2.2
      have h2 : (q.num : ℚ) = q := Rat.coe_int_num_of_den_eq_one hw.2.1
      rw [← h2]
      exact_mod_cast h1.symm
    obtain ⟨m, hm, -⟩ := h.whole (n := q.num.toNat) (by rw [← hn]; exact hc q (by simp [consts]))
    rw [← hn] at hm
    have hb := wt_mapConst h b _ hw.1 fun x hx => hc x (by simp [consts, hx])
    simp [mapConst, wt, hb, hm]
  | .pow b (.and _), ty, hw, _ => by cases ty <;> simp [wt] at hw
  | .pow b (.or _), ty, hw, _ => by cases ty <;> simp [wt] at hw
  | .pow b (.times _), ty, hw, _ => by cases ty <;> simp [wt] at hw
  | .pow b (.plus _), ty, hw, _ => by cases ty <;> simp [wt] at hw
  | .pow b (.not _), ty, hw, _ => by cases ty <;> simp [wt] at hw
  | .pow b (.implies _ _), ty, hw, _ => by cases ty <;> simp [wt] at hw
  | .pow b (.iff _ _), ty, hw, _ => by cases ty <;> simp [wt] at hw
  | .pow b (.minus _ _), ty, hw, _ => by cases ty <;> simp [wt] at hw
  | .pow b (.pow _ _), ty, hw, _ => by cases ty <;> simp [wt] at hw
  | .pow b (.le _ _), ty, hw, _ => by cases ty <;> simp [wt] at hw
  | .pow b (.lt _ _), ty, hw, _ => by cases ty <;> simp [wt] at hw
  | .pow b (.equals _ _), ty, hw, _ => by cases ty <;> simp [wt] at hw
  | .pow b (.ite _ _ _), ty, hw, _ => by cases ty <;> simp [wt] at hw
  | .pow b (.sym _ _), ty, hw, _ => by cases ty <;> simp [wt] at hw
  | .pow b (.boolC _), ty, hw, _ => by cases ty <;> simp [wt] at hw
  | .sym _ _, ty, hw, _ => by cases ty <;> exact hw
  | .boolC _, ty, hw, _ => by cases ty <;> exact hw
  | .realC _, ty, hw, _ => by cases ty <;> exact hw
theorem wtAll_mapConst (h : FloatText In rd showReal readReal) : ∀ (as : List Formula) (ty : Ty), wtAll ty as = true → (∀ q ∈ constsList as, In q) →
    wtAll ty (mapConstList rd as) = true
  | [], _, _, _ => rfl
  | a :: as, ty, hw, hc => by
    simp only [wtAll, Bool.and_eq_true] at hw
    simp only [mapConstList, wtAll, Bool.and_eq_true]
    exact ⟨wt_mapConst h a ty hw.1 fun q hq => hc q (by simp [constsList, hq]), wtAll_mapConst h as ty hw.2 fun q hq => hc q (by simp [constsList, hq])⟩
end

variable {K : Type} [Field K] [LinearOrder K] [IsStrictOrderedRing K]

/-- **C109** (partial, like C28: no constant `False`): a formula that is written and read again has the meaning of the formula with its constants
rounded to floats, under every assignment. -/
theorem nested_float_partial (h : FloatText In rd showReal readReal) {ty : Ty} {f : Formula} (hwt : wt ty f = true)
    (hs : ∀ p ∈ syms f, TokSafe p.1.toList) (hc : ∀ q ∈ consts f, In q) (hb : false ∉ boolConsts f) :
    ∃ s g, smtToNested showReal f = .ok s ∧ nestedToSmt readReal s = .ok g ∧ wt ty g = true ∧ ∀ σ : Env K, den σ ty g = den σ ty (mapConst rd f) := by
  rw [smtToNested_round h hwt hc]
  refine nested_roundtrip_partial (Rep := fun q => In q ∧ rd q = q) showReal (fun q hq => ⟨h.safe hq.1, by rw [h.read hq.1, hq.2]⟩)
    (wt_mapConst h f ty hwt hc) (by rwa [syms_mapConst]) (fun q hq => ?_) (by rwa [boolConsts_mapConst])
  rw [consts_mapConst] at hq
  obtain ⟨x, hx, rfl⟩ := List.mem_map.mp hq
  exact ⟨h.range (hc x hx), h.again (hc x hx)⟩

theorem third_rounds (h : FloatText In rd showReal readReal) (h3 : In (1 / 3)) : rd (1 / 3) ≠ 1 / 3 := by
  intro e
  obtain ⟨k, hk⟩ := h.binary h3
  rw [e, show (1 / 3 : ℚ).den = 3 by norm_num] at hk
  have h2 : 3 ∣ 2 ^ k := ⟨1, by omega⟩
  exact absurd (Nat.Prime.dvd_of_dvd_pow Nat.prime_three h2) (by norm_num)

/-- **C109, negation**: `x = 1/3`, written and read again, does not hold at 1/3, and the weight 1/3 has another value. -/
theorem nested_third (h : FloatText In rd showReal readReal) (h3 : In (1 / 3)) :
    (∃ s g, smtToNested showReal (.equals (.sym "x" .real) (.realC (1 / 3))) = .ok s ∧ nestedToSmt readReal s = .ok g ∧
      ∀ σ : Env K, σ.r "x" = 1 / 3 → truth σ (.equals (.sym "x" .real) (.realC (1 / 3))) = true ∧ truth σ g = false) ∧
    ∃ s g, smtToNested showReal (.realC (1 / 3)) = .ok s ∧ nestedToSmt readReal s = .ok g ∧ ∀ σ : Env K, value σ g ≠ value σ (.realC (1 / 3)) := by
  have hne := third_rounds h h3
  constructor
  · obtain ⟨s, g, h1, h2, -, h4⟩ := nested_float_partial (K := K) (ty := .bool) (f := .equals (.sym "x" .real) (.realC (1 / 3))) h rfl
      (by simp [syms]; decide) (by simpa [consts] using h3) (by simp [boolConsts])
    refine ⟨s, g, h1, h2, fun σ hσ => ⟨by simp [truth, value, hσ], ?_⟩⟩
    have := h4 σ
    simp only [den, Val.b.injEq, mapConst] at this
    rw [this]
    simp only [truth, value, decide_eq_false_iff_not, hσ]
    intro e
    apply hne
    have : ((1 / 3 : ℚ) : K) = ((rd (1 / 3) : ℚ) : K) := by rw [← e]; norm_num
    exact (Rat.cast_injective this).symm
  · obtain ⟨s, g, h1, h2, -, h4⟩ := nested_float_partial (K := K) (ty := .real) (f := .realC (1 / 3)) h rfl
      (by simp [syms]) (by simpa [consts] using h3) (by simp [boolConsts])
    refine ⟨s, g, h1, h2, fun σ => ?_⟩
    have := h4 σ
    simp only [den, Val.r.injEq, mapConst] at this
    rw [this]
    simp only [value]
    exact fun e => hne (Rat.cast_injective e)

/-- The density with rounded constants. -/
def Density.rounded (rd : ℚ → ℚ) (D : Density) : Density :=
  ⟨D.domain, mapConst rd D.support, mapConst rd D.weight, D.queries.map (mapConst rd)⟩

/-- **C109** (partial, like C59: no constant `False`): a density that is saved and loaded has the same domain, and its support, weight and queries have the
meaning of those with constants rounded to floats. -/
theorem density_float_partial (h : FloatText In rd showReal readReal) {D : Density} (hwf : D.domain.WF)
    (hs : wt .bool D.support = true) (hw : wt .real D.weight = true) (hq : ∀ q ∈ D.queries, wt .bool q = true)
    (hexp : ∀ f, f = D.support ∨ f = D.weight ∨ f ∈ D.queries →
      (∀ p ∈ syms f, TokSafe p.1.toList) ∧ (∀ q ∈ consts f, In q) ∧ false ∉ boolConsts f) :
    ∃ S E, D.getState showReal = .ok S ∧ Density.fromState readReal S = .ok E ∧ E.domain = D.domain ∧
      (∀ σ : Env K, truth σ E.support = truth σ (mapConst rd D.support)) ∧ (∀ σ : Env K, value σ E.weight = value σ (mapConst rd D.weight)) ∧
      List.Forall₂ (fun q q' => ∀ σ : Env K, truth σ q' = truth σ (mapConst rd q)) D.queries E.queries := by
  have hmap : ∀ qs : List Formula, (∀ q ∈ qs, q ∈ D.queries) → mapE (smtToNested showReal) qs = mapE (smtToNested showReal) (qs.map (mapConst rd)) := by
    intro qs
    induction qs with
    | nil => intro _; rfl
    | cons q qs ih =>
      intro hm
      have hm' := hm q (by simp)
      rw [List.map_cons, mapE, mapE, smtToNested_round h (hq q hm') (hexp q (.inr (.inr hm'))).2.1, ih fun x hx => hm x (by simp [hx])]
  have hstate : D.getState showReal = (D.rounded rd).getState showReal := by
    simp only [Density.getState, Density.rounded, hmap D.queries fun _ h => h, smtToNested_round h hs (hexp _ (.inl rfl)).2.1,
      smtToNested_round h hw (hexp _ (.inr (.inl rfl))).2.1]
  have hround : ∀ f, (∀ p ∈ syms f, TokSafe p.1.toList) ∧ (∀ q ∈ consts f, In q) ∧ false ∉ boolConsts f →
      (∀ p ∈ syms (mapConst rd f), TokSafe p.1.toList) ∧ (∀ q ∈ consts (mapConst rd f), In q ∧ rd q = q) ∧ false ∉ boolConsts (mapConst rd f) := by
    rintro f ⟨h1, h2, h3⟩
    refine ⟨by rwa [syms_mapConst], fun q hq => ?_, by rwa [boolConsts_mapConst]⟩
    rw [consts_mapConst] at hq
    obtain ⟨x, hx, rfl⟩ := List.mem_map.mp hq
    exact ⟨h.range (h2 x hx), h.again (h2 x hx)⟩
  obtain ⟨S, E, e1, e2, e3, e4, e5, e6⟩ := density_state_roundtrip_partial (K := K) (Rep := fun q => In q ∧ rd q = q) (showReal := showReal)
    (readReal := readReal) (fun q hq => ⟨h.safe hq.1, by rw [h.read hq.1, hq.2]⟩) (D := D.rounded rd) hwf
    (wt_mapConst h _ _ hs (hexp _ (.inl rfl)).2.1) (wt_mapConst h _ _ hw (hexp _ (.inr (.inl rfl))).2.1)
    (fun q hm => by
      obtain ⟨x, hx, rfl⟩ := List.mem_map.mp hm
      exact wt_mapConst h _ _ (hq x hx) (hexp x (.inr (.inr hx))).2.1)
    (fun f hf => by
      rcases hf with rfl | rfl | hm
      · exact hround _ (hexp _ (.inl rfl))
      · exact hround _ (hexp _ (.inr (.inl rfl)))
      · obtain ⟨x, hx, rfl⟩ := List.mem_map.mp hm
        exact hround _ (hexp x (.inr (.inr hx))))
  exact ⟨S, E, hstate.trans e1, e2, e3, e4, e5, List.forall₂_map_left_iff.mp e6⟩

end

/-! ## The hypotheses are met -/

/-- Numbers with ten binary digits after the point. -/
def fixedRd (q : ℚ) : ℚ := (⌊q * 1024⌋ : ℚ) / 1024

theorem fixed_floatText : FloatText (fun _ => True) fixedRd (fun q => unaryShow (fixedRd q)) unaryRead where
  range _ := trivial
  again {q} _ := by
    simp only [fixedRd]
    rw [div_mul_cancel₀ _ (by norm_num), Int.floor_intCast]
  same {q} _ := by
    simp only [fixedRd]
    rw [div_mul_cancel₀ _ (by norm_num), Int.floor_intCast]
  safe _ := (unary_ok _).1
  read _ := (unary_ok _).2
  whole {n} _ := ⟨n, by
    have : ((n : ℚ) * 1024) = ((n * 1024 : ℤ) : ℚ) := by push_cast; ring
    simp only [fixedRd]
    rw [this, Int.floor_intCast]; push_cast; field_simp, Iff.rfl⟩
  binary {q} _ := by
    have h : (fixedRd q).den ∣ 2 ^ 10 := by
      have : fixedRd q = Rat.divInt ⌊q * 1024⌋ 1024 := by rw [Rat.divInt_eq_div]; rfl
      have h2 := Rat.den_dvd ⌊q * 1024⌋ 1024
      rw [this]
      exact_mod_cast h2
    obtain ⟨k, -, hk⟩ := (Nat.dvd_prime_pow Nat.prime_two).mp h
    exact ⟨k, hk⟩

example : ∃ s g, smtToNested (fun q => unaryShow (fixedRd q)) sampleFormula = .ok s ∧ nestedToSmt unaryRead s = .ok g ∧ wt .bool g = true ∧
    ∀ σ : Env ℚ, den σ .bool g = den σ .bool (mapConst fixedRd sampleFormula) :=
  nested_float_partial fixed_floatText (by decide) (by decide +kernel) (fun _ _ => trivial) (by decide +kernel)

end Pywmi
