import Verif.Smt.Walk

/-!
# A generic soundness principle for walkers

If every method of a walker transports a relation `D ty f r` ("`r` is an acceptable result for the
formula `f` of type `ty`") from the recursive results to its own result, then `walk_smt` returns an
acceptable result on every well-typed formula.
-/

namespace Pywmi
open Formula Prog

/-- Lists of walked arguments, related one by one. -/
theorem mapE_rel {R : Type} {g : Formula → Except PyErr R} {D : Formula → R → Prop}
    {as : List Formula} (h : ∀ a ∈ as, ∃ r, g a = .ok r ∧ D a r) :
    ∃ rs, mapE g as = .ok rs ∧ List.Forall₂ D as rs := by
  induction as with
  | nil => exact ⟨[], rfl, .nil⟩
  | cons a as ih =>
    obtain ⟨r, hr, hD⟩ := h a (by simp)
    obtain ⟨rs, hrs, hDs⟩ := ih fun x hx => h x (by simp [hx])
    exact ⟨r :: rs, by simp [mapE, hr, hrs], .cons hD hDs⟩

theorem forall₂_fun {α β : Type} {f : α → β} {as : List α} {bs : List β}
    (h : List.Forall₂ (fun a b => b = f a) as bs) : bs = as.map f := by
  induction h with
  | nil => rfl
  | cons h _ ih => simp [h, ih]

theorem wt_mkNot {a : Formula} (h : wt .bool a = true) : wt .bool (mkNot a) = true := by
  unfold mkNot; split
  · simpa [wt] using h
  · simpa [wt] using h

theorem syms_mkNot (a : Formula) : syms (mkNot a) = syms a := by
  unfold mkNot; split <;> simp [syms]

/-! ### Comparison atoms -/

mutual
/-- SPEC: the comparison atoms (`<=`, `<`, `=`) occurring in a formula. -/
def atoms : Formula → List Formula
  | .and as => atomsList as
  | .or as => atomsList as
  | .implies l r => atoms l ++ atoms r
  | .not a => atoms a
  | .times as => atomsList as
  | .plus as => atomsList as
  | .minus l r => atoms l ++ atoms r
  | .ite c t e => atoms c ++ (atoms t ++ atoms e)
  | .pow b e => atoms b ++ atoms e
  | .le l r => .le l r :: (atoms l ++ atoms r)
  | .lt l r => .lt l r :: (atoms l ++ atoms r)
  | .equals l r => .equals l r :: (atoms l ++ atoms r)
  | .iff l r => atoms l ++ atoms r
  | .sym _ _ => []
  | .boolC _ => []
  | .realC _ => []
/-- Comparison atoms of a list of formulas. -/
def atomsList : List Formula → List Formula
  | [] => []
  | a :: as => atoms a ++ atomsList as
end

theorem mem_atomsList {p : Formula} {as : List Formula} :
    p ∈ atomsList as ↔ ∃ a ∈ as, p ∈ atoms a := by
  induction as with
  | nil => simp [atomsList]
  | cons a as ih => simp [atomsList, ih]

theorem atoms_mkNot (a : Formula) : atoms (mkNot a) = atoms a := by
  unfold mkNot; split <;> simp [atoms]

namespace Walker
variable {R : Type}

theorem soundA {w : Walker R} (hd : w.Decr) (S : String × Ty → Prop) (A : Formula → Prop) (D : Ty → Formula → R → Prop)
    (hAnd : ∀ g as rs, as ≠ [] → (∀ a ∈ as, wt .bool a = true) → mapE g as = .ok rs →
      List.Forall₂ (D .bool) as rs →
      ∃ r, (w.onAnd as).interp g = .ok r ∧ D .bool (.and as) r)
    (hOr : ∀ g as rs, as ≠ [] → (∀ a ∈ as, wt .bool a = true) → mapE g as = .ok rs →
      List.Forall₂ (D .bool) as rs →
      ∃ r, (w.onOr as).interp g = .ok r ∧ D .bool (.or as) r)
    (hTimes : ∀ g as rs, as ≠ [] → mapE g as = .ok rs → List.Forall₂ (D .real) as rs →
      ∃ r, (w.onTimes as).interp g = .ok r ∧ D .real (.times as) r)
    (hPlus : ∀ g as rs, as ≠ [] → mapE g as = .ok rs → List.Forall₂ (D .real) as rs →
      ∃ r, (w.onPlus as).interp g = .ok r ∧ D .real (.plus as) r)
    (hNot : ∀ g a ra, wt .bool a = true → g a = .ok ra → D .bool a ra →
      ∃ r, (w.onNot a).interp g = .ok r ∧ D .bool (.not a) r)
    (hMinus : ∀ g l r rl rr, g l = .ok rl → g r = .ok rr → D .real l rl → D .real r rr →
      ∃ x, (w.onMinus l r).interp g = .ok x ∧ D .real (.minus l r) x)
    (hIte : ∀ g ty c t e rc rt re, wt .bool c = true → wt ty t = true → wt ty e = true →
      g c = .ok rc → g t = .ok rt → g e = .ok re →
      D .bool c rc → D ty t rt → D ty e re →
      ∃ x, (w.onIte c t e).interp g = .ok x ∧ D ty (.ite c t e) x)
    (hPow : ∀ g b q rb rq, q.den = 1 → 0 ≤ q.num → g b = .ok rb → g (.realC q) = .ok rq →
      D .real b rb → D .real (.realC q) rq →
      ∃ x, (w.onPow b (.realC q)).interp g = .ok x ∧ D .real (.pow b (.realC q)) x)
    (hLe : ∀ g l r rl rr, A (.le l r) → wt .real l = true → wt .real r = true →
      g l = .ok rl → g r = .ok rr → D .real l rl → D .real r rr →
      ∃ x, (w.onLte l r).interp g = .ok x ∧ D .bool (.le l r) x)
    (hLt : ∀ g l r rl rr, A (.lt l r) → wt .real l = true → wt .real r = true →
      g l = .ok rl → g r = .ok rr → D .real l rl → D .real r rr →
      ∃ x, (w.onLt l r).interp g = .ok x ∧ D .bool (.lt l r) x)
    (hEq : ∀ g l r rl rr, A (.equals l r) → wt .real l = true → wt .real r = true →
      g l = .ok rl → g r = .ok rr → D .real l rl → D .real r rr →
      ∃ x, (w.onEquals l r).interp g = .ok x ∧ D .bool (.equals l r) x)
    (hSym : ∀ g n t, S (n, t) → ∃ x, (w.onSymbol n t).interp g = .ok x ∧ D t (.sym n t) x)
    (hBool : ∀ g b, ∃ x, (w.onBool b).interp g = .ok x ∧ D .bool (.boolC b) x)
    (hReal : ∀ g q, ∃ x, (w.onReal q).interp g = .ok x ∧ D .real (.realC q) x)
    (hImpl : ∀ l r, w.onImplies l r = .call (mkOr [mkNot l, r]) .done)
    (hDI : ∀ l r x, D .bool (mkOr [mkNot l, r]) x → D .bool (.implies l r) x)
    (hDiff : ∀ l r x, D .bool (.and [.implies l r, .implies r l]) x → D .bool (.iff l r) x) :
    ∀ f ty, wt ty f = true → (∀ p ∈ syms f, S p) → (∀ a ∈ atoms f, A a) →
      ∃ r, w.walk f = .ok r ∧ D ty f r := by
  suffices H : ∀ n f ty, msize f < n → wt ty f = true → (∀ p ∈ syms f, S p) →
      (∀ a ∈ atoms f, A a) → ∃ r, w.walk f = .ok r ∧ D ty f r from
    fun f ty => H (msize f + 1) f ty (Nat.lt_succ_self _)
  intro n
  induction n with
  | zero => intro f ty h; omega
  | succ n ih =>
    intro f ty hsz hwt hs hat
    rw [walk_eq hd]
    -- lists of arguments
    have hlist : ∀ t (as : List Formula), (∀ a ∈ as, msize a < n) → (∀ a ∈ as, wt t a = true) →
        (∀ a ∈ as, ∀ p ∈ syms a, S p) →
        (∀ a ∈ as, ∀ x ∈ atoms a, A x) →
        ∃ rs, mapE w.walk as = .ok rs ∧ List.Forall₂ (D t) as rs :=
      fun t as h1 h2 h3 h4 => mapE_rel fun a ha => ih a t (h1 a ha) (h2 a ha) (h3 a ha) (h4 a ha)
    cases f with
    | and as =>
      cases ty with
      | real => simp [wt] at hwt
      | bool =>
        simp only [wt, Bool.and_eq_true, Bool.not_eq_true', List.isEmpty_eq_false_iff, wtAll_iff] at hwt
        simp only [msize] at hsz
        simp only [syms, mem_symsList] at hs
        simp only [atoms, mem_atomsList] at hat
        obtain ⟨rs, hrs, hD⟩ := hlist .bool as
          (fun a ha => by have := msize_lt_of_mem ha; omega) hwt.2 (fun a ha p hp => hs p ⟨a, ha, hp⟩)
          (fun a ha p hp => hat p ⟨a, ha, hp⟩)
        exact hAnd _ as rs hwt.1 hwt.2 hrs hD
    | or as =>
      cases ty with
      | real => simp [wt] at hwt
      | bool =>
        simp only [wt, Bool.and_eq_true, Bool.not_eq_true', List.isEmpty_eq_false_iff, wtAll_iff] at hwt
        simp only [msize] at hsz
        simp only [syms, mem_symsList] at hs
        simp only [atoms, mem_atomsList] at hat
        obtain ⟨rs, hrs, hD⟩ := hlist .bool as
          (fun a ha => by have := msize_lt_of_mem ha; omega) hwt.2 (fun a ha p hp => hs p ⟨a, ha, hp⟩)
          (fun a ha p hp => hat p ⟨a, ha, hp⟩)
        exact hOr _ as rs hwt.1 hwt.2 hrs hD
    | times as =>
      cases ty with
      | bool => simp [wt] at hwt
      | real =>
        simp only [wt, Bool.and_eq_true, Bool.not_eq_true', List.isEmpty_eq_false_iff, wtAll_iff] at hwt
        simp only [msize] at hsz
        simp only [syms, mem_symsList] at hs
        simp only [atoms, mem_atomsList] at hat
        obtain ⟨rs, hrs, hD⟩ := hlist .real as
          (fun a ha => by have := msize_lt_of_mem ha; omega) hwt.2 (fun a ha p hp => hs p ⟨a, ha, hp⟩)
          (fun a ha p hp => hat p ⟨a, ha, hp⟩)
        exact hTimes _ as rs hwt.1 hrs hD
    | plus as =>
      cases ty with
      | bool => simp [wt] at hwt
      | real =>
        simp only [wt, Bool.and_eq_true, Bool.not_eq_true', List.isEmpty_eq_false_iff, wtAll_iff] at hwt
        simp only [msize] at hsz
        simp only [syms, mem_symsList] at hs
        simp only [atoms, mem_atomsList] at hat
        obtain ⟨rs, hrs, hD⟩ := hlist .real as
          (fun a ha => by have := msize_lt_of_mem ha; omega) hwt.2 (fun a ha p hp => hs p ⟨a, ha, hp⟩)
          (fun a ha p hp => hat p ⟨a, ha, hp⟩)
        exact hPlus _ as rs hwt.1 hrs hD
    | implies l r =>
      cases ty with
      | real => simp [wt] at hwt
      | bool =>
        simp only [wt, Bool.and_eq_true] at hwt
        simp only [syms, List.mem_append] at hs
        have h1 := msize_impl l r
        have hw : wt .bool (mkOr [mkNot l, r]) = true := by
          simp [mkOr, wt, wtAll, wt_mkNot hwt.1, hwt.2]
        have hsy : ∀ p ∈ syms (mkOr [mkNot l, r]), S p := by
          simp only [mkOr, syms, symsList, syms_mkNot, List.append_nil, List.mem_append]
          exact hs
        have hay : ∀ a ∈ atoms (mkOr [mkNot l, r]), A a := by
          simp only [mkOr, atoms, atomsList, atoms_mkNot, List.append_nil] at hat ⊢
          exact hat
        obtain ⟨x, hx, hDx⟩ := ih (mkOr [mkNot l, r]) .bool (by omega) hw hsy hay
        refine ⟨x, ?_, hDI l r x hDx⟩
        simp [dispatch, hImpl, interp, hx]
    | not a =>
      cases ty with
      | real => simp [wt] at hwt
      | bool =>
        simp only [wt] at hwt
        simp only [msize] at hsz
        simp only [syms] at hs
        simp only [atoms] at hat
        obtain ⟨ra, h1, h2⟩ := ih a .bool (by omega) hwt hs hat
        exact hNot _ a ra hwt h1 h2
    | minus l r =>
      cases ty with
      | bool => simp [wt] at hwt
      | real =>
        simp only [wt, Bool.and_eq_true] at hwt
        simp only [msize] at hsz
        simp only [syms, List.mem_append] at hs
        simp only [atoms, List.mem_append, List.mem_cons] at hat
        obtain ⟨ra, h1, h2⟩ := ih l .real (by omega) hwt.1 (fun p hp => hs p (.inl hp))
          fun p hp => hat p (.inl hp)
        obtain ⟨rb, h3, h4⟩ := ih r .real (by omega) hwt.2 (fun p hp => hs p (.inr hp))
          fun p hp => hat p (.inr hp)
        exact hMinus _ l r ra rb h1 h3 h2 h4
    | ite c t e =>
      have hwt' : wt .bool c = true ∧ wt ty t = true ∧ wt ty e = true := by
        cases ty <;> simpa [wt, and_assoc] using hwt
      simp only [msize] at hsz
      simp only [syms, List.mem_append] at hs
      simp only [atoms, List.mem_append] at hat
      obtain ⟨ra, h1, h2⟩ := ih c .bool (by omega) hwt'.1 (fun p hp => hs p (.inl hp))
        fun p hp => hat p (.inl hp)
      obtain ⟨rb, h3, h4⟩ := ih t ty (by omega) hwt'.2.1 (fun p hp => hs p (.inr (.inl hp)))
        fun p hp => hat p (.inr (.inl hp))
      obtain ⟨rc, h5, h6⟩ := ih e ty (by omega) hwt'.2.2 (fun p hp => hs p (.inr (.inr hp)))
        fun p hp => hat p (.inr (.inr hp))
      exact hIte _ ty c t e ra rb rc hwt'.1 hwt'.2.1 hwt'.2.2 h1 h3 h5 h2 h4 h6
    | pow b e =>
      cases ty with
      | bool => simp [wt] at hwt
      | real =>
        cases e with
        | realC q =>
          simp only [wt, Bool.and_eq_true, decide_eq_true_eq] at hwt
          simp only [msize] at hsz
          simp only [syms, List.append_nil] at hs
          simp only [atoms, List.append_nil] at hat
          obtain ⟨ra, h1, h2⟩ := ih b .real (by omega) hwt.1 hs hat
          have hsz2 : msize (.realC q) < n := by
            have : 1 ≤ msize b := by
              cases b <;> simp only [msize] <;> omega
            simp only [msize]; omega
          obtain ⟨rb, h3, h4⟩ := ih (.realC q) .real hsz2 rfl (by simp [syms]) (by simp [atoms])
          exact hPow _ b q ra rb hwt.2.1 hwt.2.2 h1 h3 h2 h4
        | _ => simp [wt] at hwt
    | le l r =>
      cases ty with
      | real => simp [wt] at hwt
      | bool =>
        simp only [wt, Bool.and_eq_true] at hwt
        simp only [msize] at hsz
        simp only [syms, List.mem_append] at hs
        simp only [atoms, List.mem_append, List.mem_cons] at hat
        obtain ⟨ra, h1, h2⟩ := ih l .real (by omega) hwt.1 (fun p hp => hs p (.inl hp))
          fun p hp => hat p (.inr (.inl hp))
        obtain ⟨rb, h3, h4⟩ := ih r .real (by omega) hwt.2 (fun p hp => hs p (.inr hp))
          fun p hp => hat p (.inr (.inr hp))
        exact hLe _ l r ra rb (hat _ (.inl rfl)) hwt.1 hwt.2 h1 h3 h2 h4
    | lt l r =>
      cases ty with
      | real => simp [wt] at hwt
      | bool =>
        simp only [wt, Bool.and_eq_true] at hwt
        simp only [msize] at hsz
        simp only [syms, List.mem_append] at hs
        simp only [atoms, List.mem_append, List.mem_cons] at hat
        obtain ⟨ra, h1, h2⟩ := ih l .real (by omega) hwt.1 (fun p hp => hs p (.inl hp))
          fun p hp => hat p (.inr (.inl hp))
        obtain ⟨rb, h3, h4⟩ := ih r .real (by omega) hwt.2 (fun p hp => hs p (.inr hp))
          fun p hp => hat p (.inr (.inr hp))
        exact hLt _ l r ra rb (hat _ (.inl rfl)) hwt.1 hwt.2 h1 h3 h2 h4
    | equals l r =>
      cases ty with
      | real => simp [wt] at hwt
      | bool =>
        simp only [wt, Bool.and_eq_true] at hwt
        simp only [msize] at hsz
        simp only [syms, List.mem_append] at hs
        simp only [atoms, List.mem_append, List.mem_cons] at hat
        obtain ⟨ra, h1, h2⟩ := ih l .real (by omega) hwt.1 (fun p hp => hs p (.inl hp))
          fun p hp => hat p (.inr (.inl hp))
        obtain ⟨rb, h3, h4⟩ := ih r .real (by omega) hwt.2 (fun p hp => hs p (.inr hp))
          fun p hp => hat p (.inr (.inr hp))
        exact hEq _ l r ra rb (hat _ (.inl rfl)) hwt.1 hwt.2 h1 h3 h2 h4
    | iff l r =>
      cases ty with
      | real => simp [wt] at hwt
      | bool =>
        simp only [wt, Bool.and_eq_true] at hwt
        simp only [msize] at hsz
        simp only [syms, List.mem_append] at hs
        simp only [atoms, List.mem_append] at hat
        have hw : ∀ a ∈ [Formula.implies l r, .implies r l], wt .bool a = true := by
          intro a ha
          simp only [List.mem_cons, List.not_mem_nil, or_false] at ha
          rcases ha with rfl | rfl <;> simp [wt, hwt]
        obtain ⟨rs, hrs, hD⟩ := hlist .bool [.implies l r, .implies r l]
          (fun a ha => by
            simp only [List.mem_cons, List.not_mem_nil, or_false] at ha
            rcases ha with rfl | rfl <;> simp only [msize] <;> omega)
          hw
          (fun a ha p hp => by
            simp only [List.mem_cons, List.not_mem_nil, or_false] at ha
            rcases ha with rfl | rfl <;> simp only [syms, List.mem_append] at hp
            · exact hs p hp
            · exact hs p hp.symm)
          (fun a ha p hp => by
            simp only [List.mem_cons, List.not_mem_nil, or_false] at ha
            rcases ha with rfl | rfl <;> simp only [atoms, List.mem_append] at hp
            · exact hat p hp
            · exact hat p hp.symm)
        obtain ⟨x, hx, hDx⟩ := hAnd _ _ rs (by simp) hw hrs hD
        exact ⟨x, hx, hDiff l r x hDx⟩
    | sym m t =>
      have ht : ty = t := by cases ty <;> cases t <;> simp [wt] at hwt ⊢
      subst ht
      exact hSym _ m ty (hs (m, ty) (by simp [syms]))
    | boolC b =>
      cases ty with
      | real => simp [wt] at hwt
      | bool => exact hBool _ b
    | realC q =>
      cases ty with
      | bool => simp [wt] at hwt
      | real => exact hReal _ q

theorem sound {w : Walker R} (hd : w.Decr) (S : String × Ty → Prop) (D : Ty → Formula → R → Prop)
    (hAnd : ∀ g as rs, as ≠ [] → (∀ a ∈ as, wt .bool a = true) → mapE g as = .ok rs →
      List.Forall₂ (D .bool) as rs →
      ∃ r, (w.onAnd as).interp g = .ok r ∧ D .bool (.and as) r)
    (hOr : ∀ g as rs, as ≠ [] → (∀ a ∈ as, wt .bool a = true) → mapE g as = .ok rs →
      List.Forall₂ (D .bool) as rs →
      ∃ r, (w.onOr as).interp g = .ok r ∧ D .bool (.or as) r)
    (hTimes : ∀ g as rs, as ≠ [] → mapE g as = .ok rs → List.Forall₂ (D .real) as rs →
      ∃ r, (w.onTimes as).interp g = .ok r ∧ D .real (.times as) r)
    (hPlus : ∀ g as rs, as ≠ [] → mapE g as = .ok rs → List.Forall₂ (D .real) as rs →
      ∃ r, (w.onPlus as).interp g = .ok r ∧ D .real (.plus as) r)
    (hNot : ∀ g a ra, wt .bool a = true → g a = .ok ra → D .bool a ra →
      ∃ r, (w.onNot a).interp g = .ok r ∧ D .bool (.not a) r)
    (hMinus : ∀ g l r rl rr, g l = .ok rl → g r = .ok rr → D .real l rl → D .real r rr →
      ∃ x, (w.onMinus l r).interp g = .ok x ∧ D .real (.minus l r) x)
    (hIte : ∀ g ty c t e rc rt re, wt .bool c = true → wt ty t = true → wt ty e = true →
      g c = .ok rc → g t = .ok rt → g e = .ok re →
      D .bool c rc → D ty t rt → D ty e re →
      ∃ x, (w.onIte c t e).interp g = .ok x ∧ D ty (.ite c t e) x)
    (hPow : ∀ g b q rb rq, q.den = 1 → 0 ≤ q.num → g b = .ok rb → g (.realC q) = .ok rq →
      D .real b rb → D .real (.realC q) rq →
      ∃ x, (w.onPow b (.realC q)).interp g = .ok x ∧ D .real (.pow b (.realC q)) x)
    (hLe : ∀ g l r rl rr, wt .real l = true → wt .real r = true →
      g l = .ok rl → g r = .ok rr → D .real l rl → D .real r rr →
      ∃ x, (w.onLte l r).interp g = .ok x ∧ D .bool (.le l r) x)
    (hLt : ∀ g l r rl rr, wt .real l = true → wt .real r = true →
      g l = .ok rl → g r = .ok rr → D .real l rl → D .real r rr →
      ∃ x, (w.onLt l r).interp g = .ok x ∧ D .bool (.lt l r) x)
    (hEq : ∀ g l r rl rr, wt .real l = true → wt .real r = true →
      g l = .ok rl → g r = .ok rr → D .real l rl → D .real r rr →
      ∃ x, (w.onEquals l r).interp g = .ok x ∧ D .bool (.equals l r) x)
    (hSym : ∀ g n t, S (n, t) → ∃ x, (w.onSymbol n t).interp g = .ok x ∧ D t (.sym n t) x)
    (hBool : ∀ g b, ∃ x, (w.onBool b).interp g = .ok x ∧ D .bool (.boolC b) x)
    (hReal : ∀ g q, ∃ x, (w.onReal q).interp g = .ok x ∧ D .real (.realC q) x)
    (hImpl : ∀ l r, w.onImplies l r = .call (mkOr [mkNot l, r]) .done)
    (hDI : ∀ l r x, D .bool (mkOr [mkNot l, r]) x → D .bool (.implies l r) x)
    (hDiff : ∀ l r x, D .bool (.and [.implies l r, .implies r l]) x → D .bool (.iff l r) x) :
    ∀ f ty, wt ty f = true → (∀ p ∈ syms f, S p) → ∃ r, w.walk f = .ok r ∧ D ty f r :=
  fun f ty h1 h2 => soundA hd S (fun _ => True) D hAnd hOr hTimes hPlus hNot hMinus hIte hPow (fun g l r rl rr _ => hLe g l r rl rr) (fun g l r rl rr _ => hLt g l r rl rr) (fun g l r rl rr _ => hEq g l r rl rr) hSym hBool hReal hImpl hDI hDiff f ty h1 h2 fun _ _ => trivial

end Walker
end Pywmi
