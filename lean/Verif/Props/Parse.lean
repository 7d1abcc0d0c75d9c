import Verif.Parse.Nested
import Verif.Props.Transform

set_option linter.unusedSectionVars false
set_option linter.unusedSimpArgs false

/-!
# C28, C29: the nested string format
-/

namespace Pywmi
open Formula Prog

mutual
/-- SPEC: the Boolean constants occurring in a formula. -/
def boolConsts : Formula → List Bool
  | .and as => boolConstsList as
  | .or as => boolConstsList as
  | .implies l r => boolConsts l ++ boolConsts r
  | .not a => boolConsts a
  | .times as => boolConstsList as
  | .plus as => boolConstsList as
  | .minus l r => boolConsts l ++ boolConsts r
  | .ite c t e => boolConsts c ++ (boolConsts t ++ boolConsts e)
  | .pow b e => boolConsts b ++ boolConsts e
  | .le l r => boolConsts l ++ boolConsts r
  | .lt l r => boolConsts l ++ boolConsts r
  | .equals l r => boolConsts l ++ boolConsts r
  | .iff l r => boolConsts l ++ boolConsts r
  | .sym _ _ => []
  | .boolC b => [b]
  | .realC _ => []
/-- SPEC: the Boolean constants of a list. -/
def boolConstsList : List Formula → List Bool
  | [] => []
  | a :: as => boolConsts a ++ boolConstsList as
end

theorem mem_boolConstsList {p : Bool} {as : List Formula} :
    p ∈ boolConstsList as ↔ ∃ a ∈ as, p ∈ boolConsts a := by
  induction as with
  | nil => simp [boolConstsList]
  | cons a as ih => simp [boolConstsList, ih]

theorem boolConsts_mkNot (a : Formula) : boolConsts (mkNot a) = boolConsts a := by
  unfold mkNot; split <;> simp [boolConsts]

section
variable {K : Type} [Field K] [LinearOrder K] [IsStrictOrderedRing K]
variable (Rep : ℚ → Prop) (showReal : ℚ → Tok) (readReal : Tok → Option ℚ)

/-- The constants of a formula survive printing and reading. -/
def Exportable (f : Formula) : Prop := (∀ q ∈ consts f, Rep q) ∧ false ∉ boolConsts f

/-- The second formula is what is read back when the first one is printed. -/
inductive Reread (K : Type) [Field K] [LinearOrder K] : Formula → Formula → Prop
  | and {as gs : List Formula} : as ≠ [] → as.length = gs.length → (∀ p ∈ as.zip gs, Reread K p.1 p.2) → Reread K (.and as) (mkAnd gs)
  | or {as gs : List Formula} : as ≠ [] → as.length = gs.length → (∀ p ∈ as.zip gs, Reread K p.1 p.2) → Reread K (.or as) (mkOr gs)
  | times {as gs : List Formula} {x : Formula} : as.length = gs.length → (∀ p ∈ as.zip gs, Reread K p.1 p.2) → mkTimes gs = .ok x →
      Reread K (.times as) x
  | plus {as gs : List Formula} {x : Formula} : as.length = gs.length → (∀ p ∈ as.zip gs, Reread K p.1 p.2) → mkPlus gs = .ok x →
      Reread K (.plus as) x
  | not {a x : Formula} : Reread K a x → Reread K (.not a) (mkNot x)
  | minus {l r x y : Formula} : Reread K l x → Reread K r y → Reread K (.minus l r) (.minus x y)
  | ite {c t e x y z : Formula} : Reread K c x → Reread K t y → Reread K e z → Reread K (.ite c t e) (.ite x y z)
  | powOne {b x : Formula} : Reread K b x → Reread K (.pow b (.realC 1)) x
  | pow {b x y : Formula} {q : ℚ} : q ≠ 1 → Reread K b x → mkPow x (.realC q) = .ok y → Reread K (.pow b (.realC q)) y
  | le {l r x y : Formula} : Reread K l x → Reread K r y → (∀ σ : Env K, value σ x = value σ l ∧ value σ y = value σ r) →
      Reread K (.le l r) (.le x y)
  | lt {l r x y : Formula} : Reread K l x → Reread K r y → (∀ σ : Env K, value σ x = value σ l ∧ value σ y = value σ r) →
      Reread K (.lt l r) (.lt x y)
  | equals {l r x y : Formula} : Reread K l x → Reread K r y → (∀ σ : Env K, value σ x = value σ l ∧ value σ y = value σ r) →
      Reread K (.equals l r) (.equals x y)
  | sym (n : String) (t : Ty) : Reread K (.sym n t) (.sym n t)
  | tt : Reread K (.boolC true) (.boolC true)
  | real (q : ℚ) : Reread K (.realC q) (.realC q)
  | implies {l r x : Formula} : Reread K (mkOr [mkNot l, r]) x → Reread K (.implies l r) x
  | iff {l r x : Formula} : Reread K (.and [.implies l r, .implies r l]) x → Reread K (.iff l r) x

/-- What the text of a formula stands for. -/
def TextFor (K : Type) [Field K] [LinearOrder K] (ty : Ty) (f : Formula) (s : List Char) : Prop :=
  ∃ n c cs g, AstOk (.node n (c :: cs)) ∧ s = showAst (.node n (c :: cs)) ∧
    astToSmt readReal (.node n (c :: cs)) = .ok g ∧ wt ty g = true ∧ (∀ q, f = .realC q → g = .realC q) ∧
    Reread K f g ∧ ∀ σ : Env K, den σ ty g = den σ ty f

/-- The invariant of the printer. -/
def NestedOk (K : Type) [Field K] [LinearOrder K] (ty : Ty) (f : Formula) (s : List Char) : Prop :=
  Exportable Rep f → TextFor readReal K ty f s

variable {Rep readReal}

theorem nested_list {ty : Ty} {as : List Formula} {rs : List (List Char)}
    (h : List.Forall₂ (NestedOk Rep readReal K ty) as rs) (he : ∀ a ∈ as, Exportable Rep a) :
    ∃ cs gs, rs = cs.map showAst ∧ AstAllOk cs ∧ astListToSmt readReal cs = .ok gs ∧
      List.Forall₂ (fun a g => wt ty g = true ∧ (∀ σ : Env K, den σ ty g = den σ ty a) ∧ Reread K a g) as gs := by
  induction h with
  | nil => exact ⟨[], [], rfl, trivial, rfl, .nil⟩
  | @cons a r as rs hd _ ih =>
    obtain ⟨n, c, cs, g, h1, rfl, h3, h4, -, hk, h5⟩ := hd (he a (by simp))
    obtain ⟨ds, gs, rfl, i2, i3, i4⟩ := ih fun b hb => he b (by simp [hb])
    exact ⟨.node n (c :: cs) :: ds, g :: gs, rfl, ⟨h1, i2⟩, by simp [astListToSmt, h3, i3], .cons ⟨h4, h5, hk⟩ i4⟩

theorem reread_zip {ty : Ty} {as gs : List Formula}
    (h : List.Forall₂ (fun a g => wt ty g = true ∧ (∀ σ : Env K, den σ ty g = den σ ty a) ∧ Reread K a g) as gs) :
    ∀ p ∈ as.zip gs, Reread K p.1 p.2 := fun _ hp => ((List.forall₂_iff_zip.mp h).2 hp).2.2

theorem forall₂_ne_nil {α β : Type} {P : α → β → Prop} {as : List α} {bs : List β} (h : List.Forall₂ P as bs)
    (hne : as ≠ []) : bs ≠ [] := by
  cases h with
  | nil => exact absurd rfl hne
  | cons _ _ => simp

/-- An operator applied to printed arguments. -/
theorem text_op {op : Tok} (hsafe : TokSafe op) (hop : op ∈ nestedOperators)
    (hplain : op ∉ ["const".toList, "var".toList, ['-', '>'], "exp".toList]) {cs : List Ast} (hne : cs ≠ []) (hok : AstAllOk cs)
    (har : arityOk op cs.length = true) {gs : List Formula} (hgs : astListToSmt readReal cs = .ok gs) {g : Formula}
    (hg : applyOp op gs = .ok g) {ty : Ty} {f : Formula} (hf : ∀ q, f ≠ .realC q) (hwt : wt ty g = true)
    (hkin : Reread K f g) (hsem : ∀ σ : Env K, den σ ty g = den σ ty f) : TextFor readReal K ty f (printOp op (cs.map showAst)) := by
  cases cs with
  | nil => exact absurd rfl hne
  | cons c cs =>
    refine ⟨some op, c, cs, g, ⟨⟨op, rfl, hsafe, hop⟩, hok⟩, printOp_show op c cs, ?_, hwt, fun q h => absurd h (hf q), hkin, hsem⟩
    simp only [List.mem_cons, List.not_mem_nil, or_false, not_or] at hplain
    have : ¬(op ∈ [['-', '>'], "exp".toList] ∨ op ∉ nestedOperators) := by
      simp only [List.mem_cons, List.not_mem_nil, or_false, not_or, not_not]
      exact ⟨⟨hplain.2.2.1, hplain.2.2.2⟩, hop⟩
    rw [astToSmt, if_neg hplain.1, if_neg hplain.2.1, if_neg this, if_neg (by rw [har]; simp), hgs]
    exact hg

theorem nestedW_sound (hread : ∀ q, Rep q → TokSafe (showReal q) ∧ readReal (showReal q) = some q) (f : Formula) (ty : Ty)
    (hwt : wt ty f = true) (hs : ∀ p ∈ syms f, TokSafe p.1.toList) :
    ∃ s, smtToNested showReal f = .ok s ∧ NestedOk Rep readReal K ty f s := by
  refine Walker.sound (nestedW_decr showReal) (fun p => TokSafe p.1.toList) (NestedOk Rep readReal K)
    ?_ ?_ ?_ ?_ ?_ ?_ ?_ ?_ ?_ ?_ ?_ ?_ ?_ ?_ (fun _ _ => rfl) ?_ ?_ f ty hwt hs
  · -- and
    intro g as rs hne _ hm hD
    refine ⟨printOp ['&'] rs, by show interp g (callAll as _) = _; rw [interp_callAll, hm]; rfl, fun he => ?_⟩
    obtain ⟨cs, gs, rfl, h2, h3, h4⟩ := nested_list hD
      (fun a ha => ⟨fun q hq => he.1 q (by simp only [consts, mem_constsList]; exact ⟨a, ha, hq⟩),
        fun hb => he.2 (by simp only [boolConsts, mem_boolConstsList]; exact ⟨a, ha, hb⟩)⟩)
    have hcs : cs ≠ [] := by rintro rfl; exact forall₂_ne_nil hD hne rfl
    have hw : wt .bool (mkAnd gs) = true := wt_mkAnd fun x hx => by
      obtain ⟨a, _, h⟩ := forall₂_mem_right h4 x hx; exact h.1
    refine text_op (by decide) (by decide) (by decide) hcs h2 rfl h3 (g := mkAnd gs)
      (by simp [applyOp, checked_wt hw]) (by simp) hw (.and hne h4.length_eq (reread_zip h4)) fun σ => ?_
    have := forall₂_map_eq (h4.imp fun a r h => (by simpa [den] using h.2.1 σ : truth σ r = truth σ a))
    simp only [den, truth_mkAnd, truth, truthAll_eq]
    congr 1
    exact (all_of_map_eq this)
  · -- or
    intro g as rs hne _ hm hD
    refine ⟨printOp ['|'] rs, by show interp g (callAll as _) = _; rw [interp_callAll, hm]; rfl, fun he => ?_⟩
    obtain ⟨cs, gs, rfl, h2, h3, h4⟩ := nested_list hD
      (fun a ha => ⟨fun q hq => he.1 q (by simp only [consts, mem_constsList]; exact ⟨a, ha, hq⟩),
        fun hb => he.2 (by simp only [boolConsts, mem_boolConstsList]; exact ⟨a, ha, hb⟩)⟩)
    have hcs : cs ≠ [] := by rintro rfl; exact forall₂_ne_nil hD hne rfl
    have hw : wt .bool (mkOr gs) = true := wt_mkOr fun x hx => by
      obtain ⟨a, _, h⟩ := forall₂_mem_right h4 x hx; exact h.1
    refine text_op (by decide) (by decide) (by decide) hcs h2 rfl h3 (g := mkOr gs)
      (by simp [applyOp, checked_wt hw]) (by simp) hw (.or hne h4.length_eq (reread_zip h4)) fun σ => ?_
    have := forall₂_map_eq (h4.imp fun a r h => (by simpa [den] using h.2.1 σ : truth σ r = truth σ a))
    simp only [den, truth_mkOr, truth, truthAny_eq]
    congr 1
    exact (any_of_map_eq this)
  · -- times
    intro g as rs hne hm hD
    refine ⟨printOp ['*'] rs, by show interp g (callAll as _) = _; rw [interp_callAll, hm]; rfl, fun he => ?_⟩
    obtain ⟨cs, gs, rfl, h2, h3, h4⟩ := nested_list hD
      (fun a ha => ⟨fun q hq => he.1 q (by simp only [consts, mem_constsList]; exact ⟨a, ha, hq⟩),
        fun hb => he.2 (by simp only [boolConsts, mem_boolConstsList]; exact ⟨a, ha, hb⟩)⟩)
    have hcs : cs ≠ [] := by rintro rfl; exact forall₂_ne_nil hD hne rfl
    obtain ⟨x, hx⟩ := mkTimes_ok (forall₂_ne_nil h4 hne)
    have hw : wt .real x = true := wt_mkTimes (fun y hy => by
      obtain ⟨a, _, h⟩ := forall₂_mem_right h4 y hy; exact h.1) hx
    refine text_op (by decide) (by decide) (by decide) hcs h2 rfl h3 (g := x)
      (by simp [applyOp, hx, checkedE, checked_wt hw]) (by simp) hw (.times h4.length_eq (reread_zip h4) hx) fun σ => ?_
    have := forall₂_map_eq (h4.imp fun a r h => (by simpa [den] using h.2.1 σ : value σ r = value σ a))
    simp only [den, value_mkTimes hx, value, valueProd_eq, this]
  · -- plus
    intro g as rs hne hm hD
    refine ⟨printOp ['+'] rs, by show interp g (callAll as _) = _; rw [interp_callAll, hm]; rfl, fun he => ?_⟩
    obtain ⟨cs, gs, rfl, h2, h3, h4⟩ := nested_list hD
      (fun a ha => ⟨fun q hq => he.1 q (by simp only [consts, mem_constsList]; exact ⟨a, ha, hq⟩),
        fun hb => he.2 (by simp only [boolConsts, mem_boolConstsList]; exact ⟨a, ha, hb⟩)⟩)
    have hcs : cs ≠ [] := by rintro rfl; exact forall₂_ne_nil hD hne rfl
    obtain ⟨x, hx⟩ := mkPlus_ok (forall₂_ne_nil h4 hne)
    have hw : wt .real x = true := wt_mkPlus (fun y hy => by
      obtain ⟨a, _, h⟩ := forall₂_mem_right h4 y hy; exact h.1) hx
    refine text_op (by decide) (by decide) (by decide) hcs h2 rfl h3 (g := x)
      (by simp [applyOp, hx, checkedE, checked_wt hw]) (by simp) hw (.plus h4.length_eq (reread_zip h4) hx) fun σ => ?_
    have := forall₂_map_eq (h4.imp fun a r h => (by simpa [den] using h.2.1 σ : value σ r = value σ a))
    simp only [den, value_mkPlus hx, value, valueSum_eq, this]
  · -- not
    intro g a ra _ ha hD
    refine ⟨printOp ['~'] [ra], by show interp g (.call a _) = _; simp [interp, ha], fun he => ?_⟩
    obtain ⟨n, c, cs, x, h1, rfl, h3, h4, -, hk, h5⟩ := hD he
    have hw := wt_mkNot h4
    refine text_op (cs := [.node n (c :: cs)]) (by decide) (by decide) (by decide) (by simp) ⟨h1, trivial⟩ rfl
      (gs := [x]) (by simp [astListToSmt, h3]) (g := mkNot x) (by simp [applyOp, checked_wt hw]) (by simp) hw (.not hk) fun σ => ?_
    simpa [den, truth] using h5 σ
  · -- minus
    intro g l r rl rr hl hr hDl hDr
    refine ⟨printOp ['-'] [rl, rr], (interp_call2 g l r _).trans (by rw [hl, hr]), fun he => ?_⟩
    obtain ⟨n, c, cs, x, h1, rfl, h3, h4, -, hk, h5⟩ := hDl ⟨fun q hq => he.1 q (by simp [consts, hq]),
      fun hb => he.2 (by simp [boolConsts, hb])⟩
    obtain ⟨n', c', cs', x', h1', rfl, h3', h4', -, hk', h5'⟩ := hDr ⟨fun q hq => he.1 q (by simp [consts, hq]),
      fun hb => he.2 (by simp [boolConsts, hb])⟩
    have hw : wt .real (.minus x x') = true := by simp [wt, h4, h4']
    refine text_op (cs := [.node n (c :: cs), .node n' (c' :: cs')]) (by decide) (by decide) (by decide) (by simp)
      ⟨h1, h1', trivial⟩ rfl (gs := [x, x']) (by simp [astListToSmt, h3, h3']) (g := .minus x x')
      (by simp [applyOp, checked_wt hw]) (by simp) hw (.minus hk hk') fun σ => ?_
    have e1 := h5 σ; have e2 := h5' σ
    simp only [den, Val.r.injEq] at e1 e2
    simp [den, value, e1, e2]
  · -- ite
    intro g ty i t e ri rt re _ _ _ hi ht he hDi hDt hDe
    refine ⟨printOp "ite".toList [ri, rt, re], by
      show interp g (.call i fun a => .call t fun b => .call e fun d => .done (printOp "ite".toList [a, b, d])) = _
      simp [interp, hi, ht, he], fun hx => ?_⟩
    obtain ⟨n, c, cs, x, h1, rfl, h3, h4, -, hk, h5⟩ := hDi ⟨fun q hq => hx.1 q (by simp [consts, hq]),
      fun hb => hx.2 (by simp [boolConsts, hb])⟩
    obtain ⟨n', c', cs', x', h1', rfl, h3', h4', -, hk', h5'⟩ := hDt ⟨fun q hq => hx.1 q (by simp [consts, hq]),
      fun hb => hx.2 (by simp [boolConsts, hb])⟩
    obtain ⟨n2, c2, cs2, x2, h12, rfl, h32, h42, -, hk2, h52⟩ := hDe ⟨fun q hq => hx.1 q (by simp [consts, hq]),
      fun hb => hx.2 (by simp [boolConsts, hb])⟩
    have hw : wt ty (.ite x x' x2) = true := by cases ty <;> simp [wt, h4, h4', h42]
    refine text_op (cs := [.node n (c :: cs), .node n' (c' :: cs'), .node n2 (c2 :: cs2)]) (by decide) (by decide) (by decide)
      (by simp) ⟨h1, h1', h12, trivial⟩ rfl (gs := [x, x', x2]) (by simp [astListToSmt, h3, h3', h32]) (g := .ite x x' x2)
      (by simp [applyOp, checked_wt hw]) (by simp) hw (.ite hk hk' hk2) fun σ => ?_
    have e1 := h5 σ; have e2 := h5' σ; have e3 := h52 σ
    simp only [den, Val.b.injEq] at e1
    cases ty
    · simp only [den, Val.b.injEq] at e2 e3
      simp [den, truth, e1, e2, e3]
    · simp only [den, Val.r.injEq] at e2 e3
      simp [den, value, e1, e2, e3]
  · -- pow
    intro g b q rb rq hq1 hq2 hb hq hDb hDq
    by_cases h1q : q = 1
    · subst h1q
      refine ⟨rb, by simp [nestedW, interp, hb], fun he => ?_⟩
      obtain ⟨n, c, cs, x, h1, rfl, h3, h4, -, hk, h5⟩ := hDb ⟨fun q hq => he.1 q (by simp [consts, hq]),
        fun hb => he.2 (by simp [boolConsts, hb])⟩
      refine ⟨n, c, cs, x, h1, rfl, h3, h4, by simp, .powOne hk, fun σ => ?_⟩
      have e1 := h5 σ
      simp only [den, Val.r.injEq] at e1
      simp [den, value, e1]
    · refine ⟨printOp ['^'] [rb, rq], ?_, fun he => ?_⟩
      · show interp g (if (Formula.realC q) = .realC 1 then _ else _) = _
        rw [if_neg (by simpa using h1q)]
        exact (interp_call2 g b (.realC q) _).trans (by rw [hb, hq])
      obtain ⟨n, c, cs, x, h1, rfl, h3, h4, -, hk, h5⟩ := hDb ⟨fun q hq => he.1 q (by simp [consts, hq]),
        fun hb => he.2 (by simp [boolConsts, hb])⟩
      obtain ⟨n', c', cs', x', h1', rfl, h3', h4', hx', -, -⟩ := hDq ⟨fun q' hq' => he.1 q' (by simp [consts] at hq' ⊢; simp [hq']),
        fun hb => he.2 (by simp [boolConsts] at hb ⊢)⟩
      have hx' := hx' q rfl
      subst hx'
      have hval : ∀ σ : Env K, value σ (.pow b (.realC q)) = value σ x ^ q.num.toNat := by
        intro σ
        have e1 := h5 σ
        simp only [den, Val.r.injEq] at e1
        simp [value, hq1, hq2, e1]
      have : ∃ y, mkPow x (.realC q) = .ok y ∧ wt .real y = true ∧ ∀ σ : Env K, value σ y = value σ x ^ q.num.toNat := by
        by_cases hcst : ∃ z, x = .realC z
        · obtain ⟨z, rfl⟩ := hcst
          exact ⟨.realC (z ^ q.num.toNat), by simp [mkPow, hq1, hq2], rfl, fun σ => by simp [value]⟩
        · refine ⟨.pow x (.realC q), by cases x <;> simp_all [mkPow], by simp [wt, h4, hq1, hq2], fun σ => by
            simp [value, hq1, hq2]⟩
      obtain ⟨y, hy, hyw, hyv⟩ := this
      refine text_op (cs := [.node n (c :: cs), .node n' (c' :: cs')]) (by decide) (by decide) (by decide) (by simp)
        ⟨h1, h1', trivial⟩ rfl (gs := [x, .realC q]) (by simp [astListToSmt, h3, h3']) (g := y)
        (by simp [applyOp, hy, checkedE, checked_wt hyw]) (by simp) hyw (.pow h1q hk hy) fun σ => ?_
      simp only [den, hyv, hval]
  · -- le
    intro g l r rl rr _ _ hl hr hDl hDr
    refine ⟨printOp ['<', '='] [rl, rr], (interp_call2 g l r _).trans (by rw [hl, hr]), fun he => ?_⟩
    obtain ⟨n, c, cs, x, h1, rfl, h3, h4, -, hk, h5⟩ := hDl ⟨fun q hq => he.1 q (by simp [consts, hq]),
      fun hb => he.2 (by simp [boolConsts, hb])⟩
    obtain ⟨n', c', cs', x', h1', rfl, h3', h4', -, hk', h5'⟩ := hDr ⟨fun q hq => he.1 q (by simp [consts, hq]),
      fun hb => he.2 (by simp [boolConsts, hb])⟩
    have hw : wt .bool (.le x x') = true := by simp [wt, h4, h4']
    refine text_op (cs := [.node n (c :: cs), .node n' (c' :: cs')]) (by decide) (by decide) (by decide) (by simp)
      ⟨h1, h1', trivial⟩ rfl (gs := [x, x']) (by simp [astListToSmt, h3, h3']) (g := .le x x')
      (by simp [applyOp, checked_wt hw]) (by simp) hw (.le hk hk' fun σ => ⟨by simpa [den] using h5 σ, by simpa [den] using h5' σ⟩) fun σ => ?_
    have e1 := h5 σ; have e2 := h5' σ
    simp only [den, Val.r.injEq] at e1 e2
    simp [den, truth, e1, e2]
  · -- lt
    intro g l r rl rr _ _ hl hr hDl hDr
    refine ⟨printOp ['<'] [rl, rr], (interp_call2 g l r _).trans (by rw [hl, hr]), fun he => ?_⟩
    obtain ⟨n, c, cs, x, h1, rfl, h3, h4, -, hk, h5⟩ := hDl ⟨fun q hq => he.1 q (by simp [consts, hq]),
      fun hb => he.2 (by simp [boolConsts, hb])⟩
    obtain ⟨n', c', cs', x', h1', rfl, h3', h4', -, hk', h5'⟩ := hDr ⟨fun q hq => he.1 q (by simp [consts, hq]),
      fun hb => he.2 (by simp [boolConsts, hb])⟩
    have hw : wt .bool (.lt x x') = true := by simp [wt, h4, h4']
    refine text_op (cs := [.node n (c :: cs), .node n' (c' :: cs')]) (by decide) (by decide) (by decide) (by simp)
      ⟨h1, h1', trivial⟩ rfl (gs := [x, x']) (by simp [astListToSmt, h3, h3']) (g := .lt x x')
      (by simp [applyOp, checked_wt hw]) (by simp) hw (.lt hk hk' fun σ => ⟨by simpa [den] using h5 σ, by simpa [den] using h5' σ⟩) fun σ => ?_
    have e1 := h5 σ; have e2 := h5' σ
    simp only [den, Val.r.injEq] at e1 e2
    simp [den, truth, e1, e2]
  · -- equals
    intro g l r rl rr _ _ hl hr hDl hDr
    refine ⟨printOp ['='] [rl, rr], (interp_call2 g l r _).trans (by rw [hl, hr]), fun he => ?_⟩
    obtain ⟨n, c, cs, x, h1, rfl, h3, h4, -, hk, h5⟩ := hDl ⟨fun q hq => he.1 q (by simp [consts, hq]),
      fun hb => he.2 (by simp [boolConsts, hb])⟩
    obtain ⟨n', c', cs', x', h1', rfl, h3', h4', -, hk', h5'⟩ := hDr ⟨fun q hq => he.1 q (by simp [consts, hq]),
      fun hb => he.2 (by simp [boolConsts, hb])⟩
    have hw : wt .bool (.equals x x') = true := by simp [wt, h4, h4']
    refine text_op (cs := [.node n (c :: cs), .node n' (c' :: cs')]) (by decide) (by decide) (by decide) (by simp)
      ⟨h1, h1', trivial⟩ rfl (gs := [x, x']) (by simp [astListToSmt, h3, h3']) (g := .equals x x')
      (by simp [applyOp, checked_wt hw]) (by simp) hw (.equals hk hk' fun σ => ⟨by simpa [den] using h5 σ, by simpa [den] using h5' σ⟩) fun σ => ?_
    have e1 := h5 σ; have e2 := h5' σ
    simp only [den, Val.r.injEq] at e1 e2
    simp [den, truth, e1, e2]
  · -- symbol
    intro g n t hsafe
    refine ⟨_, rfl, fun _ => ⟨some "var".toList, .node (some (tyName t)) [], [.node (some n.toList) []], .sym n t,
      ⟨⟨_, rfl, by decide, by decide⟩, ⟨_, rfl, by cases t <;> decide⟩, ⟨_, rfl, hsafe⟩, trivial⟩,
      printOp_show _ (.node (some (tyName t)) []) [.node (some n.toList) []], ?_, by cases t <;> rfl, by simp, .sym n t, fun σ => rfl⟩⟩
    rw [astToSmt, if_neg (by decide), if_pos rfl]
    cases t <;> simp [varToSmt, Ast.name, tyName]
  · -- Boolean constant
    intro g b
    refine ⟨_, rfl, fun he => ?_⟩
    have hb : b = true := by
      cases b
      · exact absurd (by simp [boolConsts]) he.2
      · rfl
    subst hb
    refine ⟨some "const".toList, .node (some "bool".toList) [], [.node (some "True".toList) []], .boolC true,
      ⟨⟨_, rfl, by decide, by decide⟩, ⟨_, rfl, by decide⟩, ⟨_, rfl, by decide⟩, trivial⟩,
      printOp_show _ (.node (some "bool".toList) []) [.node (some "True".toList) []], ?_, rfl, by simp, .tt, fun σ => rfl⟩
    rw [astToSmt, if_pos rfl]
    simp [constToSmt, Ast.name]
  · -- real constant
    intro g q
    refine ⟨_, rfl, fun he => ?_⟩
    obtain ⟨h1, h2⟩ := hread q (he.1 q (by simp [consts]))
    refine ⟨some "const".toList, .node (some "real".toList) [], [.node (some (showReal q)) []], .realC q,
      ⟨⟨_, rfl, by decide, by decide⟩, ⟨_, rfl, by decide⟩, ⟨_, rfl, h1⟩, trivial⟩,
      printOp_show _ (.node (some "real".toList) []) [.node (some (showReal q)) []], ?_, rfl, ?_, .real q, fun σ => rfl⟩
    · rw [astToSmt, if_pos rfl]
      simp [constToSmt, Ast.name, h2]
    · intro q' h; cases h; rfl
  · -- implies
    intro l r x h he
    have hc : Exportable Rep (mkOr [mkNot l, r]) := by
      refine ⟨fun q hq => he.1 q ?_, fun hb => he.2 ?_⟩
      · simpa [mkOr, consts, constsList, consts_mkNot] using hq
      · simpa [mkOr, boolConsts, boolConstsList, boolConsts_mkNot] using hb
    obtain ⟨n, c, cs, g, h1, h2, h3, h4, -, hk, h5⟩ := h hc
    refine ⟨n, c, cs, g, h1, h2, h3, h4, by simp, .implies hk, fun σ => (h5 σ).trans ?_⟩
    simp [den, mkOr, truth, truthAny]
  · -- iff
    intro l r x h he
    have hc : Exportable Rep (.and [.implies l r, .implies r l]) := by
      refine ⟨fun q hq => he.1 q ?_, fun hb => he.2 ?_⟩
      · simp only [consts, constsList, List.append_nil, List.mem_append] at hq ⊢; tauto
      · simp only [boolConsts, boolConstsList, List.append_nil, List.mem_append] at hb ⊢; tauto
    obtain ⟨n, c, cs, g, h1, h2, h3, h4, -, hk, h5⟩ := h hc
    refine ⟨n, c, cs, g, h1, h2, h3, h4, by simp, .iff hk, fun σ => (h5 σ).trans ?_⟩
    simp only [den, truth, truthAll, Val.b.injEq]
    cases truth σ l <;> cases truth σ r <;> rfl

/-- **C28** (partial: formulas containing the constant `False` are excluded, see `nested_false_becomes_true`): parsing
the printed form of a well-typed formula with token-safe names and printable constants succeeds and gives a formula
with the same meaning under every assignment. -/
theorem nested_roundtrip_partial (hread : ∀ q, Rep q → TokSafe (showReal q) ∧ readReal (showReal q) = some q)
    {ty : Ty} {f : Formula} (hwt : wt ty f = true) (hs : ∀ p ∈ syms f, TokSafe p.1.toList)
    (hc : ∀ q ∈ consts f, Rep q) (hb : false ∉ boolConsts f) :
    ∃ s g, smtToNested showReal f = .ok s ∧ nestedToSmt readReal s = .ok g ∧ wt ty g = true ∧
      ∀ σ : Env K, den σ ty g = den σ ty f := by
  obtain ⟨s, h1, h2⟩ := nestedW_sound (K := K) (Rep := Rep) (readReal := readReal) showReal hread f ty hwt hs
  obtain ⟨n, c, cs, g, h3, rfl, h4, h5, -, -, h6⟩ := h2 ⟨hc, hb⟩
  exact ⟨_, g, h1, by rw [nestedToSmt, buildAst_show h3]; exact h4, h5, h6⟩

/-- What is read back, symbol by symbol. -/
theorem nested_reread (hread : ∀ q, Rep q → TokSafe (showReal q) ∧ readReal (showReal q) = some q)
    {ty : Ty} {f : Formula} (hwt : wt ty f = true) (hs : ∀ p ∈ syms f, TokSafe p.1.toList)
    (hc : ∀ q ∈ consts f, Rep q) (hb : false ∉ boolConsts f) :
    ∃ s g, smtToNested showReal f = .ok s ∧ nestedToSmt readReal s = .ok g ∧ wt ty g = true ∧ Reread K f g ∧
      ∀ σ : Env K, den σ ty g = den σ ty f := by
  obtain ⟨s, h1, h2⟩ := nestedW_sound (K := K) (Rep := Rep) (readReal := readReal) showReal hread f ty hwt hs
  obtain ⟨n, c, cs, g, h3, rfl, h4, h5, -, h6⟩ := h2 ⟨hc, hb⟩
  exact ⟨_, g, h1, by rw [nestedToSmt, buildAst_show h3]; exact h4, h5, h6⟩

/-- C28 fails for the constant `False`: it is read back as `True`, because `bool("False")` is true. -/
theorem nested_false_becomes_true :
    ∃ s, smtToNested showReal (.boolC false) = .ok s ∧ nestedToSmt readReal s = .ok (.boolC true) := by
  refine ⟨"(const bool False)".toList, ?_, ?_⟩
  · unfold smtToNested
    rw [Walker.walk_eq (nestedW_decr showReal)]
    rfl
  · have : buildAst (tokenize "(const bool False)".toList) = .ok (some (.node (some "const".toList)
        [.node (some "bool".toList) [], .node (some "False".toList) []])) := by
      have h : "(const bool False)".toList = showAst (.node (some "const".toList)
        [.node (some "bool".toList) [], .node (some "False".toList) []]) := by decide
      rw [h]
      exact buildAst_show ⟨⟨_, rfl, by decide, by decide⟩, ⟨_, rfl, by decide⟩, ⟨_, rfl, by decide⟩, trivial⟩
    rw [nestedToSmt, this]
    show astToSmt readReal _ = _
    rw [astToSmt, if_pos rfl]
    simp [constToSmt, Ast.name]

/-- A string `(op support w1 w2 ...)` is split into the support and the weight `op w1 w2 ...`. -/
theorem combined_split {op : Tok} (hsafe : TokSafe op) (hop : op ∈ nestedOperators) {a : Ast} {as : List Ast}
    (ha : AstOk a) (hok : AstAllOk as) {f g : Formula} (hf : astToSmt readReal a = .ok f)
    (hg : astToSmt readReal (.node (some op) as) = .ok g) :
    combinedToWmi readReal (printOp op ((a :: as).map showAst)) = .ok (f, g) := by
  rw [combinedToWmi, printOp_show, buildAst_show ⟨⟨op, rfl, hsafe, hop⟩, ha, hok⟩]
  simp [hf, hg]

/-! ### C29: what is rejected -/

/-- SPEC: reading from the left, no closing parenthesis comes without an open one, and every other token is inside
some parentheses. -/
def prefixOk : ℕ → List Tok → Bool
  | _, [] => true
  | d, t :: ts =>
    if t = ['('] then prefixOk (d + 1) ts
    else if t = [')'] then (match d with | 0 => false | d + 1 => prefixOk d ts)
    else decide (0 < d) && prefixOk d ts

/-- SPEC: the depth after all tokens. -/
def finalDepth : ℤ → List Tok → ℤ
  | d, [] => d
  | d, t :: ts => finalDepth (if t = ['('] then d + 1 else if t = [')'] then d - 1 else d) ts

theorem buildLoop_prefix {st st' : BuildSt} {ts : List Tok} (h : buildLoop st ts = .ok st') :
    prefixOk st.stack.length ts = true := by
  induction ts generalizing st with
  | nil => rfl
  | cons t ts ih =>
    simp only [buildLoop] at h
    cases hs : buildStep st t with
    | error e => rw [hs] at h; cases h
    | ok s2 =>
      rw [hs] at h
      have := ih h
      simp only [prefixOk]
      unfold buildStep at hs
      split at hs
      · cases hs; rename_i h1; simpa [h1] using this
      · rename_i h1
        rw [if_neg h1]
        split at hs
        · rename_i h2
          rw [if_pos h2]
          split at hs
          · cases hs
          · rename_i heq; cases hs; rw [heq]; simpa using this
          · rename_i heq; cases hs; rw [heq]; simpa using this
        · rename_i h2
          rw [if_neg h2]
          split at hs
          · cases hs
          · rename_i heq; cases hs; rw [heq]; simpa using this
          · rename_i heq
            split at hs
            · cases hs; rw [heq]; simpa using this
            · cases hs

/-- **C29** (partial: a missing closing parenthesis and several expressions are accepted, see
`nested_accepts_unbalanced` and `nested_accepts_two`): an accepted string has at least one token, and no closing
parenthesis without an opening one and no token outside parentheses. -/
theorem nested_rejects_partial {s : List Char} {f : Formula} (h : nestedToSmt readReal s = .ok f) :
    tokenize s ≠ [] ∧ prefixOk 0 (tokenize s) = true := by
  unfold nestedToSmt buildAst at h
  constructor
  · intro h0; rw [h0] at h; simp [buildLoop] at h
  · cases hl : buildLoop ⟨[], none⟩ (tokenize s) with
    | error e => rw [hl] at h; cases h
    | ok st => exact buildLoop_prefix hl

/-- The operators of an accepted tree are the documented ones, with the right number of arguments, except that `->`
and `exp` are not accepted. -/
theorem nested_rejects_operator {n : Tok} {cs : List Ast}
    (h : n ∉ nestedOperators ∨ n = ['-', '>'] ∨ arityOk n cs.length = false) :
    ∃ e, astToSmt readReal (.node (some n) cs) = .error e := by
  have hc : arityOk "const".toList cs.length = true := rfl
  have hv : arityOk "var".toList cs.length = true := rfl
  have h1 : n ≠ "const".toList := by
    rintro rfl
    rcases h with h | h | h
    · exact h (by decide)
    · exact absurd h (by decide)
    · rw [hc] at h; cases h
  have h2 : n ≠ "var".toList := by
    rintro rfl
    rcases h with h | h | h
    · exact h (by decide)
    · exact absurd h (by decide)
    · rw [hv] at h; cases h
  rw [astToSmt, if_neg h1, if_neg h2]
  split
  · exact ⟨_, rfl⟩
  · rename_i h3
    simp only [not_or, not_not, List.mem_cons, List.not_mem_nil, or_false] at h3
    rcases h with h | h | h
    · exact absurd h3.2 h
    · exact absurd h h3.1.1
    · exact ⟨_, by rw [if_pos h]⟩

end

/-- A printable notation for all rationals, to show that the hypotheses on constants can be met: a sign, the numerator
and the denominator in unary. -/
def unaryShow (q : ℚ) : Tok :=
  (if q < 0 then '-' else '+') :: List.replicate q.num.natAbs '1' ++ '/' :: List.replicate q.den '1'
/-- The reader of `unaryShow`. -/
def unaryRead : Tok → Option ℚ
  | [] => none
  | c :: t =>
    let n : ℚ := ((t.takeWhile (· == '1')).length : ℚ) / (((t.dropWhile (· == '1')).tail).length : ℚ)
    some (if c = '-' then -n else n)

theorem unary_ok (q : ℚ) : TokSafe (unaryShow q) ∧ unaryRead (unaryShow q) = some q := by
  have htw : ∀ (k : ℕ) (r : List Char), (List.replicate k '1' ++ '/' :: r).takeWhile (· == '1') = List.replicate k '1' := by
    intro k r
    induction k with
    | zero => simp
    | succ k ih => simp [List.replicate_succ, ih]
  have hdw : ∀ (k : ℕ) (r : List Char), (List.replicate k '1' ++ '/' :: r).dropWhile (· == '1') = '/' :: r := by
    intro k r
    induction k with
    | zero => simp
    | succ k ih => simp [List.replicate_succ, ih]
  constructor
  · refine ⟨by simp [unaryShow], fun c hc => ?_⟩
    simp only [unaryShow, List.cons_append, List.mem_cons, List.mem_append, List.mem_replicate] at hc
    rcases hc with h | ⟨-, rfl⟩ | rfl | ⟨-, rfl⟩
    · by_cases hq : q < 0
      · rw [if_pos hq] at h; subst h; decide
      · rw [if_neg hq] at h; subst h; decide
    all_goals decide
  · simp only [unaryShow, List.cons_append, unaryRead, htw, hdw, List.tail_cons, List.length_replicate]
    have hd : ((q.den : ℕ) : ℚ) ≠ 0 := by exact_mod_cast q.den_nz
    have hq := Rat.num_div_den q
    by_cases h : q < 0
    · have h1 : ((q.num.natAbs : ℕ) : ℚ) = -(q.num : ℚ) := by
        have : (q.num.natAbs : ℤ) = -q.num := Int.ofNat_natAbs_of_nonpos (Rat.num_neg.mpr h).le
        rw [← Int.cast_neg, ← this]; simp
      simp only [h, if_true]
      rw [h1, neg_div, neg_neg, hq]
    · have h1 : ((q.num.natAbs : ℕ) : ℚ) = (q.num : ℚ) := by
        have : (q.num.natAbs : ℤ) = q.num := Int.natAbs_of_nonneg (Rat.num_nonneg.mpr (not_lt.mp h))
        rw [← this]; simp
      simp only [h, if_false, if_neg (show ¬('+' = '-') by decide)]
      rw [h1, hq]

/-- The hypotheses of the round trip are met by `sampleFormula` with exact constants. -/
example : ∃ s g, smtToNested unaryShow sampleFormula = .ok s ∧ nestedToSmt unaryRead s = .ok g ∧ wt .bool g = true ∧
    ∀ σ : Env ℚ, den σ .bool g = den σ .bool sampleFormula :=
  nested_roundtrip_partial (Rep := fun _ => True) unaryShow (fun q _ => unary_ok q) (by decide) (by decide +kernel)
    (fun _ _ => trivial) (by decide +kernel)

/-- A missing closing parenthesis is accepted. -/
theorem nested_accepts_unbalanced :
    nestedToSmt unaryRead "(& (var bool a) (var bool b".toList = .ok (.and [.sym "a" .bool, .sym "b" .bool]) ∧
      finalDepth 0 (tokenize "(& (var bool a) (var bool b".toList) = 2 := by decide +kernel

/-- Of several expressions the last one is returned. -/
theorem nested_accepts_two :
    nestedToSmt unaryRead "(var bool a) (var bool b)".toList = .ok (.sym "b" .bool) := by decide +kernel

example : nestedToSmt unaryRead "(var bool a))".toList = .error .indexError := by decide +kernel
example : combinedToWmi unaryRead "(* (<= (var real x) (const real +1/1)) (var real x) (var real y))".toList =
    .ok (.le (.sym "x" .real) (.realC 1), .times [.sym "x" .real, .sym "y" .real]) := by decide +kernel

end Pywmi
