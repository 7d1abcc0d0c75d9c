import Verif.Props.Parse

set_option linter.unusedSectionVars false
set_option linter.unusedSimpArgs false

/-!
# C68: what a nested text means

`nested_round_trip` speaks only about texts that the printer writes, and the printer never writes `>` or `>=`.  The
theorem here is about every text of the language: it is read as the formula with the mathematical meaning of its
operators.
-/

namespace Pywmi
open Formula

/-- A leaf of a text. -/
abbrev word (s : String) : Ast := .node (some s.toList) []

/-- An operator with its arguments. -/
abbrev opn (s : String) (cs : List Ast) : Ast := .node (some s.toList) cs

section
variable {K : Type} [Field K] [LinearOrder K] [IsStrictOrderedRing K] {readReal : Tok → Option ℚ}

/-- SPEC: the meaning of a nested text, as a function of the assignment.  `number` says which rational a token denotes.
The language is that of /repo/pywmi/parse.py:77-136 with the usual meaning of the signs.  The constant `False` is left
out (`nested_false_becomes_true` shows that it is read as true), as are exponents that are not natural numbers. -/
inductive Says (number : Tok → Option ℚ) : Ty → Ast → (Env K → Val K) → Prop
  | tt : Says number .bool (opn "const" [word "bool", word "True"]) fun _ => .b true
  | num (t : Tok) (q : ℚ) (h : number t = some q) :
      Says number .real (opn "const" [word "real", .node (some t) []]) fun _ => .r (q : K)
  | varB (x : String) : Says number .bool (opn "var" [word "bool", word x]) fun σ => .b (σ.b x)
  | varR (x : String) : Says number .real (opn "var" [word "real", word x]) fun σ => .r (σ.r x)
  | ite (ty : Ty) (c t e : Ast) (φ : Env K → Bool) (v w : Env K → Val K) (hc : Says number .bool c fun σ => .b (φ σ))
      (ht : Says number ty t v) (he : Says number ty e w) :
      Says number ty (opn "ite" [c, t, e]) fun σ => if φ σ then v σ else w σ
  | not (c : Ast) (φ : Env K → Bool) (hc : Says number .bool c fun σ => .b (φ σ)) :
      Says number .bool (opn "~" [c]) fun σ => .b !φ σ
  | and (cs : List Ast) (φ : Ast → Env K → Bool) (h : ∀ c ∈ cs, Says number .bool c fun σ => .b (φ c σ)) :
      Says number .bool (opn "&" cs) fun σ => .b (cs.all fun c => φ c σ)
  | or (cs : List Ast) (φ : Ast → Env K → Bool) (h : ∀ c ∈ cs, Says number .bool c fun σ => .b (φ c σ)) :
      Says number .bool (opn "|" cs) fun σ => .b (cs.any fun c => φ c σ)
  | times (cs : List Ast) (v : Ast → Env K → K) (hne : cs ≠ []) (h : ∀ c ∈ cs, Says number .real c fun σ => .r (v c σ)) :
      Says number .real (opn "*" cs) fun σ => .r (cs.map fun c => v c σ).prod
  | plus (cs : List Ast) (v : Ast → Env K → K) (hne : cs ≠ []) (h : ∀ c ∈ cs, Says number .real c fun σ => .r (v c σ)) :
      Says number .real (opn "+" cs) fun σ => .r (cs.map fun c => v c σ).sum
  | minus (l r : Ast) (v w : Env K → K) (hl : Says number .real l fun σ => .r (v σ))
      (hr : Says number .real r fun σ => .r (w σ)) : Says number .real (opn "-" [l, r]) fun σ => .r (v σ - w σ)
  | pow (b : Ast) (v : Env K → K) (t : Tok) (n : ℕ) (hb : Says number .real b fun σ => .r (v σ))
      (hn : number t = some (n : ℚ)) :
      Says number .real (opn "^" [b, opn "const" [word "real", .node (some t) []]]) fun σ => .r (v σ ^ n)
  | le (l r : Ast) (v w : Env K → K) (hl : Says number .real l fun σ => .r (v σ))
      (hr : Says number .real r fun σ => .r (w σ)) : Says number .bool (opn "<=" [l, r]) fun σ => .b (decide (v σ ≤ w σ))
  | ge (l r : Ast) (v w : Env K → K) (hl : Says number .real l fun σ => .r (v σ))
      (hr : Says number .real r fun σ => .r (w σ)) : Says number .bool (opn ">=" [l, r]) fun σ => .b (decide (v σ ≥ w σ))
  | lt (l r : Ast) (v w : Env K → K) (hl : Says number .real l fun σ => .r (v σ))
      (hr : Says number .real r fun σ => .r (w σ)) : Says number .bool (opn "<" [l, r]) fun σ => .b (decide (v σ < w σ))
  | gt (l r : Ast) (v w : Env K → K) (hl : Says number .real l fun σ => .r (v σ))
      (hr : Says number .real r fun σ => .r (w σ)) : Says number .bool (opn ">" [l, r]) fun σ => .b (decide (v σ > w σ))
  | eq (l r : Ast) (v w : Env K → K) (hl : Says number .real l fun σ => .r (v σ))
      (hr : Says number .real r fun σ => .r (w σ)) : Says number .bool (opn "=" [l, r]) fun σ => .b (decide (v σ = w σ))

/-- A list of texts that are all read. -/
theorem astList_read {ty : Ty} {cs : List Ast} {v : Ast → Env K → Val K}
    (h : ∀ c ∈ cs, ∃ f, astToSmt readReal c = .ok f ∧ wt ty f = true ∧ ∀ σ : Env K, den σ ty f = v c σ) :
    ∃ fs, astListToSmt readReal cs = .ok fs ∧
      List.Forall₂ (fun c f => wt ty f = true ∧ ∀ σ : Env K, den σ ty f = v c σ) cs fs := by
  induction cs with
  | nil => exact ⟨[], rfl, .nil⟩
  | cons c cs ih =>
    obtain ⟨f, h1, h2, h3⟩ := h c (by simp)
    obtain ⟨fs, h4, h5⟩ := ih fun d hd => h d (by simp [hd])
    exact ⟨f :: fs, by simp [astListToSmt, h1, h4], .cons ⟨h2, h3⟩ h5⟩

/-- The last step of reading an operator. -/
theorem astToSmt_op {op : Tok} {cs : List Ast} {gs : List Formula}
    (hplain : op ∉ ["const".toList, "var".toList, ['-', '>'], "exp".toList]) (hop : op ∈ nestedOperators)
    (har : arityOk op cs.length = true) (hgs : astListToSmt readReal cs = .ok gs) :
    astToSmt readReal (.node (some op) cs) = applyOp op gs := by
  simp only [List.mem_cons, List.not_mem_nil, or_false, not_or] at hplain
  have : ¬(op ∈ [['-', '>'], "exp".toList] ∨ op ∉ nestedOperators) := by
    simp only [List.mem_cons, List.not_mem_nil, or_false, not_or, not_not]
    exact ⟨⟨hplain.2.2.1, hplain.2.2.2⟩, hop⟩
  rw [astToSmt, if_neg hplain.1, if_neg hplain.2.1, if_neg this, if_neg (by rw [har]; simp), hgs]

theorem forall₂_wt {ty : Ty} {cs : List Ast} {v : Ast → Env K → Val K} {fs : List Formula}
    (h : List.Forall₂ (fun c f => wt ty f = true ∧ ∀ σ : Env K, den σ ty f = v c σ) cs fs) : ∀ f ∈ fs, wt ty f = true := by
  intro f hf
  obtain ⟨c, _, h⟩ := forall₂_mem_right h f hf
  exact h.1

theorem forall₂_truths {cs : List Ast} {φ : Ast → Env K → Bool} {fs : List Formula} (σ : Env K)
    (h : List.Forall₂ (fun c f => wt .bool f = true ∧ ∀ σ : Env K, den σ .bool f = .b (φ c σ)) cs fs) :
    fs.map (truth σ) = cs.map fun c => φ c σ := by
  induction h with
  | nil => rfl
  | cons h _ ih => have := h.2 σ; simp only [den, Val.b.injEq] at this; simp [this, ih]

theorem forall₂_values {cs : List Ast} {v : Ast → Env K → K} {fs : List Formula} (σ : Env K)
    (h : List.Forall₂ (fun c f => wt .real f = true ∧ ∀ σ : Env K, den σ .real f = .r (v c σ)) cs fs) :
    fs.map (value σ) = cs.map fun c => v c σ := by
  induction h with
  | nil => rfl
  | cons h _ ih => have := h.2 σ; simp only [den, Val.r.injEq] at this; simp [this, ih]

/-- Every tree with a meaning is read as a formula with that meaning. -/
theorem ast_meaning {ty : Ty} {a : Ast} {v : Env K → Val K} (h : Says readReal ty a v) :
    ∃ f, astToSmt readReal a = .ok f ∧ wt ty f = true ∧ ∀ σ : Env K, den σ ty f = v σ := by
  have bin : ∀ {op : Tok} {l r : Ast} {f g : Formula}, astToSmt readReal l = .ok f → astToSmt readReal r = .ok g →
      op ∈ [['-'], ['<', '='], ['>', '='], ['<'], ['>'], ['=']] →
      astToSmt readReal (.node (some op) [l, r]) = applyOp op [f, g] := by
    intro op l r f g h1 h2 hop
    refine astToSmt_op ?_ ?_ ?_ (by simp [astListToSmt, h1, h2])
    all_goals
      simp only [List.mem_cons, List.not_mem_nil, or_false] at hop
      rcases hop with rfl | rfl | rfl | rfl | rfl | rfl <;> first | rfl | decide
  induction h with
  | tt => exact ⟨.boolC true, by rfl, rfl, fun σ => rfl⟩
  | num t q h =>
    refine ⟨.realC q, ?_, rfl, fun σ => rfl⟩
    rw [astToSmt, if_pos rfl, constToSmt]
    simp [Ast.name, h]
  | varB x =>
    refine ⟨.sym x .bool, ?_, rfl, fun σ => rfl⟩
    rw [astToSmt, if_neg (by decide), if_pos rfl, varToSmt]
    simp [Ast.name]
  | varR x =>
    refine ⟨.sym x .real, ?_, rfl, fun σ => rfl⟩
    rw [astToSmt, if_neg (by decide), if_pos rfl, varToSmt]
    simp [Ast.name]
  | ite ty c t e φ v w _ _ _ ihc iht ihe =>
    obtain ⟨f, h1, h2, h3⟩ := ihc
    obtain ⟨g, h4, h5, h6⟩ := iht
    obtain ⟨k, h7, h8, h9⟩ := ihe
    have hw : wt ty (.ite f g k) = true := by cases ty <;> simp [wt, h2, h5, h8]
    refine ⟨.ite f g k, ?_, hw, fun σ => ?_⟩
    · rw [astToSmt_op (gs := [f, g, k]) (by decide) (by decide) rfl (by simp [astListToSmt, h1, h4, h7])]
      simp [applyOp, checked_wt hw]
    · have := h3 σ; simp only [den, Val.b.injEq] at this
      have e1 := h6 σ; have e2 := h9 σ
      cases ty <;> simp only [den] at e1 e2 ⊢ <;> simp only [truth, value, this] <;> split <;> assumption
  | not c φ _ ih =>
    obtain ⟨f, h1, h2, h3⟩ := ih
    refine ⟨mkNot f, ?_, wt_mkNot h2, fun σ => ?_⟩
    · rw [astToSmt_op (gs := [f]) (by decide) (by decide) rfl (by simp [astListToSmt, h1])]
      simp [applyOp, checked_wt (wt_mkNot h2)]
    · have := h3 σ; simp only [den, Val.b.injEq] at this
      simp [den, this]
  | and cs φ _ ih =>
    obtain ⟨fs, h1, h2⟩ := astList_read ih
    have hw := wt_mkAnd (forall₂_wt h2)
    refine ⟨mkAnd fs, ?_, hw, fun σ => ?_⟩
    · rw [astToSmt_op (gs := fs) (by decide) (by decide) rfl h1]
      simp [applyOp, checked_wt hw]
    · have := congrArg (fun l => l.all id) (forall₂_truths σ h2)
      simp only [den, truth_mkAnd, Val.b.injEq]
      simpa [List.all_map, Function.comp_def] using this
  | or cs φ _ ih =>
    obtain ⟨fs, h1, h2⟩ := astList_read ih
    have hw := wt_mkOr (forall₂_wt h2)
    refine ⟨mkOr fs, ?_, hw, fun σ => ?_⟩
    · rw [astToSmt_op (gs := fs) (by decide) (by decide) rfl h1]
      simp [applyOp, checked_wt hw]
    · have := congrArg (fun l => l.any id) (forall₂_truths σ h2)
      simp only [den, truth_mkOr, Val.b.injEq]
      simpa [List.any_map, Function.comp_def] using this
  | times cs v hne _ ih =>
    obtain ⟨fs, h1, h2⟩ := astList_read ih
    obtain ⟨f, hf⟩ := mkTimes_ok (forall₂_ne_nil h2 hne)
    have hw := wt_mkTimes (forall₂_wt h2) hf
    refine ⟨f, ?_, hw, fun σ => ?_⟩
    · rw [astToSmt_op (gs := fs) (by decide) (by decide) rfl h1]
      simp [applyOp, checkedE, hf, checked_wt hw]
    · simp only [den, value_mkTimes hf, forall₂_values σ h2]
  | plus cs v hne _ ih =>
    obtain ⟨fs, h1, h2⟩ := astList_read ih
    obtain ⟨f, hf⟩ := mkPlus_ok (forall₂_ne_nil h2 hne)
    have hw := wt_mkPlus (forall₂_wt h2) hf
    refine ⟨f, ?_, hw, fun σ => ?_⟩
    · rw [astToSmt_op (gs := fs) (by decide) (by decide) rfl h1]
      simp [applyOp, checkedE, hf, checked_wt hw]
    · simp only [den, value_mkPlus hf, forall₂_values σ h2]
  | minus l r v w _ _ ihl ihr =>
    obtain ⟨f, h1, h2, h3⟩ := ihl
    obtain ⟨g, h4, h5, h6⟩ := ihr
    have hw : wt .real (.minus f g) = true := by simp [wt, h2, h5]
    refine ⟨.minus f g, by rw [bin h1 h4 (by decide)]; simp [applyOp, checked_wt hw], hw, fun σ => ?_⟩
    have e1 := h3 σ; have e2 := h6 σ
    simp only [den, Val.r.injEq] at e1 e2 ⊢
    simp [value, e1, e2]
  | pow b v t n _ hn ih =>
    obtain ⟨f, h1, h2, h3⟩ := ih
    have hc : astToSmt readReal (opn "const" [word "real", .node (some t) []]) = .ok (.realC (n : ℚ)) := by
      rw [astToSmt, if_pos rfl, constToSmt]; simp [Ast.name, hn]
    have key : ∃ g, mkPow f (.realC (n : ℚ)) = .ok g ∧ wt .real g = true ∧ ∀ σ : Env K, value σ g = value σ f ^ n := by
      by_cases hf : ∃ c, f = .realC c
      · obtain ⟨c, rfl⟩ := hf
        exact ⟨.realC (c ^ n), by simp [mkPow], rfl, fun σ => by simp [value]⟩
      · refine ⟨.pow f (.realC (n : ℚ)), ?_, by simp [wt, h2], fun σ => by simp [value]⟩
        unfold mkPow
        split
        · rename_i heq
          simp only [Formula.realC.injEq] at heq
          subst heq
          split
          · exact absurd ⟨_, rfl⟩ hf
          · rfl
        · rename_i hx; exact absurd rfl (hx _)
    obtain ⟨g, k1, k2, k3⟩ := key
    refine ⟨g, ?_, k2, fun σ => ?_⟩
    · rw [astToSmt_op (gs := [f, .realC (n : ℚ)]) (by decide) (by decide) rfl (by simp [astListToSmt, h1, hc])]
      simp [applyOp, checkedE, k1, checked_wt k2]
    · have e1 := h3 σ
      simp only [den, Val.r.injEq] at e1 ⊢
      rw [k3, e1]
  | le l r v w _ _ ihl ihr =>
    obtain ⟨f, h1, h2, h3⟩ := ihl
    obtain ⟨g, h4, h5, h6⟩ := ihr
    have hw : wt .bool (.le f g) = true := by simp [wt, h2, h5]
    refine ⟨.le f g, by rw [bin h1 h4 (by decide)]; simp [applyOp, checked_wt hw], hw, fun σ => ?_⟩
    have e1 := h3 σ; have e2 := h6 σ
    simp only [den, Val.r.injEq, Val.b.injEq] at e1 e2 ⊢
    simp [truth, e1, e2]
  | ge l r v w _ _ ihl ihr =>
    obtain ⟨f, h1, h2, h3⟩ := ihl
    obtain ⟨g, h4, h5, h6⟩ := ihr
    have hw : wt .bool (.le g f) = true := by simp [wt, h2, h5]
    refine ⟨.le g f, by rw [bin h1 h4 (by decide)]; simp [applyOp, checked_wt hw], hw, fun σ => ?_⟩
    have e1 := h3 σ; have e2 := h6 σ
    simp only [den, Val.r.injEq, Val.b.injEq] at e1 e2 ⊢
    simp [truth, e1, e2]
  | lt l r v w _ _ ihl ihr =>
    obtain ⟨f, h1, h2, h3⟩ := ihl
    obtain ⟨g, h4, h5, h6⟩ := ihr
    have hw : wt .bool (.lt f g) = true := by simp [wt, h2, h5]
    refine ⟨.lt f g, by rw [bin h1 h4 (by decide)]; simp [applyOp, checked_wt hw], hw, fun σ => ?_⟩
    have e1 := h3 σ; have e2 := h6 σ
    simp only [den, Val.r.injEq, Val.b.injEq] at e1 e2 ⊢
    simp [truth, e1, e2]
  | gt l r v w _ _ ihl ihr =>
    obtain ⟨f, h1, h2, h3⟩ := ihl
    obtain ⟨g, h4, h5, h6⟩ := ihr
    have hw : wt .bool (.lt g f) = true := by simp [wt, h2, h5]
    refine ⟨.lt g f, by rw [bin h1 h4 (by decide)]; simp [applyOp, checked_wt hw], hw, fun σ => ?_⟩
    have e1 := h3 σ; have e2 := h6 σ
    simp only [den, Val.r.injEq, Val.b.injEq] at e1 e2 ⊢
    simp [truth, e1, e2]
  | eq l r v w _ _ ihl ihr =>
    obtain ⟨f, h1, h2, h3⟩ := ihl
    obtain ⟨g, h4, h5, h6⟩ := ihr
    have hw : wt .bool (.equals f g) = true := by simp [wt, h2, h5]
    refine ⟨.equals f g, by rw [bin h1 h4 (by decide)]; simp [applyOp, checked_wt hw], hw, fun σ => ?_⟩
    have e1 := h3 σ; have e2 := h6 σ
    simp only [den, Val.r.injEq, Val.b.injEq] at e1 e2 ⊢
    simp [truth, e1, e2]

/-- **C68.** Every nested text is read as the formula it says, however its tokens are laid out: if the tokens of a text
are those of a tree with a meaning, reading it succeeds and the formula has the type and, at every assignment, the value
of that meaning. -/
theorem nested_meaning_partial {ty : Ty} {n : Option Tok} {c : Ast} {cs : List Ast} {v : Env K → Val K} {s : List Char}
    (h : Says readReal ty (.node n (c :: cs)) v) (hok : AstOk (.node n (c :: cs)))
    (hs : tokenize s = tokenize (showAst (.node n (c :: cs)))) :
    ∃ f, nestedToSmt readReal s = .ok f ∧ wt ty f = true ∧ ∀ σ : Env K, den σ ty f = v σ := by
  obtain ⟨f, h1, h2, h3⟩ := ast_meaning h
  refine ⟨f, ?_, h2, h3⟩
  rw [nestedToSmt, hs, buildAst_show hok]
  exact h1

/-- The combined format: a text of the shape `(* support weight)` is read as a support and a weight, each with
its own meaning (the weight is the product of all parts but the first). -/
theorem combined_meaning_partial {c d : Ast} {cs : List Ast} {φ : Env K → Bool} {w : Env K → K} {s : List Char}
    (hc : Says readReal .bool c fun σ => .b (φ σ)) (hd : Says readReal .real (opn "*" (d :: cs)) fun σ => .r (w σ))
    (hok : AstOk (opn "*" (c :: d :: cs))) (hs : tokenize s = tokenize (showAst (opn "*" (c :: d :: cs)))) :
    ∃ f g, combinedToWmi readReal s = .ok (f, g) ∧ wt .bool f = true ∧ wt .real g = true ∧
      ∀ σ : Env K, truth σ f = φ σ ∧ value σ g = w σ := by
  obtain ⟨f, h1, h2, h3⟩ := ast_meaning hc
  obtain ⟨g, h4, h5, h6⟩ := ast_meaning hd
  refine ⟨f, g, ?_, h2, h5, fun σ => ?_⟩
  · rw [combinedToWmi, hs, buildAst_show hok]
    simp only [h1]
    have h4' : astToSmt readReal (.node (some "*".toList) (d :: cs)) = .ok g := h4
    simp only [h4']
  · have e1 := h3 σ; have e2 := h6 σ
    simp only [den, Val.r.injEq, Val.b.injEq] at e1 e2
    exact ⟨e1, e2⟩
end

/-- The text `(> (var real x) (^ (var real y) (const real 2)))` with odd spacing. -/
example : ∃ f, nestedToSmt (fun t => if t = ['2'] then some 2 else none)
      "( >  (var real x)(^ (var real y) (const real 2) ) )".toList = .ok f ∧ wt .bool f = true ∧
      ∀ σ : Env ℚ, den σ .bool f = .b (decide (σ.r "x" > σ.r "y" ^ 2)) := by
  have hx : Says (K := ℚ) (fun t => if t = ['2'] then some 2 else none) .real _ _ := .varR "x"
  have hy : Says (K := ℚ) (fun t => if t = ['2'] then some 2 else none) .real _ _ := .varR "y"
  have hp := Says.pow _ _ ['2'] 2 hy (by simp)
  refine nested_meaning_partial (Says.gt _ _ _ _ hx hp) ?_ (by decide +kernel)
  simp only [AstOk, AstAllOk, and_true]
  refine ⟨⟨_, rfl, by decide, by decide⟩, ⟨⟨_, rfl, by decide, by decide⟩, ⟨_, rfl, by decide⟩, ⟨_, rfl, by decide⟩⟩,
    ⟨_, rfl, by decide, by decide⟩, ⟨⟨_, rfl, by decide, by decide⟩, ⟨_, rfl, by decide⟩, ⟨_, rfl, by decide⟩⟩,
    ⟨_, rfl, by decide, by decide⟩, ⟨_, rfl, by decide⟩, ⟨_, rfl, by decide⟩⟩

end Pywmi
