import Verif.Math.Lemmas

set_option linter.unusedSectionVars false
set_option linter.unusedSimpArgs false

/-!
# Correctness of `MathDictConverter` (helper lemmas)
-/

namespace Pywmi
open Formula Prog

mutual
/-- No power with exponent zero occurs. -/
def zeroPowFree : Formula → Bool
  | .and as => zeroPowFreeAll as
  | .or as => zeroPowFreeAll as
  | .implies l r => zeroPowFree l && zeroPowFree r
  | .not a => zeroPowFree a
  | .times as => zeroPowFreeAll as
  | .plus as => zeroPowFreeAll as
  | .minus l r => zeroPowFree l && zeroPowFree r
  | .ite c t e => zeroPowFree c && (zeroPowFree t && zeroPowFree e)
  | .pow b e => zeroPowFree b && decide (e ≠ .realC 0)
  | .le l r => zeroPowFree l && zeroPowFree r
  | .lt l r => zeroPowFree l && zeroPowFree r
  | .equals l r => zeroPowFree l && zeroPowFree r
  | .iff l r => zeroPowFree l && zeroPowFree r
  | _ => true
/-- No power with exponent zero occurs in the list. -/
def zeroPowFreeAll : List Formula → Bool
  | [] => true
  | a :: as => zeroPowFree a && zeroPowFreeAll as
end

theorem zeroPowFreeAll_iff (as : List Formula) :
    zeroPowFreeAll as = true ↔ ∀ a ∈ as, zeroPowFree a = true := by
  induction as with
  | nil => simp [zeroPowFreeAll]
  | cons a as ih => simp [zeroPowFreeAll, ih]

/-- Shape of the keys produced for a term: sorted, over the symbols of the term, and of length at most one in
linear mode. -/
def GoodKey (fl : Bool) (f : Formula) (k : Mono) : Prop :=
  k.Pairwise (· ≤ ·) ∧ (fl = true → k.length ≤ 1) ∧ ∀ n ∈ k, (n, Ty.real) ∈ syms f

theorem sortNames_sorted (m : Mono) : (sortNames m).Pairwise (· ≤ ·) := List.pairwise_insertionSort _ m
theorem sortNames_length (m : Mono) : (sortNames m).length = m.length := List.length_insertionSort _ m
theorem mem_sortNames {m : Mono} {n : String} : n ∈ sortNames m ↔ n ∈ m := List.mem_insertionSort _
theorem sortNames_nil : sortNames [] = [] := rfl

theorem GoodKey.mono {fl : Bool} {f g : Formula} (h : ∀ p ∈ syms f, p ∈ syms g) {k : Mono}
    (hk : GoodKey fl f k) : GoodKey fl g k := ⟨hk.1, hk.2.1, fun n hn => h _ (hk.2.2 n hn)⟩

theorem GoodKey.times {fl : Bool} {f : Formula} {k1 k2 : Mono} (h1 : GoodKey fl f k1) (h2 : GoodKey fl f k2)
    (hno : ¬(k1 ≠ [] ∧ k2 ≠ [] ∧ fl = true)) : GoodKey fl f (sortNames (k1 ++ k2)) := by
  refine ⟨sortNames_sorted _, ?_, ?_⟩
  · intro hf
    rw [sortNames_length, List.length_append]
    have a1 := h1.2.1 hf
    have a2 := h2.2.1 hf
    by_cases e1 : k1 = []
    · subst e1; simpa using a2
    · by_cases e2 : k2 = []
      · subst e2; simpa using a1
      · exact absurd ⟨e1, e2, hf⟩ hno
  · intro n hn
    rw [mem_sortNames, List.mem_append] at hn
    exact hn.elim (h1.2.2 n) (h2.2.2 n)

theorem dictTimes_good {fl : Bool} {f : Formula} {d1 d2 out : Dict} (h1 : KeysIn (GoodKey fl f) d1)
    (h2 : KeysIn (GoodKey fl f) d2) (h : dictTimes fl d1 d2 = .ok out) : KeysIn (GoodKey fl f) out :=
  dictTimes_keys (fun _ _ a b c => a.times b c) h1 h2 h

theorem timesFold_good {fl : Bool} {f : Formula} : ∀ {ds : List Dict} {acc out : Dict},
    KeysNodup acc → KeysIn (GoodKey fl f) acc → (∀ d ∈ ds, KeysIn (GoodKey fl f) d) →
    timesFold fl acc ds = .ok out → KeysNodup out ∧ KeysIn (GoodKey fl f) out := by
  intro ds
  induction ds with
  | nil => intro acc out hn ha _ h; simp [timesFold] at h; subst h; exact ⟨hn, ha⟩
  | cons d ds ih =>
    intro acc out hn ha hd h
    simp only [timesFold] at h
    split at h
    · rename_i acc' h'
      exact ih (dictTimes_nodup h') (dictTimes_good ha (hd d (by simp)) h')
        (fun x hx => hd x (by simp [hx])) h
    · cases h

theorem powLoop_good {fl : Bool} {f : Formula} {base : Dict} (hb : KeysIn (GoodKey fl f) base) :
    ∀ {n : ℕ} {acc out : Dict}, KeysNodup acc → KeysIn (GoodKey fl f) acc →
    powLoop fl base n acc = .ok out → KeysNodup out ∧ KeysIn (GoodKey fl f) out := by
  intro n
  induction n with
  | zero => intro acc out hn ha h; simp [powLoop] at h; subst h; exact ⟨hn, ha⟩
  | succ n ih =>
    intro acc out hn ha h
    simp only [powLoop] at h
    split at h
    · rename_i acc' h'
      exact ih (dictTimes_nodup h') (dictTimes_good ha hb h') h
    · cases h

theorem foldlPlus_good {P : Mono → Prop} (ds : List Dict) : ∀ (d : Dict), KeysNodup d → KeysIn P d →
    (∀ d ∈ ds, KeysIn P d) → KeysNodup (ds.foldl dictPlus d) ∧ KeysIn P (ds.foldl dictPlus d) := by
  induction ds with
  | nil => exact fun d h1 h2 _ => ⟨h1, h2⟩
  | cons a ds ih =>
    intro d h1 h2 h3
    exact ih _ (h1.dictPlus a) (h2.dictPlus (h3 a (by simp))) fun x hx => h3 x (by simp [hx])

/-- What `MathDictConverter` guarantees for a term when it returns. -/
structure MathSpec (K : Type) [Field K] [LinearOrder K] (fl : Bool) (f : Formula) (d : Dict) : Prop where
  nodup : KeysNodup d
  keys : KeysIn (GoodKey fl f) d
  eval : ∀ σ : Env K, polyEval σ.r d = value σ f

theorem rat_pow_exp {q : ℚ} (h : q.den = 1) (h0 : 0 ≤ q.num) (hz : q ≠ 0) :
    q.num.toNat = (q.num - 1).toNat + 1 := by
  have : q.num ≠ 0 := by
    intro h'; exact hz (Rat.num_eq_zero.mp h')
  omega

section
variable {K : Type} [Field K] [LinearOrder K] [IsStrictOrderedRing K]

theorem mapE_spec {I R : Type} {g : I → Except PyErr R} {Q : I → R → Prop} {as : List I} {rs : List R}
    (h : mapE g as = .ok rs) (hQ : ∀ a ∈ as, ∀ r, g a = .ok r → Q a r) : List.Forall₂ Q as rs := by
  have hf := mapE_inv h
  clear h
  induction hf with
  | nil => exact .nil
  | cons hh _ ih => exact .cons (hQ _ (by simp) _ hh) (ih fun a ha => hQ a (by simp [ha]))

theorem mathSpec_list {fl : Bool} {as : List Formula} {ds : List Dict}
    (h : List.Forall₂ (MathSpec K fl) as ds) :
    (∀ x ∈ ds, KeysNodup x ∧ KeysIn (GoodKey fl (.plus as)) x) ∧
      ∀ σ : Env K, ds.map (polyEval σ.r) = as.map (value σ) := by
  constructor
  · intro x hx
    obtain ⟨a, ha, hs⟩ := forall₂_mem_right h x hx
    exact ⟨hs.nodup, fun p hp => (hs.keys p hp).mono fun q hq => by
      simp only [syms, mem_symsList]; exact ⟨a, ha, hq⟩⟩
  · intro σ
    exact forall₂_map_eq (h.imp fun a d hs => hs.eval σ)

theorem mathDict_sound (fl : Bool) (f : Formula) : wt .real f = true →
    (fl = true ∨ zeroPowFree f = true) → ∀ d, mathDict fl f = .ok d → MathSpec K fl f d := by
  induction f using Formula.induct with
  | and as ih => intro h; simp [wt] at h
  | or as ih => intro h; simp [wt] at h
  | implies l r ihl ihr => intro h; simp [wt] at h
  | not a ih => intro h; simp [wt] at h
  | iff l r ihl ihr => intro h; simp [wt] at h
  | le l r ihl ihr => intro h; simp [wt] at h
  | lt l r ihl ihr => intro h; simp [wt] at h
  | equals l r ihl ihr => intro h; simp [wt] at h
  | boolC b => intro h; simp [wt] at h
  | ite c t e _ _ _ => intro _ _ d hd; rw [mathDict_ite] at hd; cases hd
  | sym n t =>
    intro h _ d hd
    cases t with
    | bool => rw [mathDict_sym] at hd; cases hd
    | real =>
      rw [mathDict_sym] at hd
      simp only [Except.ok.injEq] at hd
      subst hd
      refine ⟨by simp [KeysNodup], ?_, fun σ => by simp [value]⟩
      intro p hp
      simp at hp; subst hp
      exact ⟨by simp, by simp, by simp [syms]⟩
  | realC q =>
    intro h _ d hd
    rw [mathDict_real] at hd
    simp only [Except.ok.injEq] at hd
    subst hd
    refine ⟨by simp [KeysNodup], ?_, fun σ => by simp [value]⟩
    intro p hp
    simp at hp; subst hp
    exact ⟨by simp, by simp, by simp⟩
  | plus as ih =>
    intro h hz d hd
    rw [mathDict_plus] at hd
    simp only [wt, Bool.and_eq_true, wtAll_iff] at h
    have hz' : ∀ a ∈ as, fl = true ∨ zeroPowFree a = true := fun a ha =>
      hz.imp id fun h => (zeroPowFreeAll_iff as).mp (by simpa [zeroPowFree] using h) a ha
    cases hm : mapE (mathDict fl) as with
    | error e => rw [hm] at hd; cases hd
    | ok ds =>
      rw [hm] at hd
      simp only at hd
      have hf : List.Forall₂ (MathSpec K fl) as ds :=
        mapE_spec hm fun a ha r hr => ih a ha (h.2 a ha) (hz' a ha) r hr
      obtain ⟨hk, hev⟩ := mathSpec_list hf
      have hk' : ∀ x ∈ ds, KeysNodup x ∧ KeysIn (GoodKey fl (.plus as)) x := fun x hx =>
        ⟨(hk x hx).1, fun p hp => ((hk x hx).2 p hp).mono fun q hq => by simpa [syms] using hq⟩
      cases ds with
      | nil => cases hd
      | cons x xs =>
        have hd0 := hd
        simp only [reducePlus, Except.ok.injEq] at hd
        subst hd
        have := foldlPlus_good xs x (hk' x (by simp)).1 (hk' x (by simp)).2
          fun y hy => (hk' y (by simp [hy])).2
        refine ⟨this.1, this.2, fun σ => ?_⟩
        rw [polyEval_reducePlus σ.r hd0, hev, value, valueSum_eq]
  | times as ih =>
    intro h hz d hd
    rw [mathDict_times] at hd
    simp only [wt, Bool.and_eq_true, wtAll_iff] at h
    have hz' : ∀ a ∈ as, fl = true ∨ zeroPowFree a = true := fun a ha =>
      hz.imp id fun h => (zeroPowFreeAll_iff as).mp (by simpa [zeroPowFree] using h) a ha
    cases hm : mapE (mathDict fl) as with
    | error e => rw [hm] at hd; cases hd
    | ok ds =>
      rw [hm] at hd
      simp only at hd
      have hf : List.Forall₂ (MathSpec K fl) as ds :=
        mapE_spec hm fun a ha r hr => ih a ha (h.2 a ha) (hz' a ha) r hr
      obtain ⟨hk, hev⟩ := mathSpec_list hf
      have hk' : ∀ x ∈ ds, KeysNodup x ∧ KeysIn (GoodKey fl (.times as)) x := fun x hx =>
        ⟨(hk x hx).1, fun p hp => ((hk x hx).2 p hp).mono fun q hq => by simpa [syms] using hq⟩
      cases ds with
      | nil => cases hd
      | cons x xs =>
        have hd0 := hd
        simp only [reduceTimes] at hd
        have := timesFold_good (hk' x (by simp)).1 (hk' x (by simp)).2
          (fun y hy => (hk' y (by simp [hy])).2) hd
        refine ⟨this.1, this.2, fun σ => ?_⟩
        rw [polyEval_reduceTimes σ.r hd0, hev, value, valueProd_eq]
  | minus l r ihl ihr =>
    intro h hz d hd
    rw [mathDict_minus] at hd
    simp only [wt, Bool.and_eq_true] at h
    simp only [zeroPowFree, Bool.and_eq_true] at hz
    cases hl : mathDict fl l with
    | error e => rw [hl] at hd; cases hd
    | ok a =>
      cases hr : mathDict fl r with
      | error e => rw [hl, hr] at hd; cases hd
      | ok b =>
        rw [hl, hr] at hd
        simp only [Except.ok.injEq] at hd
        subst hd
        have ha := ihl h.1 (hz.imp id (·.1)) a hl
        have hb := ihr h.2 (hz.imp id (·.2)) b hr
        refine ⟨ha.nodup.dictPlus _, KeysIn.dictPlus (fun p hp => (ha.keys p hp).mono ?_)
          (KeysIn.dictNeg fun p hp => (hb.keys p hp).mono ?_), fun σ => ?_⟩
        · intro q hq; simp [syms, hq]
        · intro q hq; simp [syms, hq]
        · rw [polyEval_dictPlus, polyEval_dictNeg, ha.eval, hb.eval, value]; ring
  | pow b e ihb ihe =>
    intro h hz d hd
    cases e with
    | realC q =>
      simp only [wt, Bool.and_eq_true, decide_eq_true_eq] at h
      rw [mathDict_pow, if_neg (by simp [h.2.1])] at hd
      split at hd
      · cases hd
      · rename_i hfl
        cases hb : mathDict fl b with
        | error e => rw [hb] at hd; cases hd
        | ok bd =>
          rw [hb] at hd
          simp only at hd
          have hq0 : q ≠ 0 := by
            rcases hz with hz | hz
            · intro h0; subst h0; exact hfl ⟨by decide, hz⟩
            · intro h0; subst h0; simp [zeroPowFree] at hz
          have hs := ihb h.1 (hz.imp id fun hz => by
            simp only [zeroPowFree, Bool.and_eq_true] at hz; exact hz.1) bd hb
          have hk : KeysIn (GoodKey fl (.pow b (.realC q))) bd := fun p hp =>
            (hs.keys p hp).mono fun x hx => by simp [syms, hx]
          have := powLoop_good hk hs.nodup hk hd
          refine ⟨this.1, this.2, fun σ => ?_⟩
          rw [polyEval_powLoop σ.r hd, hs.eval, value, if_pos h.2, rat_pow_exp h.2.1 h.2.2 hq0, pow_succ]
          ring
    | _ => simp [wt] at h
end

/-! ### Success -/

theorem mathDict_error (fl : Bool) (f : Formula) : wt .real f = true →
    ∀ e, mathDict fl f = .error e → e = .valueError := by
  have hmap : ∀ (as : List Formula), (∀ a ∈ as, ∀ e, mathDict fl a = .error e → e = .valueError) →
      ∀ e, mapE (mathDict fl) as = .error e → e = .valueError := by
    intro as
    induction as with
    | nil => intro _ e h; cases h
    | cons a as ih =>
      intro hh e h
      simp only [mapE] at h
      split at h
      · split at h
        · cases h
        · rename_i e' he'
          cases h
          exact ih (fun x hx => hh x (by simp [hx])) _ he'
      · rename_i e' he'
        cases h
        exact hh a (by simp) _ he'
  have hrow : ∀ k1 v1 (d acc : Dict) e, dictTimesRow fl k1 v1 d acc = .error e → e = .valueError := by
    intro k1 v1 d
    induction d with
    | nil => intro acc e h; cases h
    | cons p d ih =>
      intro acc e h
      simp only [dictTimesRow] at h
      split at h
      · cases h; rfl
      · exact ih _ _ h
  have htimes : ∀ d1 d2 e, dictTimes fl d1 d2 = .error e → e = .valueError := by
    intro d1 d2
    unfold dictTimes
    generalize ([] : Dict) = acc
    induction d1 generalizing acc with
    | nil => intro e h; cases h
    | cons p d1 ih =>
      intro e h
      simp only [dictTimesAux] at h
      split at h
      · exact ih _ _ h
      · rename_i he; cases h; exact hrow _ _ _ _ _ he
  have hfold : ∀ ds acc e, timesFold fl acc ds = .error e → e = .valueError := by
    intro ds
    induction ds with
    | nil => intro acc e h; cases h
    | cons d ds ih =>
      intro acc e h
      simp only [timesFold] at h
      split at h
      · exact ih _ _ h
      · rename_i he; cases h; exact htimes _ _ _ he
  have hpow : ∀ base n acc e, powLoop fl base n acc = .error e → e = .valueError := by
    intro base n
    induction n with
    | zero => intro acc e h; cases h
    | succ n ih =>
      intro acc e h
      simp only [powLoop] at h
      split at h
      · exact ih _ _ h
      · rename_i he; cases h; exact htimes _ _ _ he
  induction f using Formula.induct with
  | and as ih => intro h; simp [wt] at h
  | or as ih => intro h; simp [wt] at h
  | implies l r ihl ihr => intro h; simp [wt] at h
  | not a ih => intro h; simp [wt] at h
  | iff l r ihl ihr => intro h; simp [wt] at h
  | le l r ihl ihr => intro h; simp [wt] at h
  | lt l r ihl ihr => intro h; simp [wt] at h
  | equals l r ihl ihr => intro h; simp [wt] at h
  | boolC b => intro h; simp [wt] at h
  | ite c t e _ _ _ => intro _ e he; rw [mathDict_ite] at he; cases he; rfl
  | sym n t =>
    intro h e he
    cases t with
    | bool => simp [wt] at h
    | real => rw [mathDict_sym] at he; cases he
  | realC q => intro _ e he; rw [mathDict_real] at he; cases he
  | plus as ih =>
    intro h e he
    simp only [wt, Bool.and_eq_true, wtAll_iff, Bool.not_eq_true', List.isEmpty_eq_false_iff] at h
    rw [mathDict_plus] at he
    split at he
    · rename_i ds hds
      cases ds with
      | nil =>
        have := mapE_inv hds
        cases this
        exact absurd rfl h.1
      | cons x xs => cases he
    · rename_i e' he'
      cases he
      exact hmap as (fun a ha => ih a ha (h.2 a ha)) _ he'
  | times as ih =>
    intro h e he
    simp only [wt, Bool.and_eq_true, wtAll_iff, Bool.not_eq_true', List.isEmpty_eq_false_iff] at h
    rw [mathDict_times] at he
    split at he
    · rename_i ds hds
      cases ds with
      | nil =>
        have := mapE_inv hds
        cases this
        exact absurd rfl h.1
      | cons x xs => exact hfold _ _ _ he
    · rename_i e' he'
      cases he
      exact hmap as (fun a ha => ih a ha (h.2 a ha)) _ he'
  | minus l r ihl ihr =>
    intro h e he
    simp only [wt, Bool.and_eq_true] at h
    rw [mathDict_minus] at he
    split at he
    · split at he
      · cases he
      · rename_i e' he'; cases he; exact ihr h.2 _ he'
    · rename_i e' he'; cases he; exact ihl h.1 _ he'
  | pow b e ihb ihe =>
    intro h err he
    cases e with
    | realC q =>
      simp only [wt, Bool.and_eq_true, decide_eq_true_eq] at h
      rw [mathDict_pow] at he
      split at he
      · cases he; rfl
      · split at he
        · cases he; rfl
        · split at he
          · exact hpow _ _ _ _ he
          · rename_i e' he'; cases he; exact ihb h.1 _ he'
    | _ => simp [wt] at h

mutual
/-- SPEC: polynomial terms: symbols, constants, sums, differences, products, natural powers. -/
def polyTerm : Formula → Bool
  | .sym _ .real => true
  | .realC _ => true
  | .plus as => !as.isEmpty && polyTermAll as
  | .times as => !as.isEmpty && polyTermAll as
  | .minus l r => polyTerm l && polyTerm r
  | .pow b (.realC q) => polyTerm b && (decide (q.den = 1) && decide (0 ≤ q.num))
  | _ => false
/-- SPEC: all terms of a list are polynomial. -/
def polyTermAll : List Formula → Bool
  | [] => true
  | a :: as => polyTerm a && polyTermAll as
end

mutual
/-- SPEC: linear terms: symbols, constants, sums, differences, products with at most one factor that
mentions a symbol, first powers. -/
def linTerm : Formula → Bool
  | .sym _ .real => true
  | .realC _ => true
  | .plus as => !as.isEmpty && linTermAll as
  | .times as => (!as.isEmpty && linTermAll as) && decide (as.countP (fun a => !(syms a).isEmpty) ≤ 1)
  | .minus l r => linTerm l && linTerm r
  | .pow b (.realC q) => linTerm b && decide (q = 1)
  | _ => false
/-- SPEC: all terms of a list are linear. -/
def linTermAll : List Formula → Bool
  | [] => true
  | a :: as => linTerm a && linTermAll as
end

theorem polyTermAll_iff (as : List Formula) : polyTermAll as = true ↔ ∀ a ∈ as, polyTerm a = true := by
  induction as with
  | nil => simp [polyTermAll]
  | cons a as ih => simp [polyTermAll, ih]
theorem linTermAll_iff (as : List Formula) : linTermAll as = true ↔ ∀ a ∈ as, linTerm a = true := by
  induction as with
  | nil => simp [linTermAll]
  | cons a as ih => simp [linTermAll, ih]

theorem polyTerm_wt (f : Formula) : polyTerm f = true → wt .real f = true := by
  induction f using Formula.induct with
  | plus as ih =>
    intro h
    simp only [polyTerm, wt, Bool.and_eq_true, polyTermAll_iff, wtAll_iff] at h ⊢
    exact ⟨h.1, fun a ha => ih a ha (h.2 a ha)⟩
  | times as ih =>
    intro h
    simp only [polyTerm, wt, Bool.and_eq_true, polyTermAll_iff, wtAll_iff] at h ⊢
    exact ⟨h.1, fun a ha => ih a ha (h.2 a ha)⟩
  | minus l r ihl ihr =>
    intro h
    simp only [polyTerm, wt, Bool.and_eq_true] at h ⊢
    exact ⟨ihl h.1, ihr h.2⟩
  | pow b e ihb _ =>
    intro h
    cases e with
    | realC q =>
      simp only [polyTerm, wt, Bool.and_eq_true] at h ⊢
      exact ⟨ihb h.1, h.2⟩
    | _ => simp [polyTerm] at h
  | sym n t => intro h; cases t <;> simp_all [polyTerm, wt]
  | realC q => intro h; rfl
  | _ => intro h; simp [polyTerm] at h

theorem linTerm_polyTerm (f : Formula) : linTerm f = true → polyTerm f = true := by
  induction f using Formula.induct with
  | plus as ih =>
    intro h
    simp only [polyTerm, linTerm, Bool.and_eq_true, polyTermAll_iff, linTermAll_iff] at h ⊢
    exact ⟨h.1, fun a ha => ih a ha (h.2 a ha)⟩
  | times as ih =>
    intro h
    simp only [polyTerm, linTerm, Bool.and_eq_true, polyTermAll_iff, linTermAll_iff] at h ⊢
    exact ⟨h.1.1, fun a ha => ih a ha (h.1.2 a ha)⟩
  | minus l r ihl ihr =>
    intro h
    simp only [polyTerm, linTerm, Bool.and_eq_true] at h ⊢
    exact ⟨ihl h.1, ihr h.2⟩
  | pow b e ihb _ =>
    intro h
    cases e with
    | realC q =>
      simp only [polyTerm, linTerm, Bool.and_eq_true, decide_eq_true_eq] at h ⊢
      obtain ⟨h1, rfl⟩ := h
      exact ⟨ihb h1, by decide, by decide⟩
    | _ => simp [linTerm] at h
  | sym n t => intro h; cases t <;> simp_all [polyTerm, linTerm]
  | realC q => intro h; rfl
  | _ => intro h; simp [linTerm] at h

theorem mathDict_poly_ok (f : Formula) : polyTerm f = true → ∃ d, mathDict false f = .ok d := by
  induction f using Formula.induct with
  | plus as ih =>
    intro h
    simp only [polyTerm, Bool.and_eq_true, polyTermAll_iff, Bool.not_eq_true',
      List.isEmpty_eq_false_iff] at h
    obtain ⟨ds, hds, hf⟩ := mapE_rel (D := fun _ _ => True) (g := mathDict false) (as := as)
      fun a ha => by obtain ⟨d, hd⟩ := ih a ha (h.2 a ha); exact ⟨d, hd, trivial⟩
    rw [mathDict_plus, hds]
    cases ds with
    | nil => cases hf; exact absurd rfl h.1
    | cons x xs => exact ⟨_, rfl⟩
  | times as ih =>
    intro h
    simp only [polyTerm, Bool.and_eq_true, polyTermAll_iff, Bool.not_eq_true',
      List.isEmpty_eq_false_iff] at h
    obtain ⟨ds, hds, hf⟩ := mapE_rel (D := fun _ _ => True) (g := mathDict false) (as := as)
      fun a ha => by obtain ⟨d, hd⟩ := ih a ha (h.2 a ha); exact ⟨d, hd, trivial⟩
    rw [mathDict_times, hds]
    cases ds with
    | nil => cases hf; exact absurd rfl h.1
    | cons x xs => exact timesFold_false xs x
  | minus l r ihl ihr =>
    intro h
    simp only [polyTerm, Bool.and_eq_true] at h
    obtain ⟨a, ha⟩ := ihl h.1
    obtain ⟨b, hb⟩ := ihr h.2
    exact ⟨_, by rw [mathDict_minus, ha, hb]⟩
  | pow b e ihb _ =>
    intro h
    cases e with
    | realC q =>
      simp only [polyTerm, Bool.and_eq_true, decide_eq_true_eq] at h
      obtain ⟨a, ha⟩ := ihb h.1
      rw [mathDict_pow, if_neg (by simp [h.2.1]), if_neg (by simp), ha]
      exact powLoop_false _ _ _
    | _ => simp [polyTerm] at h
  | sym n t =>
    intro h
    cases t with
    | bool => simp [polyTerm] at h
    | real => exact ⟨_, mathDict_sym false n .real⟩
  | realC q => intro h; exact ⟨_, mathDict_real false q⟩
  | _ => intro h; simp [polyTerm] at h

/-- All keys are the constant key. -/
def ConstDict (d : Dict) : Prop := ∀ p ∈ d, p.1 = []

theorem constDict_of_syms {K : Type} [Field K] [LinearOrder K] {fl : Bool} {f : Formula} {d : Dict}
    (h : MathSpec K fl f d) (hs : syms f = []) : ConstDict d := by
  intro p hp
  have := (h.keys p hp).2.2
  rw [hs] at this
  cases hk : p.1 with
  | nil => rfl
  | cons n k => exact absurd (this n (by simp [hk])) (by simp)

theorem constDict_times {fl : Bool} {d1 d2 out : Dict} (h1 : ConstDict d1) (h2 : ConstDict d2)
    (h : dictTimes fl d1 d2 = .ok out) : ConstDict out :=
  dictTimes_keys (P := fun k => k = []) (P1 := fun k => k = []) (P2 := fun k => k = [])
    (fun _ _ a b _ => by subst a; subst b; rfl) h1 h2 h

theorem timesFold_linear : ∀ (ds : List Dict) (acc : Dict),
    (ConstDict acc ∧ ds.countP (fun d => !(d.all fun p => p.1 == [])) ≤ 1) ∨ (∀ d ∈ ds, ConstDict d) →
    ∃ out, timesFold true acc ds = .ok out := by
  intro ds
  induction ds with
  | nil => exact fun acc _ => ⟨_, rfl⟩
  | cons d ds ih =>
    intro acc h
    have hall : ∀ x : Dict, ConstDict x ↔ (x.all fun p => p.1 == []) = true := by
      intro x; simp [ConstDict]
    have hok : ∃ o, dictTimes true acc d = .ok o := by
      rcases h with ⟨h1, _⟩ | h
      · exact dictTimes_linear (.inl h1)
      · exact dictTimes_linear (.inr (h d (by simp)))
    obtain ⟨o, ho⟩ := hok
    simp only [timesFold, ho]
    apply ih
    rcases h with ⟨h1, h2⟩ | h
    · by_cases hd : ConstDict d
      · left
        refine ⟨constDict_times h1 hd ho, ?_⟩
        rw [List.countP_cons] at h2
        omega
      · right
        have hd' : (d.all fun p => p.1 == []) = false := by
          rw [← Bool.not_eq_true]; exact fun hh => hd ((hall d).mpr hh)
        rw [List.countP_cons, hd'] at h2
        simp only [Bool.not_false, if_true] at h2
        have h0 : List.countP (fun d => !(d.all fun p => p.1 == [])) ds = 0 := by omega
        rw [List.countP_eq_zero] at h0
        intro x hx
        rw [hall]
        have := h0 x hx
        simpa using this
    · right; exact fun x hx => h x (by simp [hx])

theorem mathDict_lin_ok (f : Formula) : linTerm f = true → ∃ d, mathDict true f = .ok d := by
  induction f using Formula.induct with
  | plus as ih =>
    intro h
    simp only [linTerm, Bool.and_eq_true, linTermAll_iff, Bool.not_eq_true',
      List.isEmpty_eq_false_iff] at h
    obtain ⟨ds, hds, hf⟩ := mapE_rel (D := fun _ _ => True) (g := mathDict true) (as := as)
      fun a ha => by obtain ⟨d, hd⟩ := ih a ha (h.2 a ha); exact ⟨d, hd, trivial⟩
    rw [mathDict_plus, hds]
    cases ds with
    | nil => cases hf; exact absurd rfl h.1
    | cons x xs => exact ⟨_, rfl⟩
  | times as ih =>
    intro h
    simp only [linTerm, Bool.and_eq_true, linTermAll_iff, Bool.not_eq_true',
      List.isEmpty_eq_false_iff, decide_eq_true_eq] at h
    obtain ⟨⟨h1, h2⟩, h3⟩ := h
    obtain ⟨ds, hds, hf⟩ := mapE_rel (D := fun a d => syms a = [] → ConstDict d) (g := mathDict true)
      (as := as) fun a ha => by
        obtain ⟨d, hd⟩ := ih a ha (h2 a ha)
        exact ⟨d, hd, fun hs => constDict_of_syms (K := ℚ)
          (mathDict_sound true a (polyTerm_wt a (linTerm_polyTerm a (h2 a ha))) (.inl rfl) d hd) hs⟩
    rw [mathDict_times, hds]
    have hcount : ds.countP (fun d => !(d.all fun p => p.1 == [])) ≤
        as.countP (fun a => !(syms a).isEmpty) := by
      clear hds h1 h2 h3 ih
      induction hf with
      | nil => simp
      | @cons a d as ds hd _ ih =>
        rw [List.countP_cons, List.countP_cons]
        by_cases hs : syms a = []
        · have : (d.all fun p => p.1 == []) = true := by simpa [ConstDict] using hd hs
          simp only [this, hs]; simpa using ih
        · have : (syms a).isEmpty = false := by simpa using hs
          simp only [this]
          simp only [Bool.not_false, if_true]
          split <;> omega
    cases ds with
    | nil => cases hf; exact absurd rfl h1
    | cons x xs =>
      simp only [reduceTimes]
      apply timesFold_linear
      have hc := hcount.trans h3
      rw [List.countP_cons] at hc
      by_cases hx : ConstDict x
      · left; exact ⟨hx, by omega⟩
      · right
        have hx' : (x.all fun p => p.1 == []) = false := by
          rw [← Bool.not_eq_true]; intro hh; apply hx; simpa [ConstDict] using hh
        simp only [hx', Bool.not_false, if_true] at hc
        have h0 : List.countP (fun d => !(d.all fun p => p.1 == [])) xs = 0 := by omega
        rw [List.countP_eq_zero] at h0
        intro y hy
        simpa [ConstDict] using h0 y hy
  | minus l r ihl ihr =>
    intro h
    simp only [linTerm, Bool.and_eq_true] at h
    obtain ⟨a, ha⟩ := ihl h.1
    obtain ⟨b, hb⟩ := ihr h.2
    exact ⟨_, by rw [mathDict_minus, ha, hb]⟩
  | pow b e ihb _ =>
    intro h
    cases e with
    | realC q =>
      simp only [linTerm, Bool.and_eq_true, decide_eq_true_eq] at h
      obtain ⟨h1, rfl⟩ := h
      obtain ⟨a, ha⟩ := ihb h1
      rw [mathDict_pow, if_neg (by decide), if_neg (by decide), ha]
      exact ⟨a, rfl⟩
    | _ => simp [linTerm] at h
  | sym n t =>
    intro h
    cases t with
    | bool => simp [linTerm] at h
    | real => exact ⟨_, mathDict_sym true n .real⟩
  | realC q => intro h; exact ⟨_, mathDict_real true q⟩
  | _ => intro h; simp [linTerm] at h

end Pywmi
