import Verif.Props.Xsdd

set_option linter.unusedSectionVars false
set_option linter.unusedSimpArgs false

/-!
# C46: weights that are converted without a clash

A condition on the weight itself: if the terms obtained by multiplying out sums and case distinctions are different
functions, no two pieces ever meet and the conversion is exact.
-/

namespace Pywmi
open Formula Prog

/-! ## Specification -/

section
variable {K : Type} [Field K] [LinearOrder K] [IsStrictOrderedRing K]

/-- SPEC: all products of a function of the first list and one of the second, row by row. -/
def prodTerms (A B : List (Env K → K)) : List (Env K → K) := A.flatMap fun a => B.map fun b => a * b

/-- SPEC: the products of `n + 1` functions of a list. -/
def powTerms (A : List (Env K → K)) : ℕ → List (Env K → K)
  | 0 => A
  | n + 1 => prodTerms (powTerms A n) A

variable (K) in
mutual
/-- SPEC: the terms of a weight after multiplying out sums and case distinctions, as functions. -/
def termsOf : Formula → List (Env K → K)
  | .plus as => sumTerms as
  | .times (a :: as) => factorTerms (termsOf a) as
  | .minus l r => termsOf l ++ (termsOf r).map fun t => -t
  | .ite _ t e => termsOf t ++ termsOf e
  | .pow b (.realC q) => if q.num = 0 then [fun _ => 1] else powTerms (termsOf b) (q.num.toNat - 1)
  | f => [fun σ => value σ f]
/-- The terms of all summands. -/
def sumTerms : List Formula → List (Env K → K)
  | [] => []
  | a :: as => termsOf a ++ sumTerms as
/-- The products of a term so far and a term of each further factor. -/
def factorTerms : List (Env K → K) → List Formula → List (Env K → K)
  | A, [] => A
  | A, a :: as => factorTerms (prodTerms A (termsOf a)) as
end

mutual
/-- SPEC: the bases of the powers with exponent 0, which the code converts although their value does not matter. -/
def zeroBases : Formula → List Formula
  | .plus as => zeroBasesList as
  | .times as => zeroBasesList as
  | .minus l r => zeroBases l ++ zeroBases r
  | .ite _ t e => zeroBases t ++ zeroBases e
  | .pow b (.realC q) => (if q.num = 0 then [b] else []) ++ zeroBases b
  | _ => []
/-- Of all formulas of a list. -/
def zeroBasesList : List Formula → List Formula
  | [] => []
  | a :: as => zeroBases a ++ zeroBasesList as
end

theorem mem_zeroBasesList {b : Formula} {as : List Formula} : b ∈ zeroBasesList as ↔ ∃ a ∈ as, b ∈ zeroBases a := by
  induction as with
  | nil => simp [zeroBasesList]
  | cons a as ih => simp [zeroBasesList, ih]

/-- SPEC: the expressions of the pieces, as functions. -/
def Pieces.funs (K : Type) [Field K] (P : Pieces) : List (Env K → K) := P.map fun p σ => p.1.eval σ.r

/-! ## Lists of functions -/

theorem prodTerms_cons (a : Env K → K) (A B : List (Env K → K)) :
    prodTerms (a :: A) B = (B.map fun b => a * b) ++ prodTerms A B := rfl

theorem prodTerms_sublist {A A' B B' : List (Env K → K)} (hA : A.Sublist A') (hB : B.Sublist B') :
    (prodTerms A B).Sublist (prodTerms A' B') := by
  induction hA with
  | slnil => exact List.Sublist.refl _
  | cons a _ ih => rw [prodTerms_cons]; exact ih.trans (List.sublist_append_right ..)
  | cons_cons a _ ih => rw [prodTerms_cons, prodTerms_cons]; exact (hB.map _).append ih

theorem prodTerms_nodup_left {A B : List (Env K → K)} (hB : B ≠ []) (h : (prodTerms A B).Nodup) : A.Nodup := by
  obtain ⟨b, hb⟩ := List.exists_mem_of_ne_nil B hB
  induction A with
  | nil => exact List.nodup_nil
  | cons a A ih =>
    rw [prodTerms_cons, List.nodup_append] at h
    refine List.nodup_cons.mpr ⟨fun ha => ?_, ih h.2.1⟩
    exact h.2.2 _ (List.mem_map.mpr ⟨b, hb, rfl⟩) _
      (List.mem_flatMap.mpr ⟨a, ha, List.mem_map.mpr ⟨b, hb, rfl⟩⟩) rfl

theorem prodTerms_nodup_right {A B : List (Env K → K)} (hA : A ≠ []) (h : (prodTerms A B).Nodup) : B.Nodup := by
  cases A with
  | nil => exact absurd rfl hA
  | cons a A =>
    rw [prodTerms_cons, List.nodup_append] at h
    exact h.1.of_map

theorem prodTerms_ne {A B : List (Env K → K)} (hA : A ≠ []) (hB : B ≠ []) : prodTerms A B ≠ [] := by
  cases A with
  | nil => exact absurd rfl hA
  | cons a A => rw [prodTerms_cons]; simp [hB]

theorem powTerms_ne {A : List (Env K → K)} (hA : A ≠ []) : ∀ n, powTerms A n ≠ []
  | 0 => hA
  | n + 1 => prodTerms_ne (powTerms_ne hA n) hA

theorem powTerms_nodup {A : List (Env K → K)} (hA : A ≠ []) : ∀ n, (powTerms A n).Nodup → A.Nodup
  | 0, h => h
  | _ + 1, h => prodTerms_nodup_right (powTerms_ne hA _) h

theorem factorTerms_ne : ∀ {as : List Formula} {A : List (Env K → K)}, (∀ a ∈ as, termsOf K a ≠ []) → A ≠ [] →
    factorTerms K A as ≠ []
  | [], _, _, hA => by rwa [factorTerms]
  | a :: as, _, h, hA => by
    rw [factorTerms]
    exact factorTerms_ne (fun b hb => h b (by simp [hb])) (prodTerms_ne hA (h a (by simp)))

theorem factorTerms_nodup : ∀ {as : List Formula} {A : List (Env K → K)}, (∀ a ∈ as, termsOf K a ≠ []) →
    A ≠ [] → (factorTerms K A as).Nodup → A.Nodup ∧ ∀ a ∈ as, (termsOf K a).Nodup
  | [], _, _, _, hn => by rw [factorTerms] at hn; exact ⟨hn, by simp⟩
  | a :: as, A, h, hA, hn => by
    rw [factorTerms] at hn
    have ha := h a (by simp)
    obtain ⟨h1, h2⟩ := factorTerms_nodup (fun b hb => h b (by simp [hb])) (prodTerms_ne hA ha) hn
    exact ⟨prodTerms_nodup_left ha h1, List.forall_mem_cons.mpr ⟨prodTerms_nodup_right hA h1, h2⟩⟩

theorem sumTerms_nodup : ∀ {as : List Formula}, (sumTerms K as).Nodup → ∀ a ∈ as, (termsOf K a).Nodup
  | [], _ => by simp
  | a :: as, h => by
    rw [sumTerms, List.nodup_append] at h
    exact List.forall_mem_cons.mpr ⟨h.1, sumTerms_nodup h.2.1⟩

theorem termsOf_ne : ∀ f : Formula, wt .real f = true → termsOf K f ≠ [] := by
  intro f
  induction f using Formula.induct with
  | plus as ih =>
    intro h
    simp only [wt, Bool.and_eq_true, wtAll_iff] at h
    cases as with
    | nil => simp at h
    | cons a as => rw [termsOf, sumTerms]; simp [ih a (by simp) (h.2 a (by simp))]
  | times as ih =>
    intro h
    simp only [wt, Bool.and_eq_true, wtAll_iff] at h
    cases as with
    | nil => simp at h
    | cons a as =>
      rw [termsOf]
      exact factorTerms_ne (fun b hb => ih b (by simp [hb]) (h.2 b (by simp [hb]))) (ih a (by simp) (h.2 a (by simp)))
  | minus l r ihl ihr =>
    intro h
    simp only [wt, Bool.and_eq_true] at h
    rw [termsOf]; simp [ihl h.1]
  | ite c t e ihc iht ihe =>
    intro h
    simp only [wt, Bool.and_eq_true] at h
    rw [termsOf]; simp [iht h.1.2]
  | pow b e ihb ihe =>
    intro h
    cases e with
    | realC q =>
      simp only [wt, Bool.and_eq_true, decide_eq_true_eq] at h
      rw [termsOf]
      split
      · simp
      · exact powTerms_ne (ihb h.1) _
    | _ => simp [wt] at h
  | _ => intros; simp [termsOf]

/-! ## Runs without a clash -/

namespace Pieces

/-- The pieces have different functions taken from a list of terms, in the order of the list. -/
structure Cover (P : Pieces) (L : List (Env K → K)) : Prop where
  good : P.Good
  sub : (P.funs K).Sublist L

theorem funs_eq {p q : PExpr × Formula} (hp : p.1.Good) (hq : q.1.Good)
    (h : (fun σ : Env K => p.1.eval σ.r) ≠ fun σ : Env K => q.1.eval σ.r) : p.1.eq q.1 = false := by
  cases hc : p.1.eq q.1 with
  | false => rfl
  | true => exact absurd (funext fun σ : Env K => PExpr.eval_eq (K := K) hp hq hc σ.r) h

theorem pairwise_of_nodup {P : Pieces} (hg : ∀ p ∈ P, p.1.Good) (h : (P.funs K).Nodup) :
    P.Pairwise fun p q => p.1.eq q.1 = false := by
  have := List.pairwise_map.mp h
  exact this.imp_of_mem fun hp hq hne => funs_eq (hg _ hp) (hg _ hq) hne

theorem set_fresh {P : Pieces} {e : PExpr} (h : P.get e = none) (c : Formula) : P.set e c = P ++ [(e, c)] := by
  induction P with
  | nil => rfl
  | cons p P ih =>
    rw [get_none] at h
    rw [set, if_neg (by simp [h p (by simp)]), ih (get_none.mpr fun q hq => h q (by simp [hq]))]
    rfl

/-- Adding pieces with different functions keeps their order and drops those with a false support. -/
theorem addAll_cover {simp : Formula → Formula} : ∀ {ps : List (PExpr × Formula)} {P : Pieces}, P.Good →
    (∀ p ∈ ps, p.1.Good) → (funs K (P ++ ps)).Nodup →
    ∃ Q, addAll (clashFree simp) P ps = .ok Q ∧ Q.Good ∧ (Q.funs K).Sublist (funs K (P ++ ps)) := by
  intro ps
  induction ps with
  | nil => intro P hP _ _; exact ⟨P, rfl, hP, by simp⟩
  | cons p ps ih =>
    intro P hP hps hn
    have hp := hps p (by simp)
    have hfresh : P.get p.1 = none := by
      rw [get_none]
      intro q hq
      refine funs_eq (K := K) (hP.1 q hq) hp fun he => ?_
      rw [funs, List.map_append, List.nodup_append] at hn
      exact hn.2.2 _ (List.mem_map.mpr ⟨q, hq, rfl⟩) _ (List.mem_map.mpr ⟨p, by simp, rfl⟩) he
    have hc : ¬Clash simp P p.1 p.2 := by
      rintro ⟨_, old, h, _⟩
      rw [hfresh] at h; cases h
    rw [addAll, clashFree, if_neg hc, addPiece]
    by_cases h : isFalse p.2 = true
    · rw [if_pos h]
      have hs : (funs K (P ++ ps)).Sublist (funs K (P ++ p :: ps)) :=
        (List.Sublist.append (List.Sublist.refl P) (List.sublist_cons_self p ps)).map _
      obtain ⟨Q, h1, h2, h3⟩ := ih hP (fun q hq => hps q (by simp [hq])) (hn.sublist hs)
      exact ⟨Q, h1, h2, h3.trans hs⟩
    · rw [if_neg h, hfresh]
      have he : funs K (P.set p.1 (simp p.2) ++ ps) = funs K (P ++ p :: ps) := by
        rw [set_fresh hfresh]; simp [funs]
      obtain ⟨Q, h1, h2, h3⟩ := ih (hP.set hp _) (fun q hq => hps q (by simp [hq])) (by rw [he]; exact hn)
      exact ⟨Q, h1, h2, by rwa [he] at h3⟩

theorem add_cover {simp : Formula → Formula} {F G : Pieces} {A B : List (Env K → K)} (hF : F.Cover A) (hG : G.Cover B)
    (hn : (A ++ B).Nodup) : ∃ Q, add (clashFree simp) F G = .ok Q ∧ Q.Cover (A ++ B) := by
  unfold add
  split
  · exact ⟨G, rfl, hG.good, hG.sub.trans (List.sublist_append_right ..)⟩
  · split
    · exact ⟨F, rfl, hF.good, hF.sub.trans (List.sublist_append_left ..)⟩
    · have hsub : (funs K ([] ++ (F ++ G).filter fun p => !isFalse p.2 && !p.1.eq .zero)).Sublist (A ++ B) := by
        refine (List.filter_sublist.map _).trans ?_
        rw [List.map_append]
        exact hF.sub.append hG.sub
      obtain ⟨Q, h1, h2, h3⟩ := addAll_cover (simp := simp) ⟨by simp, by simp⟩ (fun p hp => by
        rcases List.mem_append.mp (List.mem_filter.mp hp).1 with hp | hp
        · exact hF.good.1 p hp
        · exact hG.good.1 p hp) (hn.sublist hsub)
      exact ⟨Q, h1, h2, h3.trans hsub⟩

theorem mulPair_sub {simp : Formula → Formula} {p q : PExpr × Formula} (hp : p.1.Good) (hq : q.1.Good) :
    (∀ r ∈ mulPair simp p q, r.1.Good) ∧
      (funs K (mulPair simp p q)).Sublist [(fun σ => p.1.eval σ.r) * fun σ => q.1.eval σ.r] := by
  obtain ⟨g1, g2⟩ := PExpr.timesExpr_good (K := K) hp hq
  unfold mulPair
  simp only
  split
  · split
    · refine ⟨by simpa using g1, ?_⟩
      have : funs K [(timesExpr p.1 q.1, simp (mkAnd [p.2, q.2]))] =
          [(fun σ => p.1.eval σ.r) * fun σ => q.1.eval σ.r] := by
        simp only [funs, List.map_cons, List.map_nil, g2]; rfl
      rw [this]
    · exact ⟨by simp, by simp [funs]⟩
  · exact ⟨by simp, by simp [funs]⟩

theorem mul_cover {simp : Formula → Formula} {F G : Pieces} {A B : List (Env K → K)} (hF : F.Cover A) (hG : G.Cover B)
    (hn : (prodTerms A B).Nodup) : ∃ Q, mul simp (clashFree simp) F G = .ok Q ∧ Q.Cover (prodTerms A B) := by
  have row : ∀ p ∈ F, ∀ G' : Pieces, (∀ q ∈ G', q ∈ G) →
      (funs K (G'.flatMap fun q => mulPair simp p q)).Sublist
        ((G'.funs K).map fun b => (fun σ : Env K => p.1.eval σ.r) * b) := by
    intro p hp G'
    induction G' with
    | nil => intro _; simp [funs]
    | cons q G' ih =>
      intro hs
      have h1 := (mulPair_sub (K := K) (simp := simp) (hF.good.1 p hp) (hG.good.1 q (hs q (by simp)))).2
      have h2 := ih fun r hr => hs r (by simp [hr])
      rw [List.flatMap_cons]
      simpa [funs] using List.Sublist.append h1 h2
  have all : ∀ F' : Pieces, (∀ p ∈ F', p ∈ F) →
      (funs K (F'.flatMap fun p => G.flatMap fun q => mulPair simp p q)).Sublist (prodTerms (F'.funs K) (G.funs K)) := by
    intro F'
    induction F' with
    | nil => intro _; simp [funs]
    | cons p F' ih =>
      intro hs
      have h1 := row p (hs p (by simp)) G fun _ h => h
      have h2 := ih fun r hr => hs r (by simp [hr])
      rw [List.flatMap_cons]
      have := List.Sublist.append h1 h2
      simpa [funs, prodTerms] using this
  have hsub : (funs K ([] ++ F.flatMap fun p => G.flatMap fun q => mulPair simp p q)).Sublist (prodTerms A B) :=
    (all F fun _ h => h).trans (prodTerms_sublist hF.sub hG.sub)
  obtain ⟨Q, h1, h2, h3⟩ := addAll_cover (simp := simp) ⟨by simp, by simp⟩ (fun r hr => by
    obtain ⟨p, hp, hr⟩ := List.mem_flatMap.mp hr
    obtain ⟨q, hq, hr⟩ := List.mem_flatMap.mp hr
    exact (mulPair_sub (K := K) (hF.good.1 p hp) (hG.good.1 q hq)).1 r hr) (hn.sublist hsub)
  exact ⟨Q, h1, h2, h3.trans hsub⟩

theorem neg_cover {F : Pieces} {A : List (Env K → K)} (hF : F.Cover A) (hn : (A.map fun t => -t).Nodup) :
    F.neg.Cover (A.map fun t => -t) := by
  have key : ∀ (F acc : Pieces), (∀ p ∈ F, p.1.Good) → (∀ p ∈ acc, p.1.Good) →
      (acc.funs K ++ (F.funs K).map fun t => -t).Nodup →
      funs K (F.foldl (fun (acc : Pieces) p => Pieces.set acc p.1.negate p.2) acc) =
        acc.funs K ++ (F.funs K).map fun t => -t := by
    intro F
    induction F with
    | nil => intro acc _ _ _; simp [funs]
    | cons p F ih =>
      intro acc hF hacc hn
      obtain ⟨g1, g2⟩ := PExpr.negate_good (K := K) (hF p (by simp))
      have hneg : (fun σ : Env K => p.1.negate.eval σ.r) = -fun σ => p.1.eval σ.r := funext fun σ => g2 σ.r
      have hfresh : acc.get p.1.negate = none := by
        rw [get_none]
        intro q hq
        refine funs_eq (p := q) (q := (p.1.negate, p.2)) (K := K) (hacc q hq) g1 fun he => ?_
        rw [List.nodup_append] at hn
        exact hn.2.2 _ (List.mem_map.mpr ⟨q, hq, rfl⟩) _ (List.mem_map.mpr ⟨_, List.mem_cons_self .., rfl⟩) (he.trans hneg)
      have he : funs K (acc.set p.1.negate p.2) = acc.funs K ++ [-fun σ => p.1.eval σ.r] := by
        rw [set_fresh hfresh, ← hneg]; simp [funs]
      rw [List.foldl_cons, ih _ (fun q hq => hF q (by simp [hq])) (fun q hq => ?_) ?_, he]
      · simp [funs]
      · rw [he]; simpa [funs] using hn
      · rcases set_keys hq with rfl | ⟨r, hr, hk⟩
        · exact g1
        · rw [← hk]; exact hacc r hr
  refine ⟨(neg_correct (K := K) hF.good).1, ?_⟩
  have hs := hF.sub.map fun t : Env K → K => -t
  rw [neg, key F [] hF.good.1 (by simp) (by simpa [funs] using hn.sublist hs)]
  simpa [funs] using hs

theorem condition_cover {F : Pieces} {A : List (Env K → K)} (hF : F.Cover A) (c : Formula) : (F.condition c).Cover A :=
  ⟨(condition_correct (K := K) hF.good c).1, by
    have : (F.condition c).funs K = F.funs K := by simp [funs, condition]
    rw [this]; exact hF.sub⟩

theorem addGo_cover {simp : Formula → Formula} : ∀ {as : List Formula} {Fs : List Pieces},
    List.Forall₂ (fun a F => F.Cover (termsOf K a)) as Fs → ∀ {F : Pieces} {A : List (Env K → K)}, F.Cover A →
    (A ++ sumTerms K as).Nodup → ∃ Q, reduce.go (add (clashFree simp)) F Fs = .ok Q ∧ Q.Cover (A ++ sumTerms K as) := by
  intro as Fs h
  induction h with
  | nil => intro F A hF _; exact ⟨F, rfl, by simpa [sumTerms] using hF⟩
  | @cons a G as Gs hG _ ih =>
    intro F A hF hn
    rw [sumTerms, ← List.append_assoc] at hn ⊢
    obtain ⟨H, h1, h2⟩ := add_cover (simp := simp) hF hG (List.nodup_append.mp hn).1
    rw [reduce.go, h1]
    exact ih h2 hn

theorem mulGo_cover {simp : Formula → Formula} : ∀ {as : List Formula} {Fs : List Pieces},
    List.Forall₂ (fun a F => F.Cover (termsOf K a)) as Fs → (∀ a ∈ as, termsOf K a ≠ []) →
    ∀ {F : Pieces} {A : List (Env K → K)}, F.Cover A → A ≠ [] → (factorTerms K A as).Nodup →
    ∃ Q, reduce.go (mul simp (clashFree simp)) F Fs = .ok Q ∧ Q.Cover (factorTerms K A as) := by
  intro as Fs h
  induction h with
  | nil => intro _ F A hF _ _; exact ⟨F, rfl, by simpa [factorTerms] using hF⟩
  | @cons a G as Gs hG _ ih =>
    intro hne F A hF hA hn
    rw [factorTerms] at hn ⊢
    have ha := prodTerms_ne hA (hne a (by simp))
    have has : ∀ b ∈ as, termsOf K b ≠ [] := fun b hb => hne b (by simp [hb])
    obtain ⟨H, h1, h2⟩ := mul_cover (simp := simp) hF hG (factorTerms_nodup has ha hn).1
    rw [reduce.go, h1]
    exact ih has h2 ha hn

theorem powGo_cover {simp : Formula → Formula} {F : Pieces} {A : List (Env K → K)} (hF : F.Cover A) (hA : A ≠ []) :
    ∀ (n m : ℕ) {H : Pieces}, H.Cover (powTerms A m) → (powTerms A (m + n)).Nodup →
    ∃ Q, reduce.go (mul simp (clashFree simp)) H (List.replicate n F) = .ok Q ∧ Q.Cover (powTerms A (m + n)) := by
  intro n
  induction n with
  | zero => intro m H hH _; exact ⟨H, rfl, hH⟩
  | succ n ih =>
    intro m H hH hn
    have e : m + (n + 1) = (m + 1) + n := by omega
    rw [e] at hn ⊢
    have hpre : ∀ k, (powTerms A (m + 1 + k)).Nodup → (powTerms A (m + 1)).Nodup := by
      intro k
      induction k with
      | zero => exact id
      | succ k ihk => exact fun h => ihk (prodTerms_nodup_left hA h)
    obtain ⟨Q, h1, h2⟩ := mul_cover (simp := simp) hH hF (hpre n hn)
    rw [List.replicate_succ, reduce.go, h1]
    exact ih (m + 1) h2 hn

theorem walks {simp : Formula → Formula} {as : List Formula}
    (h : ∀ a ∈ as, ∃ P, (pieceW simp (clashFree simp)).walk a = .ok P ∧ P.Cover (termsOf K a)) :
    ∃ Fs, mapE (pieceW simp (clashFree simp)).walk as = .ok Fs ∧
      List.Forall₂ (fun a F => F.Cover (termsOf K a)) as Fs := by
  induction as with
  | nil => exact ⟨[], rfl, .nil⟩
  | cons a as ih =>
    obtain ⟨P, h1, h2⟩ := h a (by simp)
    obtain ⟨Fs, h3, h4⟩ := ih fun b hb => h b (by simp [hb])
    exact ⟨P :: Fs, by simp [mapE, h1, h3], .cons h2 h4⟩

theorem walk_cover {simp : Formula → Formula} : ∀ f : Formula, wt .real f = true → (termsOf K f).Nodup →
    (∀ b ∈ zeroBases f, (termsOf K b).Nodup) → ∃ P, (pieceW simp (clashFree simp)).walk f = .ok P ∧ P.Cover (termsOf K f) := by
  intro f
  induction f using Formula.induct with
  | and as ih => intro h; simp [wt] at h
  | or as ih => intro h; simp [wt] at h
  | implies l r ihl ihr => intro h; simp [wt] at h
  | not a ih => intro h; simp [wt] at h
  | iff l r ihl ihr => intro h; simp [wt] at h
  | le l r ihl ihr => intro h; simp [wt] at h
  | lt l r ihl ihr => intro h; simp [wt] at h
  | equals l r ihl ihr => intro h; simp [wt] at h
  | boolC b => intro h; simp [wt] at h
  | sym n t =>
    intro h _ _
    cases t with
    | bool => simp [wt] at h
    | real =>
      refine ⟨symbol n, by rw [Walker.walk_eq (pieceW_decr _ _)]; rfl, symbol_good n, ?_⟩
      simp [symbol, funs, termsOf, PExpr.eval, value]
  | realC q =>
    intro h _ _
    refine ⟨real q, by rw [Walker.walk_eq (pieceW_decr _ _)]; rfl, real_good q, ?_⟩
    simp [real, funs, termsOf, PExpr.eval, value, polyConst]
  | plus as ih =>
    intro h hn hz
    simp only [wt, Bool.and_eq_true, wtAll_iff] at h
    rw [termsOf] at hn ⊢
    obtain ⟨Fs, h1, h2⟩ := walks fun a ha => ih a ha (h.2 a ha) (sumTerms_nodup hn a ha)
      fun b hb => hz b (by rw [zeroBases]; exact mem_zeroBasesList.mpr ⟨a, ha, hb⟩)
    cases h2 with
    | nil => simp at h
    | @cons a F as Fs hF hFs =>
      rw [sumTerms] at hn ⊢
      obtain ⟨Q, h3, h4⟩ := addGo_cover (simp := simp) hFs hF hn
      exact ⟨Q, (pieceW_list (f := .plus (a :: as)) rfl).mpr ⟨_, h1, h3⟩, h4⟩
  | times as ih =>
    intro h hn hz
    simp only [wt, Bool.and_eq_true, wtAll_iff] at h
    cases as with
    | nil => simp at h
    | cons a as =>
      rw [termsOf] at hn ⊢
      have hne : ∀ b ∈ as, termsOf K b ≠ [] := fun b hb => termsOf_ne b (h.2 b (by simp [hb]))
      have ha := termsOf_ne (K := K) a (h.2 a (by simp))
      obtain ⟨n1, n2⟩ := factorTerms_nodup hne ha hn
      have : ∀ b ∈ a :: as, (termsOf K b).Nodup := List.forall_mem_cons.mpr ⟨n1, n2⟩
      obtain ⟨Fs, h1, h2⟩ := walks fun b hb => ih b hb (h.2 b hb) (this b hb)
        fun c hc => hz c (by rw [zeroBases]; exact mem_zeroBasesList.mpr ⟨b, hb, hc⟩)
      cases h2 with
      | @cons _ F _ Fs hF hFs =>
        obtain ⟨Q, h3, h4⟩ := mulGo_cover (simp := simp) hFs hne hF ha hn
        exact ⟨Q, (pieceW_list (f := .times (a :: as)) rfl).mpr ⟨_, h1, h3⟩, h4⟩
  | minus l r ihl ihr =>
    intro h hn hz
    simp only [wt, Bool.and_eq_true] at h
    rw [termsOf] at hn ⊢
    have hn' := List.nodup_append.mp hn
    obtain ⟨F, f1, f2⟩ := ihl h.1 hn'.1 fun b hb => hz b (by simp [zeroBases, hb])
    obtain ⟨G, g1, g2⟩ := ihr h.2 hn'.2.1.of_map fun b hb => hz b (by simp [zeroBases, hb])
    obtain ⟨Q, q1, q2⟩ := add_cover (simp := simp) f2 (neg_cover g2 hn'.2.1) hn
    exact ⟨Q, (pieceW_two (f := .minus l r) rfl).mpr ⟨F, G, f1, g1, q1⟩, q2⟩
  | ite c t e ihc iht ihe =>
    intro h hn hz
    simp only [wt, Bool.and_eq_true] at h
    rw [termsOf] at hn ⊢
    have hn' := List.nodup_append.mp hn
    obtain ⟨F, f1, f2⟩ := iht h.1.2 hn'.1 fun b hb => hz b (by simp [zeroBases, hb])
    obtain ⟨G, g1, g2⟩ := ihe h.2 hn'.2.1 fun b hb => hz b (by simp [zeroBases, hb])
    obtain ⟨Q, q1, q2⟩ := add_cover (simp := simp) (condition_cover f2 c) (condition_cover g2 (mkNot c)) hn
    exact ⟨Q, (pieceW_two (f := .ite c t e) rfl).mpr ⟨F, G, f1, g1, q1⟩, q2⟩
  | pow b e ihb ihe =>
    intro h hn hz
    cases e with
    | realC q =>
      simp only [wt, Bool.and_eq_true, decide_eq_true_eq] at h
      rw [termsOf] at hn ⊢
      have hb : (termsOf K b).Nodup := by
        by_cases h0 : q.num = 0
        · exact hz b (by simp [zeroBases, h0])
        · rw [if_neg h0] at hn; exact powTerms_nodup (termsOf_ne b h.1) _ hn
      obtain ⟨F, f1, f2⟩ := ihb h.1 hb fun c hc => hz c (by simp [zeroBases, hc])
      rw [pieceW_pow, f1]
      simp only [h.2.1, ne_eq, not_true_eq_false, if_false]
      by_cases h0 : q.num = 0
      · rw [if_pos h0, if_pos h0]
        exact ⟨real 1, rfl, real_good 1, by simp [real, funs, PExpr.eval, polyConst]⟩
      · rw [if_neg h0] at hn ⊢
        rw [if_neg h0]
        obtain ⟨n, hq⟩ : ∃ n, q.num.toNat = n + 1 := ⟨q.num.toNat - 1, by omega⟩
        rw [hq, Nat.add_sub_cancel] at hn ⊢
        rw [List.replicate_succ]
        obtain ⟨Q, q1, q2⟩ := powGo_cover (simp := simp) f2 (termsOf_ne b h.1) n 0 f2 (by rwa [Nat.zero_add])
        rw [Nat.zero_add] at q2
        exact ⟨Q, q1, q2⟩
    | _ => simp [wt] at h

end Pieces

/-! ## C46 -/

/-- **C46**: whatever truth-preserving simplifier is used, a weight whose terms are different functions is converted: the
conversion succeeds, at every assignment the pieces whose support holds add up to the weight, and the expression of every
piece is one of the terms. -/
theorem splitUp_terms_partial {simp : Formula → Formula} (hs : SimpOk simp K) {w : Formula} (hw : Formula.wt .real w = true)
    (hn : (termsOf K w).Nodup) (hz : ∀ b ∈ zeroBases w, (termsOf K b).Nodup) :
    ∃ P, splitUp simp w = .ok P ∧ (∀ σ : Env K, piecesVal σ P = value σ w) ∧
      (P.map fun p (σ : Env K) => p.1.eval σ.r).Sublist (termsOf K w) := by
  obtain ⟨P, h1, h2⟩ := Pieces.walk_cover (simp := simp) w hw hn hz
  have := Pieces.splitUp_correct_partial hs w hw P h1
  exact ⟨P, this.run, this.val, h2.sub⟩

/-- Terms with different values at one assignment are different functions. -/
theorem termsOf_nodup_at {w : Formula} (σ : Env K) (h : ((termsOf K w).map fun t => t σ).Nodup) : (termsOf K w).Nodup :=
  h.of_map
end

/-- The weights of this kind are in the scope of the XSDD engines (C57, C98). -/
theorem XWeight.of_terms {E : Type} {o : XsddOpts E} {D : Domain} {w : Formula} (hw : Formula.wt .real w = true)
    (hv : D.covers w) (hc : ∀ c ∈ condsOf w, XOk D c) (hn : (termsOf ℝ w).Nodup)
    (hz : ∀ b ∈ zeroBases w, (termsOf ℝ b).Nodup) : XWeight o D w :=
  ⟨hw, hv, hc, by
    obtain ⟨P, h, _⟩ := Pieces.walk_cover (simp := o.simp) w hw hn hz
    exact ⟨P, h⟩⟩

/-! ### A concrete case -/

/-- The weight `ite(a, x, 2y) * (ite(x <= y, 3, z^2) - ite(b, x*z, y)) + (x + 1)^0`. -/
def termWeight : Formula :=
  .plus [.times [.ite (.sym "a" .bool) (.sym "x" .real) (.times [.realC 2, .sym "y" .real]),
      .minus (.ite (.le (.sym "x" .real) (.sym "y" .real)) (.realC 3) (.pow (.sym "z" .real) (.realC 2)))
        (.ite (.sym "b" .bool) (.times [.sym "x" .real, .sym "z" .real]) (.sym "y" .real))],
    .pow (.plus [.sym "x" .real, .realC 1]) (.realC 0)]

/-- It has nine terms, all different. -/
theorem termWeight_terms : wt .real termWeight = true ∧ (termsOf ℝ termWeight).length = 9 ∧
    (termsOf ℝ termWeight).Nodup ∧ ∀ b ∈ zeroBases termWeight, (termsOf ℝ b).Nodup := by
  refine ⟨by decide +kernel, by simp [termWeight, termsOf, sumTerms, factorTerms, prodTerms, powTerms], ?_, ?_⟩
  · apply termsOf_nodup_at ⟨fun _ => true, fun n => if n = "x" then 2 else if n = "y" then 5 else 7⟩
    simp [termWeight, termsOf, sumTerms, factorTerms, prodTerms, powTerms, value]
    norm_num
  · intro b hb
    simp [termWeight, zeroBases, zeroBasesList] at hb
    subst hb
    apply termsOf_nodup_at ⟨fun _ => true, fun _ => 2⟩
    simp [termsOf, sumTerms, value]

/-- So it is converted exactly, with the identity as simplifier for example. -/
theorem termWeight_converted : ∃ P, splitUp id termWeight = .ok P ∧
    ∀ σ : Env ℝ, piecesVal σ P = value σ termWeight := by
  obtain ⟨h1, _, h2, h3⟩ := termWeight_terms
  obtain ⟨P, p1, p2, _⟩ := splitUp_terms_partial (simp := id) (K := ℝ) (fun _ _ => rfl) h1 h2 h3
  exact ⟨P, p1, p2⟩

/-- The weight that the code gets wrong (`splitUp_double_wrong`) has a repeated term. -/
theorem doubleWeight_terms : ¬(termsOf ℝ Pieces.doubleWeight).Nodup := by
  simp [Pieces.doubleWeight, termsOf]

end Pywmi
