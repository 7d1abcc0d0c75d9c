import Verif.Props.Piecewise

set_option linter.unusedSectionVars false
set_option linter.unusedSimpArgs false

/-!
# What the pieces of a weight are made of (C46, used for C57)
-/

namespace Pywmi
open Formula Prog

/-! ### Products of polynomials are not empty -/

theorem dictAdd_ne_nil (d : Dict) (k : Mono) (v : ℚ) : dictAdd d k v ≠ [] := by
  cases d with
  | nil => simp [dictAdd]
  | cons p d => obtain ⟨k', w⟩ := p; simp only [dictAdd]; split <;> simp

theorem dictTimesRow_ne_nil {fl : Bool} {k : Mono} {v : ℚ} : ∀ {d acc out : Dict}, (d ≠ [] ∨ acc ≠ []) →
    dictTimesRow fl k v d acc = .ok out → out ≠ [] := by
  intro d
  induction d with
  | nil => intro acc out h ho; simp [dictTimesRow] at ho; subst ho; simpa using h
  | cons p d ih =>
    intro acc out _ ho
    obtain ⟨k2, v2⟩ := p
    simp only [dictTimesRow] at ho
    split at ho
    · cases ho
    · exact ih (.inr (dictAdd_ne_nil _ _ _)) ho

theorem dictTimesAux_ne_nil {fl : Bool} {d2 : Dict} (h2 : d2 ≠ []) : ∀ {d1 acc out : Dict}, (d1 ≠ [] ∨ acc ≠ []) →
    dictTimesAux fl d1 d2 acc = .ok out → out ≠ [] := by
  intro d1
  induction d1 with
  | nil => intro acc out h ho; simp [dictTimesAux] at ho; subst ho; simpa using h
  | cons p d1 ih =>
    intro acc out _ ho
    obtain ⟨k, v⟩ := p
    simp only [dictTimesAux] at ho
    split at ho
    · rename_i acc' h'
      exact ih (.inr (dictTimesRow_ne_nil (.inl h2) h')) ho
    · cases ho

/-- SPEC: a single term over the given variables. -/
def PExpr.Over (V : String → Prop) : PExpr → Prop
  | .int _ => True
  | .poly d => d.length = 1 ∧ ∀ p ∈ d, ∀ n ∈ p.1, V n

namespace PExpr
variable {V : String → Prop}

theorem over_const (c : ℚ) : Over V (.poly (polyConst c)) := ⟨by simp [polyConst], by simp [polyConst]⟩
theorem over_zero : Over V zero := over_const 0
theorem over_one : Over V one := over_const 1

theorem mulDict_over {p q : Dict} (hp : Over V (.poly p)) (hq : Over V (.poly q)) : Over V (.poly (mulDict p q)) := by
  obtain ⟨d, h1, _⟩ := polyMul_eval (K := ℚ) p q
  simp only [mulDict, h1]
  refine ⟨?_, ?_⟩
  · obtain ⟨a, rfl⟩ := List.length_eq_one_iff.mp hp.1
    obtain ⟨b, rfl⟩ := List.length_eq_one_iff.mp hq.1
    have h2 : polyMul [a] [b] = .ok [(sortNames (a.1 ++ b.1), a.2 * b.2)] := by
      simp [polyMul, dictTimes, dictTimesAux, dictTimesRow, dictAdd]
    rw [h2] at h1
    cases h1
    rfl
  exact dictTimes_keys (P := fun k => ∀ n ∈ k, V n) (P1 := fun k => ∀ n ∈ k, V n) (P2 := fun k => ∀ n ∈ k, V n)
    (fun k1 k2 a b _ n hn => by
      have := (List.perm_insertionSort (· ≤ ·) (k1 ++ k2)).mem_iff.mp hn
      rcases List.mem_append.mp this with h | h
      · exact a n h
      · exact b n h) (fun p hp' => hp.2 p hp') (fun p hp' => hq.2 p hp') h1

theorem times_over {a b : PExpr} (ha : Over V a) (hb : Over V b) : Over V (a.times b) := by
  unfold times
  split
  · exact over_zero
  split
  · exact hb
  split
  · exact ha
  match a, b, ha, hb with
  | .int n, .int m, _, _ => trivial
  | .int n, .poly q, _, hb => exact mulDict_over hb (over_const _)
  | .poly p, .int m, ha, _ => exact mulDict_over ha (over_const _)
  | .poly p, .poly q, ha, hb => exact mulDict_over ha hb

theorem negate_over {a : PExpr} (ha : Over V a) : Over V a.negate := times_over ha (over_const _)
theorem double_over {a : PExpr} (ha : Over V a) : Over V a.double := times_over (a := .int 2) trivial ha
end PExpr

/-! ### Conditions of a weight -/

mutual
/-- SPEC: the conditions of the if-then-else terms of a weight. -/
def condsOf : Formula → List Formula
  | .ite c t e => c :: (condsOf t ++ condsOf e)
  | .times as => condsOfList as
  | .plus as => condsOfList as
  | .minus l r => condsOf l ++ condsOf r
  | .pow b _ => condsOf b
  | _ => []
/-- SPEC: list version of `condsOf`. -/
def condsOfList : List Formula → List Formula
  | [] => []
  | a :: as => condsOf a ++ condsOfList as
end

theorem mem_condsOfList {as : List Formula} {c : Formula} : c ∈ condsOfList as ↔ ∃ a ∈ as, c ∈ condsOf a := by
  induction as with
  | nil => simp [condsOfList]
  | cons a as ih => simp [condsOfList, ih]

/-- SPEC: a property of supports that all operations of the conversion keep. -/
structure SupportInv (simp : Formula → Formula) (R : Formula → Prop) : Prop where
  tt : R (.boolC true)
  and : ∀ a b, R a → R b → R (mkAnd [a, b])
  or : ∀ a b, R a → R b → R (mkOr [a, b])
  not : ∀ a, R a → R (mkNot a)
  simp : ∀ a, R a → R (simp a)

namespace Pieces
variable {simp : Formula → Formula} {R : Formula → Prop} {V : String → Prop}

/-- SPEC: all pieces are over the given variables, with supports satisfying `R`. -/
def Made (V : String → Prop) (R : Formula → Prop) (P : List (PExpr × Formula)) : Prop := ∀ p ∈ P, p.1.Over V ∧ R p.2

theorem Made.set {P : Pieces} (h : Made V R P) {e : PExpr} (he : e.Over V) {c : Formula} (hc : R c) : Made V R (P.set e c) := by
  induction P with
  | nil => intro p hp; simp [Pieces.set] at hp; subst hp; exact ⟨he, hc⟩
  | cons q P ih =>
    intro p hp
    simp only [Pieces.set] at hp
    split at hp
    · rcases List.mem_cons.mp hp with rfl | hp
      · exact ⟨(h q (by simp)).1, hc⟩
      · exact h p (by simp [hp])
    · rcases List.mem_cons.mp hp with rfl | hp
      · exact h p (by simp)
      · exact ih (fun x hx => h x (by simp [hx])) p hp

theorem Made.del {P : Pieces} (h : Made V R P) (e : PExpr) : Made V R (P.del e) :=
  fun p hp => h p (mem_del.mp hp).1

theorem Made.addPiece (hR : SupportInv simp R) {P Q : Pieces} (h : Made V R P) {e : PExpr} (he : e.Over V) {c : Formula}
    (hc : R c) (hq : Pieces.addPiece simp P e c = .ok Q) : Made V R Q := by
  unfold Pieces.addPiece at hq
  split at hq
  · cases hq; exact h
  cases hg : P.get e with
  | none =>
    rw [hg] at hq
    cases hq
    exact h.set he (hR.simp _ hc)
  | some old =>
    rw [hg] at hq
    obtain ⟨k, hk, _⟩ := get_some hg
    have ho : R old := (h _ hk).2
    have h1 : R (simp (mkAnd [mkOr [old, c], mkNot (mkAnd [old, c])])) :=
      hR.simp _ (hR.and _ _ (hR.or _ _ ho hc) (hR.not _ (hR.and _ _ ho hc)))
    have h2 : R (simp (mkAnd [old, c])) := hR.simp _ (hR.and _ _ ho hc)
    have h3 : Made V R (if isFalse (simp (mkAnd [mkOr [old, c], mkNot (mkAnd [old, c])])) then P.del e
        else P.set e (simp (mkAnd [mkOr [old, c], mkNot (mkAnd [old, c])]))) := by
      split
      · exact h.del e
      · exact h.set he h1
    simp only [merge] at hq
    generalize (if isFalse (simp (mkAnd [mkOr [old, c], mkNot (mkAnd [old, c])])) = true then P.del e
        else P.set e (simp (mkAnd [mkOr [old, c], mkNot (mkAnd [old, c])]))) = P1 at h3 hq
    split at hq
    · simp only [Except.ok.injEq] at hq
      subst hq
      exact h3.del _
    · split at hq
      · cases hq
      · simp only [Except.ok.injEq] at hq
        subst hq
        exact h3.set (PExpr.double_over he) h2

theorem Made.addAll (hR : SupportInv simp R) : ∀ {ps : List (PExpr × Formula)} {P Q : Pieces}, Made V R P → Made V R ps →
    Pieces.addAll (Pieces.addPiece simp) P ps = .ok Q → Made V R Q := by
  intro ps
  induction ps with
  | nil => intro P Q h _ hq; simp only [Pieces.addAll, Except.ok.injEq] at hq; subst hq; exact h
  | cons p ps ih =>
    intro P Q h hps hq
    rw [Pieces.addAll] at hq
    cases ha : Pieces.addPiece simp P p.1 p.2 with
    | error e => rw [ha] at hq; cases hq
    | ok P' =>
      rw [ha] at hq
      obtain ⟨a, b⟩ := hps p (by simp)
      exact ih (h.addPiece hR a b ha) (fun x hx => hps x (by simp [hx])) hq

theorem Made.nil : Made V R [] := fun p hp => by cases hp

theorem Made.add (hR : SupportInv simp R) {F G Q : Pieces} (hF : Made V R F) (hG : Made V R G)
    (h : Pieces.add (Pieces.addPiece simp) F G = .ok Q) : Made V R Q := by
  unfold Pieces.add at h
  split at h
  · cases h; exact hG
  split at h
  · cases h; exact hF
  refine Made.addAll hR Made.nil (fun p hp => ?_) h
  rcases List.mem_append.mp (List.mem_of_mem_filter hp) with hp | hp
  · exact hF p hp
  · exact hG p hp

theorem Made.mul (hR : SupportInv simp R) {F G Q : Pieces} (hF : Made V R F) (hG : Made V R G)
    (h : Pieces.mul simp (Pieces.addPiece simp) F G = .ok Q) : Made V R Q := by
  refine Made.addAll hR Made.nil (fun p hp => ?_) h
  obtain ⟨a, ha, hp⟩ := List.mem_flatMap.mp hp
  obtain ⟨b, hb, hp⟩ := List.mem_flatMap.mp hp
  obtain ⟨a1, a2⟩ := hF a ha
  obtain ⟨b1, b2⟩ := hG b hb
  simp only [mulPair] at hp
  split at hp
  · split at hp
    · simp only [List.mem_singleton] at hp
      subst hp
      refine ⟨?_, hR.simp _ (hR.and _ _ a2 b2)⟩
      simp only [timesExpr]
      split
      · exact b1
      split
      · exact a1
      · exact PExpr.times_over a1 b1
    · cases hp
  · cases hp

theorem Made.neg {F : Pieces} (hF : Made V R F) : Made V R F.neg := by
  unfold Pieces.neg
  suffices H : ∀ (F acc : Pieces), Made V R F → Made V R acc →
      Made V R (F.foldl (fun (acc : Pieces) p => Pieces.set acc p.1.negate p.2) acc) from H F [] hF Made.nil
  clear hF F
  intro F
  induction F with
  | nil => intro acc _ h; exact h
  | cons p F ih =>
    intro acc hF h
    obtain ⟨a, b⟩ := hF p (by simp)
    exact ih _ (fun x hx => hF x (by simp [hx])) (h.set (PExpr.negate_over a) b)

theorem Made.condition (hR : SupportInv simp R) {F : Pieces} (hF : Made V R F) {c : Formula} (hc : R c) :
    Made V R (F.condition c) := by
  intro p hp
  obtain ⟨q, hq, rfl⟩ := List.mem_map.mp hp
  exact ⟨(hF q hq).1, hR.and _ _ (hF q hq).2 hc⟩

theorem Made.reduce {op : Pieces → Pieces → Except PyErr Pieces}
    (hop : ∀ F G Q, Made V R F → Made V R G → op F G = .ok Q → Made V R Q) {Fs : List Pieces} {Q : Pieces}
    (hF : ∀ F ∈ Fs, Made V R F) (h : Pieces.reduce op Fs = .ok Q) : Made V R Q := by
  have go : ∀ (Fs : List Pieces) (F Q : Pieces), Made V R F → (∀ G ∈ Fs, Made V R G) → reduce.go op F Fs = .ok Q → Made V R Q := by
    intro Fs
    induction Fs with
    | nil => intro F Q h _ hq; simp only [reduce.go, Except.ok.injEq] at hq; subst hq; exact h
    | cons G Gs ih =>
      intro F Q hF hG hq
      rw [reduce.go] at hq
      cases ho : op F G with
      | error e => rw [ho] at hq; cases hq
      | ok H =>
        rw [ho] at hq
        exact ih H Q (hop F G H hF (hG G (by simp)) ho) (fun x hx => hG x (by simp [hx])) hq
  cases Fs with
  | nil => cases h
  | cons F Fs => exact go Fs F Q (hF F (by simp)) (fun x hx => hF x (by simp [hx])) h

end Pieces

open Pieces in
/-- The expressions of the pieces of a weight are polynomials with a term over the variables of the weight, and the supports
are built from its conditions. -/
theorem splitUp_made {simp : Formula → Formula} {R : Formula → Prop} (hR : SupportInv simp R) {V : String → Prop} :
    ∀ f : Formula, (∀ p ∈ syms f, p.2 = .real → V p.1) → (∀ c ∈ condsOf f, R c) →
    ∀ P, splitUp simp f = .ok P → Made V R P := by
  have bad : ∀ (f : Formula) (e : PyErr), (pieceW simp (addPiece simp)).dispatch f = .fail e → ∀ P, splitUp simp f ≠ .ok P := by
    intro f e hd P h
    rw [splitUp, Walker.walk_eq (pieceW_decr _ _), hd] at h
    cases h
  have lst : ∀ {as : List Formula} {f : Formula} {op : Pieces → Pieces → Except PyErr Pieces} {P : Pieces},
      (∀ a ∈ as, (∀ p ∈ syms a, p.2 = .real → V p.1) → (∀ c ∈ condsOf a, R c) → ∀ P, splitUp simp a = .ok P → Made V R P) →
      (pieceW simp (addPiece simp)).dispatch f = .callAll as (fun Fs => .ofExcept (reduce op Fs)) →
      (∀ p ∈ symsList as, p.2 = .real → V p.1) → (∀ c ∈ condsOfList as, R c) →
      (∀ F G Q, Made V R F → Made V R G → op F G = .ok Q → Made V R Q) → splitUp simp f = .ok P → Made V R P := by
    intro as f op P ih hd hv hc hop h
    obtain ⟨Fs, h1, h2⟩ := (pieceW_list hd).mp h
    refine Made.reduce hop (fun F hF => ?_) h2
    obtain ⟨a, ha, hm⟩ := forall₂_mem_right (mapE_spec (Q := fun a F => a ∈ as ∧ splitUp simp a = .ok F) h1
      fun a ha r hr => ⟨ha, hr⟩) F hF
    exact ih a ha (fun p hp => hv p (mem_symsList.mpr ⟨a, ha, hp⟩)) (fun c hc' => hc c (mem_condsOfList.mpr ⟨a, ha, hc'⟩)) F hm.2
  intro f
  induction f using Formula.induct with
  | and as ih => intro _ _ P h; exact absurd h (bad _ _ rfl P)
  | or as ih => intro _ _ P h; exact absurd h (bad _ _ rfl P)
  | implies l r ihl ihr =>
    intro _ _ P h
    refine absurd h ?_
    rw [splitUp, Walker.walk_eq (pieceW_decr _ _)]
    show (Prog.call (.or [mkNot l, r]) _ : Prog Formula Pieces).interp _ ≠ _
    rw [interp, Walker.walk_eq (pieceW_decr _ _)]
    intro h; cases h
  | not a ih => intro _ _ P h; exact absurd h (bad _ _ rfl P)
  | iff l r ihl ihr =>
    intro _ _ P h
    refine absurd h ?_
    rw [splitUp, Walker.walk_eq (pieceW_decr _ _)]
    intro h; cases h
  | le l r ihl ihr => intro _ _ P h; exact absurd h (bad _ _ rfl P)
  | lt l r ihl ihr => intro _ _ P h; exact absurd h (bad _ _ rfl P)
  | equals l r ihl ihr => intro _ _ P h; exact absurd h (bad _ _ rfl P)
  | boolC b => intro _ _ P h; exact absurd h (bad _ _ rfl P)
  | sym n t =>
    intro hv _ P hP
    cases t with
    | bool => exact absurd hP (bad _ _ rfl P)
    | real =>
      rw [splitUp, Walker.walk_eq (pieceW_decr _ _)] at hP
      simp only [Walker.dispatch, pieceW, interp, Except.ok.injEq] at hP
      subst hP
      intro p hp
      simp only [symbol, List.mem_singleton] at hp
      subst hp
      exact ⟨⟨by simp, by simpa using hv (n, .real) (by simp [syms]) rfl⟩, hR.tt⟩
  | realC q =>
    intro _ _ P hP
    rw [splitUp, Walker.walk_eq (pieceW_decr _ _)] at hP
    simp only [Walker.dispatch, pieceW, interp, Except.ok.injEq] at hP
    subst hP
    intro p hp
    simp only [real, List.mem_singleton] at hp
    subst hp
    exact ⟨PExpr.over_const q, hR.tt⟩
  | plus as ih => intro hv hc P hP; exact lst ih rfl hv hc (fun F G Q a b c => a.add hR b c) hP
  | times as ih => intro hv hc P hP; exact lst ih rfl hv hc (fun F G Q a b c => a.mul hR b c) hP
  | minus l r ihl ihr =>
    intro hv hc P hP
    obtain ⟨F, G, h1, h2, h3⟩ := (pieceW_two (f := .minus l r) rfl).mp hP
    exact Made.add hR (ihl (fun p hp => hv p (by simp [syms, hp])) (fun c h => hc c (by simp [condsOf, h])) F h1)
      (ihr (fun p hp => hv p (by simp [syms, hp])) (fun c h => hc c (by simp [condsOf, h])) G h2).neg h3
  | ite c t e ihc iht ihe =>
    intro hv hc P hP
    obtain ⟨F, G, h1, h2, h3⟩ := (pieceW_two (f := .ite c t e) rfl).mp hP
    have hcc : R c := hc c (by simp [condsOf])
    exact Made.add hR ((iht (fun p hp => hv p (by simp [syms, hp])) (fun c h => hc c (by simp [condsOf, h])) F h1).condition hR hcc)
      ((ihe (fun p hp => hv p (by simp [syms, hp])) (fun c h => hc c (by simp [condsOf, h])) G h2).condition hR (hR.not _ hcc)) h3
  | pow b e ihb ihe =>
    intro hv hc P hP
    cases e with
    | realC q =>
      rw [splitUp, pieceW_pow] at hP
      cases hb : (pieceW simp (addPiece simp)).walk b with
      | error e => rw [hb] at hP; cases hP
      | ok F =>
        rw [hb] at hP
        have hF := ihb (fun p hp => hv p (by simp [syms, hp])) (fun c h => hc c (by simp [condsOf, h])) F hb
        simp only at hP
        split at hP
        · cases hP
        split at hP
        · cases hP
          intro p hp
          simp only [real, List.mem_singleton] at hp
          subst hp
          exact ⟨PExpr.over_const 1, hR.tt⟩
        · exact Made.reduce (fun F G Q a b c => a.mul hR b c) (fun G hG => by rw [(List.mem_replicate.mp hG).2]; exact hF) hP
    | _ =>
      exfalso
      rw [splitUp, Walker.walk_eq (pieceW_decr _ _)] at hP
      change (Prog.call b _ : Prog Formula Pieces).interp _ = _ at hP
      rw [interp] at hP
      cases hb : (pieceW simp (addPiece simp)).walk b with
      | error e => rw [hb] at hP; cases hP
      | ok F => rw [hb] at hP; cases hP

end Pywmi
