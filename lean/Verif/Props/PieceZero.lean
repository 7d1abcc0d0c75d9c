import Verif.Props.PieceInv

set_option linter.unusedSectionVars false
set_option linter.unusedSimpArgs false

/-!
# The pieces of a weight are not zero

`PiecewiseFunction` drops pieces that are zero when it adds and multiplies.  The only piece of a weight that can be zero is the
single piece of a weight that is zero everywhere.
-/

namespace Pywmi
open Formula Prog

/-- SPEC: a single term with a coefficient that is not zero. -/
def PExpr.NZ : PExpr → Prop
  | .int n => n ≠ 0
  | .poly d => ∃ k c, d = [(k, c)] ∧ c ≠ 0

namespace PExpr

theorem NZ.eq_zero {a : PExpr} (h : a.NZ) : a.eq zero = false := by
  cases a with
  | int n => rfl
  | poly d =>
    obtain ⟨k, c, rfl, hc⟩ := h
    cases h : (poly [(k, c)]).eq zero with
    | false => rfl
    | true =>
      have := ((polyEq_perm (p := [(k, c)]) (q := [([], 0)]) (by simp [KeysNodup]) (by simp [KeysNodup])).mp h)
      rw [List.perm_singleton, List.cons.injEq, Prod.mk.injEq] at this
      exact absurd this.1.2 hc

theorem zero_eq_zero : zero.eq zero = true := by decide

theorem nz_const {c : ℚ} (hc : c ≠ 0) : NZ (.poly (polyConst c)) := ⟨[], c, rfl, hc⟩

theorem mulDict_nz {p q : Dict} (hp : NZ (.poly p)) (hq : NZ (.poly q)) : NZ (.poly (mulDict p q)) := by
  obtain ⟨k, c, rfl, hc⟩ := hp
  obtain ⟨k', c', rfl, hc'⟩ := hq
  have h2 : polyMul [(k, c)] [(k', c')] = .ok [(sortNames (k ++ k'), c * c')] := by
    simp [polyMul, dictTimes, dictTimesAux, dictTimesRow, dictAdd]
  simp only [mulDict, h2]
  exact ⟨_, _, rfl, mul_ne_zero hc hc'⟩

theorem times_nz {a b : PExpr} (ha : a.NZ) (hb : b.NZ) : (a.times b).NZ := by
  unfold times
  rw [ha.eq_zero, hb.eq_zero, Bool.or_false, if_neg (by simp)]
  split
  · exact hb
  split
  · exact ha
  match a, b, ha, hb with
  | .int n, .int m, ha, hb => exact mul_ne_zero ha hb
  | .int n, .poly q, ha, hb => exact mulDict_nz hb (nz_const (by exact_mod_cast ha))
  | .poly p, .int m, ha, hb => exact mulDict_nz ha (nz_const (by exact_mod_cast hb))
  | .poly p, .poly q, ha, hb => exact mulDict_nz ha hb

theorem negate_nz {a : PExpr} (ha : a.NZ) : a.negate.NZ := times_nz ha (nz_const (by norm_num))
theorem double_nz {a : PExpr} (ha : a.NZ) : a.double.NZ := times_nz (a := .int 2) (by simp [NZ]) ha
theorem negate_zero : negate zero = zero := by decide

end PExpr

namespace Pieces
variable {simp : Formula → Formula}

/-- SPEC: no piece is zero. -/
def NoZero (P : List (PExpr × Formula)) : Prop := ∀ p ∈ P, p.1.NZ

/-- SPEC: no piece is zero, or there is only one, which is zero. -/
def ZeroAlone (P : List (PExpr × Formula)) : Prop := NoZero P ∨ ∃ c, P = [(.zero, c)]

theorem ZeroAlone.mem {P : List (PExpr × Formula)} (h : ZeroAlone P) {p : PExpr × Formula} (hp : p ∈ P) : p.1.NZ ∨ p.1 = .zero := by
  rcases h with h | ⟨c, rfl⟩
  · exact .inl (h p hp)
  · exact .inr (by rw [List.mem_singleton.mp hp])

theorem NoZero.set {P : Pieces} (h : NoZero P) {e : PExpr} (he : e.NZ) {c : Formula} : NoZero (P.set e c) := by
  induction P with
  | nil => intro p hp; simp [Pieces.set] at hp; subst hp; exact he
  | cons q P ih =>
    intro p hp
    simp only [Pieces.set] at hp
    split at hp
    · rcases List.mem_cons.mp hp with rfl | hp
      · exact h q (by simp)
      · exact h p (by simp [hp])
    · rcases List.mem_cons.mp hp with rfl | hp
      · exact h p (by simp)
      · exact ih (fun x hx => h x (by simp [hx])) p hp

theorem NoZero.del {P : Pieces} (h : NoZero P) (e : PExpr) : NoZero (P.del e) := fun p hp => h p (mem_del.mp hp).1

theorem NoZero.addPiece {P Q : Pieces} (h : NoZero P) {e : PExpr} (he : e.NZ) {c : Formula}
    (hq : Pieces.addPiece simp P e c = .ok Q) : NoZero Q := by
  unfold Pieces.addPiece at hq
  split at hq
  · cases hq; exact h
  cases hg : P.get e with
  | none =>
    rw [hg] at hq
    cases hq
    exact h.set he
  | some old =>
    rw [hg] at hq
    have h3 : NoZero (if isFalse (simp (mkAnd [mkOr [old, c], mkNot (mkAnd [old, c])])) then P.del e
        else P.set e (simp (mkAnd [mkOr [old, c], mkNot (mkAnd [old, c])]))) := by
      split
      · exact h.del e
      · exact h.set he
    simp only [merge] at hq
    generalize (if isFalse (simp (mkAnd [mkOr [old, c], mkNot (mkAnd [old, c])])) = true then P.del e
        else P.set e (simp (mkAnd [mkOr [old, c], mkNot (mkAnd [old, c])]))) = P1 at h3 hq
    split at hq
    · simp only [Except.ok.injEq] at hq
      subst hq
      exact h3.del _
    · split at hq
      · cases hq
      · simp only [Except.ok.injEq] at hq
        subst hq
        exact h3.set (PExpr.double_nz he)

theorem NoZero.addAll : ∀ {ps : List (PExpr × Formula)} {P Q : Pieces}, NoZero P → NoZero ps →
    Pieces.addAll (Pieces.addPiece simp) P ps = .ok Q → NoZero Q := by
  intro ps
  induction ps with
  | nil => intro P Q h _ hq; simp only [Pieces.addAll, Except.ok.injEq] at hq; subst hq; exact h
  | cons p ps ih =>
    intro P Q h hps hq
    rw [Pieces.addAll] at hq
    cases ha : Pieces.addPiece simp P p.1 p.2 with
    | error e => rw [ha] at hq; cases hq
    | ok P' =>
      rw [ha] at hq
      exact ih (h.addPiece (hps p (by simp)) ha) (fun x hx => hps x (by simp [hx])) hq

theorem NoZero.nil : NoZero [] := fun p hp => by cases hp

theorem ZeroAlone.add {F G Q : Pieces} (hF : ZeroAlone F) (hG : ZeroAlone G)
    (h : Pieces.add (Pieces.addPiece simp) F G = .ok Q) : ZeroAlone Q := by
  unfold Pieces.add at h
  split at h
  · cases h; exact hG
  split at h
  · cases h; exact hF
  refine .inl (NoZero.addAll NoZero.nil (fun p hp => ?_) h)
  rw [List.mem_filter] at hp
  have hz : p.1.NZ ∨ p.1 = .zero := (List.mem_append.mp hp.1).elim hF.mem hG.mem
  refine hz.resolve_right fun h0 => ?_
  have := hp.2
  rw [h0, PExpr.zero_eq_zero] at this
  simp at this

theorem ZeroAlone.mul {F G Q : Pieces} (hF : ZeroAlone F) (hG : ZeroAlone G)
    (h : Pieces.mul simp (Pieces.addPiece simp) F G = .ok Q) : ZeroAlone Q := by
  refine .inl (NoZero.addAll NoZero.nil (fun p hp => ?_) h)
  obtain ⟨a, ha, hp⟩ := List.mem_flatMap.mp hp
  obtain ⟨b, hb, hp⟩ := List.mem_flatMap.mp hp
  simp only [mulPair] at hp
  split at hp
  · rename_i hc
    split at hp
    · simp only [List.mem_singleton] at hp
      subst hp
      have a1 : a.1.NZ := (hF.mem ha).resolve_right fun h0 => by
        rw [h0, PExpr.zero_eq_zero] at hc
        simp at hc
      have b1 : b.1.NZ := (hG.mem hb).resolve_right fun h0 => by
        rw [h0, PExpr.zero_eq_zero] at hc
        simp at hc
      simp only [timesExpr]
      split
      · exact b1
      split
      · exact a1
      · exact PExpr.times_nz a1 b1
    · cases hp
  · cases hp

theorem ZeroAlone.neg {F : Pieces} (hF : ZeroAlone F) : ZeroAlone F.neg := by
  rcases hF with hF | ⟨c, rfl⟩
  · left
    unfold Pieces.neg
    suffices H : ∀ (F acc : Pieces), NoZero F → NoZero acc →
        NoZero (F.foldl (fun (acc : Pieces) p => Pieces.set acc p.1.negate p.2) acc) from H F [] hF NoZero.nil
    clear hF F
    intro F
    induction F with
    | nil => intro acc _ h; exact h
    | cons p F ih =>
      intro acc hF h
      exact ih _ (fun x hx => hF x (by simp [hx])) (h.set (PExpr.negate_nz (hF p (by simp))))
  · exact .inr ⟨c, by simp [Pieces.neg, Pieces.set, PExpr.negate_zero]⟩

theorem ZeroAlone.condition {F : Pieces} (hF : ZeroAlone F) (c : Formula) : ZeroAlone (F.condition c) := by
  rcases hF with hF | ⟨c', rfl⟩
  · left
    intro p hp
    obtain ⟨q, hq, rfl⟩ := List.mem_map.mp hp
    exact hF q hq
  · exact .inr ⟨_, rfl⟩

theorem ZeroAlone.reduce {op : Pieces → Pieces → Except PyErr Pieces}
    (hop : ∀ F G Q, ZeroAlone F → ZeroAlone G → op F G = .ok Q → ZeroAlone Q) {Fs : List Pieces} {Q : Pieces}
    (hF : ∀ F ∈ Fs, ZeroAlone F) (h : Pieces.reduce op Fs = .ok Q) : ZeroAlone Q := by
  have go : ∀ (Fs : List Pieces) (F Q : Pieces), ZeroAlone F → (∀ G ∈ Fs, ZeroAlone G) → reduce.go op F Fs = .ok Q → ZeroAlone Q := by
    intro Fs
    induction Fs with
    | nil => intro F Q h _ hq; simp only [reduce.go, Except.ok.injEq] at hq; subst hq; exact h
    | cons G Gs ih =>
      intro F Q hF hG hq
      rw [reduce.go] at hq
      cases ho : op F G with
      | error e => rw [ho] at hq; cases hq
      | ok H =>
        rw [ho] at hq
        exact ih H Q (hop F G H hF (hG G (by simp)) ho) (fun x hx => hG x (by simp [hx])) hq
  cases Fs with
  | nil => cases h
  | cons F Fs => exact go Fs F Q (hF F (by simp)) (fun x hx => hF x (by simp [hx])) h

theorem ZeroAlone.real (q : ℚ) : ZeroAlone (real q) := by
  by_cases h : q = 0
  · subst h; exact .inr ⟨_, rfl⟩
  · left
    intro p hp
    rw [List.mem_singleton.mp hp]
    exact PExpr.nz_const h

end Pieces

open Pieces in
/-- **C46**: a weight with more than one piece has no piece that is zero. -/
theorem splitUp_zeroAlone {simp : Formula → Formula} : ∀ f : Formula, ∀ P, splitUp simp f = .ok P → ZeroAlone P := by
  have bad : ∀ (f : Formula) (e : PyErr), (pieceW simp (addPiece simp)).dispatch f = .fail e → ∀ P, splitUp simp f ≠ .ok P := by
    intro f e hd P h
    rw [splitUp, Walker.walk_eq (pieceW_decr _ _), hd] at h
    cases h
  have lst : ∀ {as : List Formula} {f : Formula} {op : Pieces → Pieces → Except PyErr Pieces} {P : Pieces},
      (∀ a ∈ as, ∀ P, splitUp simp a = .ok P → ZeroAlone P) →
      (pieceW simp (addPiece simp)).dispatch f = .callAll as (fun Fs => .ofExcept (reduce op Fs)) →
      (∀ F G Q, ZeroAlone F → ZeroAlone G → op F G = .ok Q → ZeroAlone Q) → splitUp simp f = .ok P → ZeroAlone P := by
    intro as f op P ih hd hop h
    obtain ⟨Fs, h1, h2⟩ := (pieceW_list hd).mp h
    refine ZeroAlone.reduce hop (fun F hF => ?_) h2
    obtain ⟨a, ha, hm⟩ := forall₂_mem_right (mapE_spec (Q := fun a F => a ∈ as ∧ splitUp simp a = .ok F) h1
      fun a ha r hr => ⟨ha, hr⟩) F hF
    exact ih a ha F hm.2
  intro f
  induction f using Formula.induct with
  | and as ih => intro P h; exact absurd h (bad _ _ rfl P)
  | or as ih => intro P h; exact absurd h (bad _ _ rfl P)
  | implies l r ihl ihr =>
    intro P h
    refine absurd h ?_
    rw [splitUp, Walker.walk_eq (pieceW_decr _ _)]
    show (Prog.call (.or [mkNot l, r]) _ : Prog Formula Pieces).interp _ ≠ _
    rw [interp, Walker.walk_eq (pieceW_decr _ _)]
    intro h; cases h
  | not a ih => intro P h; exact absurd h (bad _ _ rfl P)
  | iff l r ihl ihr =>
    intro P h
    refine absurd h ?_
    rw [splitUp, Walker.walk_eq (pieceW_decr _ _)]
    intro h; cases h
  | le l r ihl ihr => intro P h; exact absurd h (bad _ _ rfl P)
  | lt l r ihl ihr => intro P h; exact absurd h (bad _ _ rfl P)
  | equals l r ihl ihr => intro P h; exact absurd h (bad _ _ rfl P)
  | boolC b => intro P h; exact absurd h (bad _ _ rfl P)
  | sym n t =>
    intro P hP
    cases t with
    | bool => exact absurd hP (bad _ _ rfl P)
    | real =>
      rw [splitUp, Walker.walk_eq (pieceW_decr _ _)] at hP
      simp only [Walker.dispatch, pieceW, interp, Except.ok.injEq] at hP
      subst hP
      left
      intro p hp
      simp only [symbol, List.mem_singleton] at hp
      subst hp
      exact ⟨_, _, rfl, one_ne_zero⟩
  | realC q =>
    intro P hP
    rw [splitUp, Walker.walk_eq (pieceW_decr _ _)] at hP
    simp only [Walker.dispatch, pieceW, interp, Except.ok.injEq] at hP
    subst hP
    exact ZeroAlone.real q
  | plus as ih => intro P hP; exact lst ih rfl (fun F G Q a b c => a.add b c) hP
  | times as ih => intro P hP; exact lst ih rfl (fun F G Q a b c => a.mul b c) hP
  | minus l r ihl ihr =>
    intro P hP
    obtain ⟨F, G, h1, h2, h3⟩ := (pieceW_two (f := .minus l r) rfl).mp hP
    exact ZeroAlone.add (ihl F h1) (ihr G h2).neg h3
  | ite c t e ihc iht ihe =>
    intro P hP
    obtain ⟨F, G, h1, h2, h3⟩ := (pieceW_two (f := .ite c t e) rfl).mp hP
    exact ZeroAlone.add ((iht F h1).condition c) ((ihe G h2).condition _) h3
  | pow b e ihb ihe =>
    intro P hP
    cases e with
    | realC q =>
      rw [splitUp, pieceW_pow] at hP
      cases hb : (pieceW simp (addPiece simp)).walk b with
      | error e => rw [hb] at hP; cases hP
      | ok F =>
        rw [hb] at hP
        have hF := ihb F hb
        simp only at hP
        split at hP
        · cases hP
        split at hP
        · cases hP
          exact ZeroAlone.real 1
        · exact ZeroAlone.reduce (fun F G Q a b c => a.mul b c) (fun G hG => by rw [(List.mem_replicate.mp hG).2]; exact hF) hP
    | _ =>
      exfalso
      rw [splitUp, Walker.walk_eq (pieceW_decr _ _)] at hP
      change (Prog.call b _ : Prog Formula Pieces).interp _ = _ at hP
      rw [interp] at hP
      cases hb : (pieceW simp (addPiece simp)).walk b with
      | error e => rw [hb] at hP; cases hP
      | ok F => rw [hb] at hP; cases hP

end Pywmi
