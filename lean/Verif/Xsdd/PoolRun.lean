import Verif.Xsdd.PoolEngine
import Verif.Xadd.AlgebraRun
import Verif.Props.NonConvex

set_option linter.unusedSectionVars false
set_option linter.unusedSimpArgs false

/-!
# The traversal of a diagram on a pool simulates the traversal with functions
-/

namespace Pywmi
open Formula MeasureTheory Set SddWalker

section
variable {E R R' : Type} [DecidableEq E] {I : Pool E → Prop} {v : SddWalker R'} {w : PoolWalker E R} {Q : R' → R → Pool E → Prop}

/-- SPEC: the methods of the walker on the pool simulate those of the other walker. -/
structure PoolWalker.Sim (I : Pool E → Prop) (v : SddWalker R') (w : PoolWalker E R) (Q : R' → R → Pool E → Prop) : Prop where
  mono : ∀ {p q r' r}, I p → Fr2 p q → Q r' r p → Q r' r q
  onTrue : ∀ {r' p}, v.onTrue = .ok r' → I p → Run I Fr2 w.onTrue p True (Q r')
  onFalse : ∀ {r' p}, v.onFalse = .ok r' → I p → Run I Fr2 w.onFalse p True (Q r')
  onLit : ∀ {l r' p}, v.onLit l = .ok r' → I p → Run I Fr2 (w.onLit l) p True (Q r')
  onAnd : ∀ {a' b' r' a b p}, v.onAnd a' b' = .ok r' → I p → Q a' a p → Q b' b p → Run I Fr2 (w.onAnd a b) p True (Q r')
  onOr : ∀ {xs' r' xs p}, v.onOr xs' = .ok r' → I p → List.Forall₂ (fun x' x => Q x' x p) xs' xs →
    Run I Fr2 (w.onOr xs) p True (Q r')

theorem XM.mapM_run {α α' : Type} {f : α → XM E R} {f' : α' → Except PyErr R'} {A : α' → α → Pool E → Prop}
    (hQ : ∀ p q r' r, I p → Fr2 p q → Q r' r p → Q r' r q) (hA : ∀ p q a' a, I p → Fr2 p q → A a' a p → A a' a q)
    (h : ∀ a' r' a p, f' a' = .ok r' → I p → A a' a p → Run I Fr2 (f a) p True (Q r')) :
    ∀ {as' : List α'} {as : List α} {rs' : List R'} {p : Pool E}, Prog.mapE f' as' = .ok rs' → I p →
      List.Forall₂ (fun a' a => A a' a p) as' as → Run I Fr2 (XM.mapM f as) p True (fun rs q => List.Forall₂ (fun x' x => Q x' x q) rs' rs)
  | [], [], rs', p, he, hp, _ => by
    simp only [Prog.mapE, Except.ok.injEq] at he
    subst he
    exact Run.ret Fr2.refl hp .nil
  | a' :: as', a :: as, rs', p, he, hp, .cons h1 h2 => by
    simp only [Prog.mapE] at he
    cases e1 : f' a' with
    | error e => rw [e1] at he; cases he
    | ok r' =>
      rw [e1] at he
      cases e2 : Prog.mapE f' as' with
      | error e => rw [e2] at he; cases he
      | ok rs2 =>
        rw [e2] at he
        cases he
        unfold XM.mapM
        refine Run.seq2 (h _ _ _ _ e1 hp h1) id fun r q hq hpq hr => ?_
        refine Run.seq2 (XM.mapM_run hQ hA h e2 hq (h2.imp fun _ _ ha => hA _ _ _ _ hp hpq ha)) id fun rs q2 hq2 h12 hrs => ?_
        exact Run.ret Fr2.refl hq2 (.cons (hQ _ _ _ _ hq h12 hr) hrs)

/-- SPEC: the results kept so far are right. -/
def MemoOk (v : SddWalker R') (Q : R' → R → Pool E → Prop) (memo : List (Sdd × R)) (p : Pool E) : Prop :=
  ∀ s r, memo.lookup s = some r → ∃ r', v.walk s = .ok r' ∧ Q r' r p

theorem MemoOk.mono (hs : PoolWalker.Sim I v w Q) {memo : List (Sdd × R)} {p q : Pool E} (hp : I p) (h : Fr2 p q) (hm : MemoOk v Q memo p) :
    MemoOk v Q memo q := fun s r hl => by
  obtain ⟨r', h1, h2⟩ := hm s r hl
  exact ⟨r', h1, hs.mono hp h h2⟩

theorem MemoOk.cons {memo : List (Sdd × R)} {p : Pool E} {s : Sdd} {r : R} {r' : R'} (hm : MemoOk v Q memo p) (h1 : v.walk s = .ok r')
    (h2 : Q r' r p) : MemoOk v Q ((s, r) :: memo) p := fun t x hl => by
  rw [List.lookup_cons] at hl
  by_cases h : t = s
  · subst h
    simp only [beq_self_eq_true, Option.some.injEq] at hl
    subst hl
    exact ⟨r', h1, h2⟩
  · rw [beq_false_of_ne h] at hl
    exact hm t x hl

theorem PoolWalker.combine_run (hs : PoolWalker.Sim I v w Q) {rs' : List (R' × R')} {rs : List (R × R)} {r' : R'} {p : Pool E}
    (he : v.combine rs' = .ok r') (hp : I p) (h : List.Forall₂ (fun x' x => Q x'.1 x.1 p ∧ Q x'.2 x.2 p) rs' rs) :
    Run I Fr2 (w.combine rs) p True (Q r') := by
  unfold SddWalker.combine at he
  cases e1 : Prog.mapE (fun p => v.onAnd p.1 p.2) rs' with
  | error e => rw [e1] at he; cases he
  | ok xs =>
    rw [e1] at he
    unfold PoolWalker.combine
    refine Run.seq2 (XM.mapM_run (I := I) (Q := Q) (A := fun (x' : R' × R') (x : R × R) p => Q x'.1 x.1 p ∧ Q x'.2 x.2 p) (fun _ _ _ _ => hs.mono)
      (fun _ _ _ _ hp hpq h => ⟨hs.mono hp hpq h.1, hs.mono hp hpq h.2⟩) (fun _ _ _ _ ha hp h => hs.onAnd ha hp h.1 h.2) e1 hp h) id ?_
    intro ys q hq _ hys
    exact hs.onOr he hq hys

theorem PoolWalker.leaf_run (hs : PoolWalker.Sim I v w Q) {s : Sdd} {r' : R'} (hw : v.walk s = .ok r') {m : XM E R}
    {memo : List (Sdd × R)} {p : Pool E} (hp : I p) (hm : MemoOk v Q memo p) (h : Run I Fr2 m p True (Q r')) :
    Run I Fr2 (leaf s m memo) p True (fun x q => Q r' x.1 q ∧ MemoOk v Q x.2 q) := by
  unfold leaf
  cases hl : memo.lookup s with
  | some r =>
    obtain ⟨r2, h1, h2⟩ := hm s r hl
    rw [hw] at h1
    cases h1
    exact Run.ret Fr2.refl hp ⟨h2, hm⟩
  | none =>
    refine Run.seq2 h id fun r q hq hpq hr => ?_
    exact Run.ret Fr2.refl hq ⟨hr, (hm.mono hs hp hpq).cons hw hr⟩

theorem PoolWalker.visitPairs_run (hs : PoolWalker.Sim I v w Q) : ∀ (es : List (Sdd × Sdd)),
    (∀ e ∈ es, (∀ {r' memo p}, v.walk e.1 = .ok r' → I p → MemoOk v Q memo p →
        Run I Fr2 (w.visit e.1 memo) p True (fun x q => Q r' x.1 q ∧ MemoOk v Q x.2 q)) ∧
      ∀ {r' memo p}, v.walk e.2 = .ok r' → I p → MemoOk v Q memo p →
        Run I Fr2 (w.visit e.2 memo) p True (fun x q => Q r' x.1 q ∧ MemoOk v Q x.2 q)) →
    ∀ {rs' : List (R' × R')} {memo : List (Sdd × R)} {p : Pool E}, pairsE v.walk es = .ok rs' → I p → MemoOk v Q memo p →
    Run I Fr2 (w.visitPairs es memo) p True (fun x q => List.Forall₂ (fun y' y => Q y'.1 y.1 q ∧ Q y'.2 y.2 q) rs' x.1 ∧ MemoOk v Q x.2 q)
  | [], _, rs', memo, p, he, hp, hm => by
    simp only [pairsE, Except.ok.injEq] at he
    subst he
    exact Run.ret Fr2.refl hp ⟨.nil, hm⟩
  | (a, b) :: es, ih, rs', memo, p, he, hp, hm => by
    obtain ⟨iha, ihb⟩ := ih (a, b) (by simp)
    simp only [pairsE] at he
    cases e1 : v.walk a with
    | error e => rw [e1] at he; cases he
    | ok r1 =>
      rw [e1] at he
      cases e2 : v.walk b with
      | error e => rw [e2] at he; cases he
      | ok r2 =>
        rw [e2] at he
        cases e3 : pairsE v.walk es with
        | error e => rw [e3] at he; cases he
        | ok rs2 =>
          rw [e3] at he
          cases he
          unfold PoolWalker.visitPairs
          refine Run.seq2 (iha e1 hp hm) id fun x1 q1 hq1 h01 ⟨hx1, hm1⟩ => ?_
          refine Run.seq2 (ihb e2 hq1 hm1) id fun x2 q2 hq2 h12 ⟨hx2, hm2⟩ => ?_
          refine Run.seq2 (PoolWalker.visitPairs_run hs es (fun e he => ih e (by simp [he])) e3 hq2 hm2) id fun x3 q3 hq3 h23 ⟨hx3, hm3⟩ => ?_
          exact Run.ret Fr2.refl hq3 ⟨.cons ⟨hs.mono hq2 h23 (hs.mono hq1 h12 hx1), hs.mono hq2 h23 hx2⟩ hx3, hm3⟩

theorem PoolWalker.visit_run (hs : PoolWalker.Sim I v w Q) (s : Sdd) : ∀ {r' : R'} {memo : List (Sdd × R)} {p : Pool E},
    v.walk s = .ok r' → I p → MemoOk v Q memo p →
    Run I Fr2 (w.visit s memo) p True (fun x q => Q r' x.1 q ∧ MemoOk v Q x.2 q) := by
  induction s using Sdd.induct with
  | tt =>
    intro r' memo p he hp hm
    unfold PoolWalker.visit
    exact PoolWalker.leaf_run hs he hp hm (hs.onTrue (by simpa using he) hp)
  | ff =>
    intro r' memo p he hp hm
    unfold PoolWalker.visit
    exact PoolWalker.leaf_run hs he hp hm (hs.onFalse (by simpa using he) hp)
  | lit l =>
    intro r' memo p he hp hm
    unfold PoolWalker.visit
    exact PoolWalker.leaf_run hs he hp hm (hs.onLit (by simpa using he) hp)
  | dec es ih =>
    intro r' memo p he hp hm
    unfold PoolWalker.visit
    cases hl : memo.lookup (.dec es) with
    | some r =>
      obtain ⟨r2, h1, h2⟩ := hm _ r hl
      rw [he] at h1
      cases h1
      exact Run.ret Fr2.refl hp ⟨h2, hm⟩
    | none =>
      have he' := he
      rw [walk_dec] at he'
      cases e1 : pairsE v.walk es with
      | error e => rw [e1] at he'; cases he'
      | ok rs' =>
        rw [e1] at he'
        refine Run.seq2 (PoolWalker.visitPairs_run hs es ih e1 hp hm) id fun x q hq h0 ⟨hx, hm1⟩ => ?_
        refine Run.seq2 (PoolWalker.combine_run hs he' hq hx) id fun r q2 hq2 h12 hr => ?_
        exact Run.ret Fr2.refl hq2 ⟨hr, (hm1.mono hs hq h12).cons he hr⟩

/-- The traversal on the pool simulates the other traversal. -/
theorem PoolWalker.walk_run (hs : PoolWalker.Sim I v w Q) {s : Sdd} {r' : R'} {p : Pool E} (he : v.walk s = .ok r') (hp : I p) :
    Run I Fr2 (w.walk s) p True (Q r') := by
  unfold PoolWalker.walk
  refine Run.seq2 (PoolWalker.visit_run hs s (memo := []) he hp fun s r h => by cases h) id fun x q hq _ hx => ?_
  exact Run.ret Fr2.refl hq hx.1

end
end Pywmi
