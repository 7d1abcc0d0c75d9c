import Verif.Props.Sdd
import Verif.Props.Vtree
import Verif.Props.IntTree
import Verif.Xsdd.Compile
import Verif.Smt.Congr

set_option linter.unusedSectionVars false
set_option linter.unusedSimpArgs false

/-!
# SDD compilation and recovery (C40)
-/

namespace Pywmi
open Formula Prog

/-! ### SDDs over a vtree -/

namespace Sdd

/-- SPEC: an SDD that respects a vtree: constants, literals of its leaves, diagrams of a subtree, and decision nodes
whose primes (over the left subtree) exclude each other and cover all assignments, with subs over the right subtree. -/
inductive Over : Vtree ℕ → Sdd → Prop where
  | tt (t) : Over t .tt
  | ff (t) : Over t .ff
  | lit (v : ℕ) (l : ℤ) : l ≠ 0 → l.natAbs = v → Over (.var v) (.lit l)
  | left (l r s) : Over l s → Over (.split l r) s
  | right (l r s) : Over r s → Over (.split l r) s
  | dec (l r) (es : List (Sdd × Sdd)) : (∀ e ∈ es, Over l e.1) → (∀ e ∈ es, Over r e.2) →
      (es.Pairwise fun e f => ∀ β, ¬(e.1.eval β = true ∧ f.1.eval β = true)) →
      (∀ β, ∃ e ∈ es, e.1.eval β = true) → Over (.split l r) (.dec es)

theorem Over.vars {t : Vtree ℕ} {s : Sdd} (h : Over t s) : ∀ n ∈ s.vars, n ∈ t.leaves := by
  induction h with
  | tt => simp [Sdd.vars]
  | ff => simp [Sdd.vars]
  | lit v l _ h => simp [Sdd.vars, Vtree.leaves, h]
  | left l r s _ ih => intro n hn; simp [Vtree.leaves, ih n hn]
  | right l r s _ ih => intro n hn; simp [Vtree.leaves, ih n hn]
  | dec l r es _ _ _ _ ih1 ih2 =>
    intro n hn
    obtain ⟨e, he, h | h⟩ := mem_varsList.mp hn
    · simp [Vtree.leaves, ih1 e he n h]
    · simp [Vtree.leaves, ih2 e he n h]

/-- An SDD over a vtree whose leaves are distinct has the structure the traversals need. -/
theorem Over.wf {t : Vtree ℕ} {s : Sdd} (h : Over t s) (hn : t.leaves.Nodup) : s.WF := by
  induction h with
  | tt => exact .tt
  | ff => exact .ff
  | lit v l h _ => exact .lit l h
  | left l r s _ ih => exact ih (List.nodup_append.mp hn).1
  | right l r s _ ih => exact ih (List.nodup_append.mp hn).2.1
  | dec l r es h1 h2 h3 _ ih1 ih2 =>
    obtain ⟨n1, n2, n3⟩ := List.nodup_append.mp hn
    refine .dec es (fun e he => ih1 e he n1) (fun e he => ih2 e he n2) (fun e he => ?_) h3
    exact Finset.disjoint_left.mpr fun n hp hs => n3 n ((h1 e he).vars n hp) n ((h2 e he).vars n hs) rfl

end Sdd

/-- SPEC: the operations stay within a class of diagrams and have the meaning their names say. -/
structure SddManager.Respects (M : SddManager) (P : Sdd → Prop) : Prop where
  conjoin : ∀ a b, P a → P b → P (M.conjoin a b) ∧ ∀ β, (M.conjoin a b).eval β = (a.eval β && b.eval β)
  disjoin : ∀ a b, P a → P b → P (M.disjoin a b) ∧ ∀ β, (M.disjoin a b).eval β = (a.eval β || b.eval β)
  negate : ∀ a, P a → P (M.negate a) ∧ ∀ β, (M.negate a).eval β = !a.eval β

/-- SPEC: what is assumed of the external library for a vtree: its operations yield diagrams over the vtree with the right
meaning, and constants from constants. -/
structure SddManager.Ok (M : SddManager) (t : Vtree ℕ) : Prop where
  over : M.Respects (Sdd.Over t)
  const : M.Respects (Sdd.Over .empty)

theorem over_literal {t : Vtree ℕ} {n : ℕ} (h : n ∈ t.leaves) (h0 : n ≠ 0) : Sdd.Over t (.lit n) := by
  induction t with
  | empty => cases h
  | var v =>
    simp only [Vtree.leaves, List.mem_singleton] at h
    exact .lit v n (by exact_mod_cast h0) (by simp [h])
  | split l r il ir =>
    rcases List.mem_append.mp h with h | h
    · exact .left _ _ _ (il h)
    · exact .right _ _ _ (ir h)

/-! ### A manager that meets the assumption -/

namespace Sdd

/-- Set the variables of a list to membership in another list. -/
def setTo (vs a : List ℕ) (β : ℕ → Bool) : ℕ → Bool := fun n => if n ∈ vs then decide (n ∈ a) else β n

/-- The diagram of a Boolean function over a vtree. -/
def build : Vtree ℕ → ((ℕ → Bool) → Bool) → Sdd
  | .empty, φ => if φ fun _ => false then .tt else .ff
  | .var v, φ =>
    match φ fun _ => true, φ fun _ => false with
    | true, true => .tt
    | true, false => .lit v
    | false, true => .lit (-v)
    | false, false => .ff
  | .split l r, φ => .dec (l.leaves.sublists.map fun a =>
      (build l fun β => l.leaves.all fun n => β n == decide (n ∈ a), build r fun β => φ (setTo l.leaves a β)))

/-- The node is a constant. -/
def isConst (s : Sdd) : Bool := s == .tt || s == .ff

/-- Truth tables as a manager. -/
def refManager (t : Vtree ℕ) : SddManager where
  conjoin a b := build (if a.isConst && b.isConst then .empty else t) fun β => a.eval β && b.eval β
  disjoin a b := build (if a.isConst && b.isConst then .empty else t) fun β => a.eval β || b.eval β
  negate a := build (if a.isConst then .empty else t) fun β => !a.eval β

theorem filter_sublist_eq {vs : List ℕ} (hn : vs.Nodup) {a : List ℕ} (h : a ∈ vs.sublists) :
    vs.filter (fun n => decide (n ∈ a)) = a := by
  rw [List.mem_sublists] at h
  induction h with
  | slnil => rfl
  | @cons l1 l2 x hs ih =>
    obtain ⟨h1, h2⟩ := List.nodup_cons.mp hn
    have : x ∉ l1 := fun hx => h1 (hs.subset hx)
    simp [this, ih h2]
  | @cons_cons l1 l2 x hs ih =>
    obtain ⟨h1, h2⟩ := List.nodup_cons.mp hn
    simp only [List.filter_cons, List.mem_cons, true_or, decide_true, if_true]
    congr 1
    have : l2.filter (fun n => decide (n = x ∨ n ∈ l1)) = l2.filter fun n => decide (n ∈ l1) :=
      List.filter_congr fun n hn' => by
        have : n ≠ x := fun e => h1 (e ▸ hn')
        simp [this]
    rw [this]
    exact ih h2

theorem build_spec (t : Vtree ℕ) : t.leaves.Nodup → (∀ n ∈ t.leaves, n ≠ 0) → ∀ φ : (ℕ → Bool) → Bool,
    (∀ β γ, (∀ n ∈ t.leaves, β n = γ n) → φ β = φ γ) → Over t (build t φ) ∧ ∀ β, (build t φ).eval β = φ β := by
  induction t with
  | empty =>
    intro _ _ φ hφ
    have h : ∀ β, φ β = φ fun _ => false := fun β => hφ _ _ (by simp [Vtree.leaves])
    unfold build
    split
    · rename_i h0; exact ⟨.tt _, fun β => by rw [h, h0]; rfl⟩
    · rename_i h0; exact ⟨.ff _, fun β => by rw [h]; simpa [eval] using h0⟩
  | var v =>
    intro _ h0 φ hφ
    have hv : v ≠ 0 := h0 v (by simp [Vtree.leaves])
    have h : ∀ β, φ β = φ fun _ => β v := fun β => hφ _ _ (by simp [Vtree.leaves])
    unfold build
    split
    · rename_i h1 h2
      exact ⟨.tt _, fun β => by rw [h]; cases β v <;> simp [eval, h1, h2]⟩
    · rename_i h1 h2
      refine ⟨.lit v _ (by exact_mod_cast hv) (by simp), fun β => ?_⟩
      rw [h]; cases hb : β v <;> simp [eval, h1, h2, hb]
    · rename_i h1 h2
      refine ⟨.lit v _ (by simpa using hv) (by simp), fun β => ?_⟩
      have : 0 < v := by omega
      rw [h]; cases hb : β v <;> simp [eval, h1, h2, hb, this]
    · rename_i h1 h2
      exact ⟨.ff _, fun β => by rw [h]; cases β v <;> simp [eval, h1, h2]⟩
  | split l r il ir =>
    intro hn h0 φ hφ
    obtain ⟨n1, n2, n3⟩ := List.nodup_append.mp hn
    have hl := il n1 fun n hn => h0 n (by simp [Vtree.leaves, hn])
    have hr := ir n2 fun n hn => h0 n (by simp [Vtree.leaves, hn])
    have prime : ∀ a : List ℕ, Over l (build l fun β => l.leaves.all fun n => β n == decide (n ∈ a)) ∧
        ∀ β, (build l fun β => l.leaves.all fun n => β n == decide (n ∈ a)).eval β =
          l.leaves.all fun n => β n == decide (n ∈ a) := fun a => hl _ fun β γ h => by
      exact Bool.eq_iff_iff.mpr (by
        simp only [List.all_eq_true, beq_iff_eq]
        exact ⟨fun H n hn => by rw [← h n hn, H n hn], fun H n hn => by rw [h n hn, H n hn]⟩)
    have sub : ∀ a : List ℕ, Over r (build r fun β => φ (setTo l.leaves a β)) ∧
        ∀ β, (build r fun β => φ (setTo l.leaves a β)).eval β = φ (setTo l.leaves a β) := fun a =>
      hr _ fun β γ h => hφ _ _ fun n hn => by
        unfold setTo
        split
        · rfl
        · rename_i hnl
          exact h n ((List.mem_append.mp hn).resolve_left hnl)
    have key : ∀ β : ℕ → Bool, ∃ a ∈ l.leaves.sublists, ∀ n ∈ l.leaves, β n = decide (n ∈ a) := fun β =>
      ⟨l.leaves.filter β, List.mem_sublists.mpr List.filter_sublist, fun n hn => by
        cases hb : β n <;> simp [hn, hb]⟩
    constructor
    · refine .dec _ _ _ ?_ ?_ ?_ ?_
      · intro e he
        obtain ⟨a, _, rfl⟩ := List.mem_map.mp he
        exact (prime a).1
      · intro e he
        obtain ⟨a, _, rfl⟩ := List.mem_map.mp he
        exact (sub a).1
      · rw [List.pairwise_map]
        refine (List.nodup_sublists.mpr n1).imp_of_mem fun {a b} ha hb hab β ⟨h1, h2⟩ => hab ?_
        simp only [(prime _).2, List.all_eq_true, beq_iff_eq] at h1 h2
        rw [← filter_sublist_eq n1 ha, ← filter_sublist_eq n1 hb]
        exact List.filter_congr fun n hn => by rw [← h1 n hn, ← h2 n hn]
      · intro β
        obtain ⟨a, ha, h⟩ := key β
        refine ⟨_, List.mem_map.mpr ⟨a, ha, rfl⟩, ?_⟩
        simp only [(prime _).2, List.all_eq_true, beq_iff_eq]
        exact h
    · intro β
      simp only [build, eval, evalAny_eq, List.any_map]
      have hov : ∀ a : List ℕ, (∀ n ∈ l.leaves, β n = decide (n ∈ a)) → φ (setTo l.leaves a β) = φ β := fun a h =>
        hφ _ _ fun n _ => by
          unfold setTo
          split
          · rename_i hnl; exact (h n hnl).symm
          · rfl
      refine Bool.eq_iff_iff.mpr ?_
      simp only [List.any_eq_true, Function.comp, (prime _).2, (sub _).2, Bool.and_eq_true, List.all_eq_true, beq_iff_eq]
      constructor
      · rintro ⟨a, _, h1, h2⟩
        rw [← hov a h1]; exact h2
      · intro h
        obtain ⟨a, ha, h1⟩ := key β
        exact ⟨a, ha, h1, by rw [hov a h1]; exact h⟩

theorem isConst_iff {s : Sdd} : s.isConst = true ↔ Over .empty s := by
  constructor
  · intro h
    simp only [isConst, Bool.or_eq_true, beq_iff_eq] at h
    rcases h with rfl | rfl
    · exact .tt _
    · exact .ff _
  · intro h
    cases h <;> simp [isConst]

theorem Over.weaken {s : Sdd} (t : Vtree ℕ) (h : Over .empty s) : Over t s := by
  cases h
  · exact .tt _
  · exact .ff _

/-- The assumption on the external library can be met, for every vtree. -/
theorem refManager_ok {t : Vtree ℕ} (hn : t.leaves.Nodup) (h0 : ∀ n ∈ t.leaves, n ≠ 0) : (refManager t).Ok t := by
  have key : ∀ (c : Bool) (φ : (ℕ → Bool) → Bool), (∀ β γ, (∀ n ∈ t.leaves, β n = γ n) → φ β = φ γ) →
      (c = true → ∀ β γ, φ β = φ γ) → Over t (build (if c then .empty else t) φ) ∧
        (c = true → Over .empty (build (if c then .empty else t) φ)) ∧
        ∀ β, (build (if c then .empty else t) φ).eval β = φ β := by
    intro c φ h1 h2
    cases c with
    | true =>
      obtain ⟨g1, g2⟩ := build_spec .empty (by simp [Vtree.leaves]) (by simp [Vtree.leaves]) φ fun β γ _ => h2 rfl β γ
      exact ⟨g1.weaken t, fun _ => g1, g2⟩
    | false =>
      obtain ⟨g1, g2⟩ := build_spec t hn h0 φ h1
      exact ⟨g1, by simp, g2⟩
  have cc : ∀ {a : Sdd}, a.isConst = true → ∀ β γ, a.eval β = a.eval γ := fun h β γ =>
    eval_congr _ fun n hn => by simpa [Vtree.leaves] using (isConst_iff.mp h).vars n hn
  have two : ∀ (op : Bool → Bool → Bool) {a b : Sdd}, Over t a → Over t b →
      (∀ β γ, (∀ n ∈ t.leaves, β n = γ n) → op (a.eval β) (b.eval β) = op (a.eval γ) (b.eval γ)) ∧
      ((a.isConst && b.isConst) = true → ∀ β γ, op (a.eval β) (b.eval β) = op (a.eval γ) (b.eval γ)) := by
    intro op a b ha hb
    refine ⟨fun β γ h => ?_, fun h β γ => ?_⟩
    · rw [eval_congr a fun n hn => h n (ha.vars n hn), eval_congr b fun n hn => h n (hb.vars n hn)]
    · simp only [Bool.and_eq_true] at h
      rw [cc h.1 β γ, cc h.2 β γ]
  have one : ∀ {a : Sdd}, Over t a → (∀ β γ, (∀ n ∈ t.leaves, β n = γ n) → (!a.eval β) = !a.eval γ) ∧
      (a.isConst = true → ∀ β γ, (!a.eval β) = !a.eval γ) := by
    intro a ha
    refine ⟨fun β γ h => ?_, fun h β γ => ?_⟩
    · rw [eval_congr a fun n hn => h n (ha.vars n hn)]
    · rw [cc h β γ]
  refine ⟨⟨fun a b ha hb => ?_, fun a b ha hb => ?_, fun a ha => ?_⟩, ⟨fun a b ha hb => ?_, fun a b ha hb => ?_, fun a ha => ?_⟩⟩
  · obtain ⟨h1, h2, h3⟩ := key (a.isConst && b.isConst) _ (two (· && ·) ha hb).1 (two (· && ·) ha hb).2
    exact ⟨h1, h3⟩
  · obtain ⟨h1, h2, h3⟩ := key (a.isConst && b.isConst) _ (two (· || ·) ha hb).1 (two (· || ·) ha hb).2
    exact ⟨h1, h3⟩
  · obtain ⟨h1, h2, h3⟩ := key a.isConst _ (one ha).1 (one ha).2
    exact ⟨h1, h3⟩
  · obtain ⟨h1, h2, h3⟩ := key (a.isConst && b.isConst) _ (two (· && ·) (ha.weaken t) (hb.weaken t)).1
      (two (· && ·) (ha.weaken t) (hb.weaken t)).2
    exact ⟨h2 (by simp [isConst_iff.mpr ha, isConst_iff.mpr hb]), h3⟩
  · obtain ⟨h1, h2, h3⟩ := key (a.isConst && b.isConst) _ (two (· || ·) (ha.weaken t) (hb.weaken t)).1
      (two (· || ·) (ha.weaken t) (hb.weaken t)).2
    exact ⟨h2 (by simp [isConst_iff.mpr ha, isConst_iff.mpr hb]), h3⟩
  · obtain ⟨h1, h2, h3⟩ := key a.isConst _ (one (ha.weaken t)).1 (one (ha.weaken t)).2
    exact ⟨h2 (isConst_iff.mpr ha), h3⟩

end Sdd

/-! ### Compilation -/

theorem sddW_decr (M : SddManager) (varnums : List (String × ℕ)) : (sddW M varnums).Decr := by
  apply Walker.decr_of
  · intro as n h; exact callsBelow_callAll h fun _ => callsBelow_ofExcept _ _ _
  · intro as n h; exact callsBelow_callAll h fun _ => callsBelow_ofExcept _ _ _
  · intros; trivial
  · intros; trivial
  · intro a n h; exact ⟨h, fun _ => trivial⟩
  · intros; trivial
  · intro c t e n hc ht he
    exact ⟨hc, fun _ => ⟨ht, fun _ => ⟨he, fun _ => trivial⟩⟩⟩
  · intros; trivial
  · intros; trivial
  · intros; trivial
  · intros; trivial
  · intro m t n
    show CallsBelow _ _ (if t = .bool then _ else _)
    split
    · split <;> trivial
    · trivial
  · intros; trivial
  · intros; trivial
  · exact Walker.implies_default_below

theorem sddW_cwalk (M : SddManager) (varnums : List (String × ℕ)) (f : Formula) :
    (cwalk (sddW M varnums).dispatch msize id f []).1 = (sddW M varnums).walk f :=
  (crun_sound (sddW_decr M varnums) (fun i j h => by rw [show i = j from h]) _ f [] (Nat.lt_succ_self _)
    (fun _ _ h => by cases h)).1

theorem reduceSdd_spec {op : Sdd → Sdd → Sdd} {t : Vtree ℕ} {bop : Bool → Bool → Bool}
    (hop : ∀ a b, Sdd.Over t a → Sdd.Over t b → Sdd.Over t (op a b) ∧ ∀ β, (op a b).eval β = bop (a.eval β) (b.eval β))
    {ss : List Sdd} (hne : ss ≠ []) (hs : ∀ s ∈ ss, Sdd.Over t s) :
    ∃ r, reduceSdd op ss = .ok r ∧ Sdd.Over t r ∧
      ∀ β, r.eval β = (ss.tail.map (·.eval β)).foldl bop ((ss.head hne).eval β) := by
  match ss, hne with
  | s :: ss, _ =>
    have key : ∀ (ss : List Sdd) (s : Sdd), Sdd.Over t s → (∀ x ∈ ss, Sdd.Over t x) →
        Sdd.Over t (ss.foldl op s) ∧ ∀ β, (ss.foldl op s).eval β = (ss.map (·.eval β)).foldl bop (s.eval β) := by
      intro ss
      induction ss with
      | nil => intro s h _; exact ⟨h, fun _ => rfl⟩
      | cons x ss ih =>
        intro s h hx
        obtain ⟨h1, h2⟩ := hop s x h (hx x (by simp))
        obtain ⟨h3, h4⟩ := ih _ h1 fun y hy => hx y (by simp [hy])
        exact ⟨h3, fun β => by simp only [List.foldl_cons, List.map_cons, h4, h2]⟩
    obtain ⟨h1, h2⟩ := key ss s (hs s (by simp)) fun x hx => hs x (by simp [hx])
    exact ⟨_, rfl, h1, h2⟩

theorem foldl_and (bs : List Bool) (b : Bool) : bs.foldl (· && ·) b = (b && bs.all id) := by
  induction bs generalizing b with
  | nil => simp
  | cons c bs ih => simp [ih, Bool.and_assoc]

theorem foldl_or (bs : List Bool) (b : Bool) : bs.foldl (· || ·) b = (b || bs.any id) := by
  induction bs generalizing b with
  | nil => simp
  | cons c bs ih => simp [ih, Bool.or_assoc]

section
variable {K : Type} [Field K] [LinearOrder K]

/-- SPEC: the assignment of literal names given by an assignment of their numbers. -/
def nameEnv (varnums : List (String × ℕ)) (β : ℕ → Bool) : Env K :=
  ⟨fun l => match varnums.lookup l with | some n => β n | none => false, fun _ => 0⟩

/-- What compiling a subformula yields. -/
def Compiles (M : SddManager) (varnums : List (String × ℕ)) (t : Vtree ℕ) (K : Type) [Field K] [LinearOrder K]
    (f : Formula) : Prop :=
  ∃ s, (sddW M varnums).walk f = .ok s ∧ Sdd.Over t s ∧ ∀ β, s.eval β = truth (nameEnv (K := K) varnums β) f

theorem compile_walk {M : SddManager} {varnums : List (String × ℕ)} {t : Vtree ℕ} (hM : M.Respects (Sdd.Over t))
    (hlit : ∀ l n, varnums.lookup l = some n → n ∈ t.leaves ∧ n ≠ 0) : ∀ (m : ℕ) (f : Formula), msize f < m →
    wt .bool f = true → atoms f = [] → (∀ p ∈ syms f, p.1 ∈ varnums.map (·.1)) → Compiles M varnums t K f := by
  intro m
  induction m with
  | zero => intro f h; omega
  | succ m ih =>
    intro f hm hw ha hs
    have lst : ∀ as : List Formula, as ≠ [] → (∀ a ∈ as, Compiles M varnums t K a) →
        ∃ ss, mapE (sddW M varnums).walk as = .ok ss ∧ ss ≠ [] ∧ (∀ s ∈ ss, Sdd.Over t s) ∧
          ∀ β, ss.map (·.eval β) = as.map (truth (nameEnv (K := K) varnums β)) := by
      intro as
      induction as with
      | nil => intro h; exact absurd rfl h
      | cons a as ih' =>
        intro _ h
        obtain ⟨s, h1, h2, h3⟩ := h a (by simp)
        by_cases hne : as = []
        · subst hne
          exact ⟨[s], by simp [mapE, h1], by simp, by simpa using h2, fun β => by simp [h3]⟩
        · obtain ⟨ss, g1, _, g3, g4⟩ := ih' hne fun x hx => h x (by simp [hx])
          exact ⟨s :: ss, by simp [mapE, h1, g1], by simp, by simpa using ⟨h2, g3⟩, fun β => by simp [h3, g4]⟩
    have headtail : ∀ {ss : List Sdd} (hne : ss ≠ []) (β : ℕ → Bool) (bs : List Bool), ss.map (·.eval β) = bs →
        ((ss.tail.map (·.eval β)).foldl (· && ·) ((ss.head hne).eval β) = bs.all id) ∧
        ((ss.tail.map (·.eval β)).foldl (· || ·) ((ss.head hne).eval β) = bs.any id) := by
      intro ss hne β bs hb
      match ss, hne with
      | s :: ss, _ => subst hb; simp [foldl_and, foldl_or, Function.comp_def]
    have conj : ∀ as : List Formula, as ≠ [] → (∀ a ∈ as, Compiles M varnums t K a) →
        ∃ s, ((sddW M varnums).onAnd as).interp (sddW M varnums).walk = .ok s ∧ Sdd.Over t s ∧
          ∀ β, s.eval β = as.all (truth (nameEnv (K := K) varnums β)) := by
      intro as hne h
      obtain ⟨ss, h1, h2, h3, h4⟩ := lst as hne h
      obtain ⟨r, g1, g2, g3⟩ := reduceSdd_spec (bop := (· && ·)) hM.conjoin h2 h3
      refine ⟨r, (by
        show interp _ (Prog.callAll as fun rs => .ofExcept (reduceSdd M.conjoin rs)) = _
        rw [interp_callAll, h1]
        simpa using g1), g2, fun β => ?_⟩
      rw [g3, (headtail h2 β _ (h4 β)).1]; simp [List.all_map, Function.comp_def]
    have disj : ∀ as : List Formula, as ≠ [] → (∀ a ∈ as, Compiles M varnums t K a) →
        ∃ s, ((sddW M varnums).onOr as).interp (sddW M varnums).walk = .ok s ∧ Sdd.Over t s ∧
          ∀ β, s.eval β = as.any (truth (nameEnv (K := K) varnums β)) := by
      intro as hne h
      obtain ⟨ss, h1, h2, h3, h4⟩ := lst as hne h
      obtain ⟨r, g1, g2, g3⟩ := reduceSdd_spec (bop := (· || ·)) hM.disjoin h2 h3
      refine ⟨r, (by
        show interp _ (Prog.callAll as fun rs => .ofExcept (reduceSdd M.disjoin rs)) = _
        rw [interp_callAll, h1]
        simpa using g1), g2, fun β => ?_⟩
      rw [g3, (headtail h2 β _ (h4 β)).2]; simp [List.any_map, Function.comp_def]
    unfold Compiles
    rw [Walker.walk_eq (sddW_decr M varnums)]
    cases f with
    | and as =>
      simp only [wt, Bool.and_eq_true, wtAll_iff] at hw
      obtain ⟨s, h1, h2, h3⟩ := conj as (by simpa using hw.1) fun a h => ih a
        (by have := msize_lt_of_mem h; simp only [msize] at hm; omega) (hw.2 a h)
        (List.eq_nil_iff_forall_not_mem.mpr fun x hx => by
          have : x ∈ atoms (.and as) := mem_atomsList.mpr ⟨a, h, hx⟩
          rw [ha] at this; cases this)
        (fun p hp => hs p (mem_symsList.mpr ⟨a, h, hp⟩))
      exact ⟨s, h1, h2, fun β => by rw [h3]; simp [truth, truthAll_eq]⟩
    | or as =>
      simp only [wt, Bool.and_eq_true, wtAll_iff] at hw
      obtain ⟨s, h1, h2, h3⟩ := disj as (by simpa using hw.1) fun a h => ih a
        (by have := msize_lt_of_mem h; simp only [msize] at hm; omega) (hw.2 a h)
        (List.eq_nil_iff_forall_not_mem.mpr fun x hx => by
          have : x ∈ atoms (.or as) := mem_atomsList.mpr ⟨a, h, hx⟩
          rw [ha] at this; cases this)
        (fun p hp => hs p (mem_symsList.mpr ⟨a, h, hp⟩))
      exact ⟨s, h1, h2, fun β => by rw [h3]; simp [truth, truthAny_eq]⟩
    | not a =>
      obtain ⟨s, h1, h2, h3⟩ := ih a (by simp only [msize] at hm; omega) hw ha hs
      refine ⟨M.negate s, (by
        show interp _ (Prog.call a _) = _
        simp only [interp, h1]), (hM.negate s h2).1, fun β => by rw [(hM.negate s h2).2, h3]; simp [truth]⟩
    | implies l r =>
      simp only [wt, Bool.and_eq_true] at hw
      simp only [atoms, List.append_eq_nil_iff] at ha
      simp only [syms, List.mem_append] at hs
      have hnot : wt .bool (mkNot l) = true := by
        unfold mkNot
        split
        · simpa [wt] using hw.1
        · simpa [wt] using hw.1
      have hatoms : atoms (mkNot l) = [] := by
        unfold mkNot
        split
        · simpa [atoms] using ha.1
        · simpa [atoms] using ha.1
      obtain ⟨s, h1, h2, h3⟩ := ih (mkOr [mkNot l, r]) (by have := msize_impl l r; omega)
        (by simp [mkOr, wt, wtAll, hnot, hw.2]) (by simp [mkOr, atoms, atomsList, hatoms, ha.2])
        (fun p hp => hs p (by simpa [mkOr, syms, symsList, syms_mkNot] using hp))
      refine ⟨s, ?_, h2, fun β => by rw [h3]; simp [truth]⟩
      show interp _ (Prog.call (mkOr [mkNot l, r]) .done) = _
      simp only [interp, h1]
    | iff l r =>
      simp only [wt, Bool.and_eq_true] at hw
      simp only [atoms, List.append_eq_nil_iff] at ha
      simp only [syms, List.mem_append] at hs
      obtain ⟨s, h1, h2, h3⟩ := conj [.implies l r, .implies r l] (by simp) (by
        intro a h
        simp only [List.mem_cons, List.not_mem_nil, or_false] at h
        rcases h with rfl | rfl
        · exact ih _ (by simp only [msize] at hm ⊢; omega) (by simp [wt, hw.1, hw.2]) (by simp [atoms, ha.1, ha.2])
            (fun p hp => hs p (by simpa [syms] using hp))
        · exact ih _ (by simp only [msize] at hm ⊢; omega) (by simp [wt, hw.1, hw.2]) (by simp [atoms, ha.1, ha.2])
            (fun p hp => hs p (by simpa [syms, or_comm] using hp)))
      refine ⟨s, h1, h2, fun β => ?_⟩
      rw [h3]
      simp only [List.all_cons, List.all_nil, truth, Bool.and_true]
      cases truth (nameEnv (K := K) varnums β) l <;> cases truth (nameEnv (K := K) varnums β) r <;> rfl
    | ite c x e =>
      simp only [wt, Bool.and_eq_true] at hw
      simp only [atoms, List.append_eq_nil_iff] at ha
      simp only [syms, List.mem_append] at hs
      obtain ⟨sc, c1, c2, c3⟩ := ih c (by simp only [msize] at hm; omega) hw.1.1 ha.1 fun p hp => hs p (.inl hp)
      obtain ⟨sx, x1, x2, x3⟩ := ih x (by simp only [msize] at hm; omega) hw.1.2 ha.2.1 fun p hp => hs p (.inr (.inl hp))
      obtain ⟨se, e1, e2, e3⟩ := ih e (by simp only [msize] at hm; omega) hw.2 ha.2.2 fun p hp => hs p (.inr (.inr hp))
      obtain ⟨n1, n2⟩ := hM.negate sc c2
      obtain ⟨a1, a2⟩ := hM.conjoin sc sx c2 x2
      obtain ⟨b1, b2⟩ := hM.conjoin _ se n1 e2
      obtain ⟨d1, d2⟩ := hM.disjoin _ _ a1 b1
      refine ⟨_, ?_, d1, fun β => ?_⟩
      · show interp _ (Prog.call c _) = _
        simp only [interp, c1, x1, e1]
      · rw [d2, a2, b2, n2, c3, x3, e3]
        simp only [truth]
        cases truth (nameEnv (K := K) varnums β) c <;> simp
    | sym n ty =>
      have : ty = .bool := by cases ty <;> simp_all [wt]
      subst this
      obtain ⟨k, hk⟩ := lookup_of_key (hs (n, .bool) (by simp [syms]))
      obtain ⟨h1, h2⟩ := hlit n k hk
      refine ⟨.lit k, ?_, over_literal h1 h2, fun β => ?_⟩
      · simp only [Walker.dispatch, sddW, if_true, hk, interp]
      · have : ¬((k : ℤ) < 0) := by omega
        simp [Sdd.eval, truth, nameEnv, hk, this]
    | boolC b =>
      refine ⟨if b then .tt else .ff, rfl, ?_, fun β => ?_⟩
      · split
        · exact .tt _
        · exact .ff _
      · cases b <;> simp [Sdd.eval, truth]
    | le l r => simp [atoms] at ha
    | lt l r => simp [atoms] at ha
    | equals l r => simp [atoms] at ha
    | times as => simp [wt] at hw
    | plus as => simp [wt] at hw
    | minus l r => simp [wt] at hw
    | pow l r => cases r <;> simp [wt] at hw
    | realC q => simp [wt] at hw

/-! ### Numbers of literals -/

theorem Vtree.leaves_mapVar {α : Type} (f : α → ℕ) (t : Vtree α) : (t.mapVar f).leaves = t.leaves.map f := by
  induction t with
  | empty => rfl
  | var v => rfl
  | split l r hl hr => simp [Vtree.mapVar, Vtree.leaves, hl, hr]

namespace LiteralInfo

/-- SPEC: what the `n`-th literal stands for (counting from one). -/
def at? (L : LiteralInfo) : ℕ → Option LitVal
  | 0 => none
  | n + 1 => (L.literals[n]?).map (·.2)

/-- SPEC: the truth value, at `σ`, of what the `n`-th literal stands for. -/
def byNumber (L : LiteralInfo) (σ : Env K) (n : ℕ) : Bool :=
  match L.at? n with
  | some (.bool name) => σ.b name
  | some (.atom f) => truth σ f
  | none => false

theorem lookup_getElem {d : List (String × LitVal)} (hn : (d.map (·.1)).Nodup) {i : ℕ} (h : i < d.length) :
    d.lookup d[i].1 = some d[i].2 :=
  assoc_of_mem hn (by simp)

theorem at?_mem {L : LiteralInfo} {n : ℕ} {v : LitVal} (h : L.at? n = some v) :
    ∃ (i : ℕ) (hi : i < L.literals.length), n = i + 1 ∧ (L.literals[i]).2 = v := by
  cases n with
  | zero => cases h
  | succ i =>
    simp only [at?, Option.map_eq_some_iff] at h
    obtain ⟨p, hp, rfl⟩ := h
    obtain ⟨hi, rfl⟩ := List.getElem?_eq_some_iff.mp hp
    exact ⟨i, hi, rfl, rfl⟩

theorem at?_some {L : LiteralInfo} {n : ℕ} (h : 1 ≤ n ∧ n ≤ L.literals.length) : ∃ v, L.at? n = some v := by
  obtain ⟨i, rfl⟩ : ∃ i, n = i + 1 := ⟨n - 1, by omega⟩
  exact ⟨(L.literals[i]).2, by simp [at?, List.getElem?_eq_getElem (show i < L.literals.length by omega)]⟩

theorem at?_le {L : LiteralInfo} {n : ℕ} {v : LitVal} (h : L.at? n = some v) : 1 ≤ n ∧ n ≤ L.literals.length := by
  obtain ⟨i, hi, rfl, _⟩ := at?_mem h
  omega

theorem invNumbered_eq {L : LiteralInfo} {n : ℕ} {v : LitVal} (hL : L.Keyed) (h : L.at? n = some v) :
    ∃ lit, L.invNumbered.lookup n = some lit ∧ L.getItem lit = .ok v ∧ (lit, v) ∈ L.literals := by
  obtain ⟨i, hi, rfl, rfl⟩ := at?_mem h
  refine ⟨(L.literals[i]).1, (lookup_mapIdx_num L.literals _ 1 (i + 1)).mpr ⟨by simpa using hi, by omega, by simp⟩, ?_,
    List.getElem_mem hi⟩
  simp only [getItem, lookup_getElem hL.1 hi]

theorem litValue_eq {L : LiteralInfo} (hL : L.Keyed) {n : ℕ} {v : LitVal} (h : L.at? n = some v) :
    litValue L n = .ok v := by
  obtain ⟨lit, h1, h2, _⟩ := invNumbered_eq hL h
  simp only [litValue, h1, h2]

theorem nameEnv_byNumber {L : LiteralInfo} (hL : L.Keyed) (σ : Env K) {l : String} (h : l ∈ L.literals.map (·.1)) :
    (nameEnv (K := K) L.numbered (L.byNumber σ)).b l = (L.report σ).b l := by
  obtain ⟨p, hp, rfl⟩ := List.mem_map.mp h
  obtain ⟨i, hi, rfl⟩ := List.mem_iff_getElem.mp hp
  have h1 : L.numbered.lookup (L.literals[i]).1 = some (i + 1) :=
    (lookup_mapIdx_key hL.1 _ 1 (i + 1)).mpr ⟨by simpa using hi, by omega, by simp⟩
  simp only [nameEnv, report, h1, lookup_getElem hL.1 hi]
  simp only [byNumber, at?, List.getElem?_eq_getElem hi, Option.map_some]
  cases (L.literals[i]).2 <;> rfl

theorem numbered_spec {L : LiteralInfo} (hL : L.Keyed) :
    (∀ lit n, L.numbered.lookup lit = some n → 1 ≤ n ∧ n ≤ L.literals.length) ∧
    L.numbered.map (·.1) = L.literals.map (·.1) ∧ L.numbered.map (·.2) = List.range' 1 L.literals.length := by
  refine ⟨fun lit n h => ?_, ?_, ?_⟩
  · obtain ⟨h1, h2, _⟩ := (lookup_mapIdx_key hL.1 lit 1 n).mp h
    omega
  · apply List.ext_getElem
    · simp [numbered]
    · intro i h1 h2; simp [numbered]
  · apply List.ext_getElem
    · simp [numbered]
    · intro i h1 h2; simp [numbered]; omega

end LiteralInfo

/-- **C40**, compilation: a propositional formula over the literals compiles, for every manager that meets the assumption,
to an SDD over the literal numbers `1..n` that has exactly the models of the formula.  (The vtree is any with the literals
as leaves; `bami_correct_partial` says when the default one is.) -/
theorem compileToSdd_correct {mgr : Vtree.Export → SddManager} {f : Formula} {L : LiteralInfo} {t : Vtree String}
    (hL : L.Keyed) (ht : t.leaves.Perm (L.literals.map (·.1))) (hfull : L.literals ≠ [] → t.Full)
    (hmgr : ∀ ex u, Vtree.load ex = some u → u.leaves.Nodup → (∀ n ∈ u.leaves, n ≠ 0) → (mgr ex).Ok u)
    (hw : wt .bool f = true) (ha : atoms f = []) (hs : ∀ p ∈ syms f, p.1 ∈ L.literals.map (·.1)) :
    ∃ s u, compileToSdd mgr f L (.ok t) = .ok s ∧ Sdd.Over u s ∧ u.leaves.Perm (List.range' 1 L.literals.length) ∧
      ∀ β, s.eval β = truth (nameEnv (K := K) L.numbered β) f := by
  obtain ⟨n1, n2, n3⟩ := LiteralInfo.numbered_spec hL
  have hs' : ∀ p ∈ syms f, p.1 ∈ L.numbered.map (·.1) := fun p hp => by rw [n2]; exact hs p hp
  by_cases hne : L.literals = []
  · have hnum : L.numbered = [] := by simp [LiteralInfo.numbered, hne]
    have hm := hmgr .oneVariable _ rfl (by simp [Vtree.leaves]) (by simp [Vtree.leaves])
    obtain ⟨s, h1, h2, h3⟩ := compile_walk (K := K) (varnums := L.numbered) hm.const (by simp [hnum]) _ f
      (Nat.lt_succ_self _) hw ha hs'
    refine ⟨s, .empty, ?_, h2, by simp [hne, Vtree.leaves], h3⟩
    have : t.toPysdd L.numbered = .ok .oneVariable := by rw [hnum]; rfl
    simp only [compileToSdd, this, sddW_cwalk]
    exact h1
  · have hlook : ∀ v ∈ t.leaves, L.numbered.lookup v = some ((L.numbered.lookup v).getD 0) := fun v hv => by
      obtain ⟨n, hn⟩ := lookup_of_key (d := L.numbered) (by rw [n2]; exact ht.subset hv)
      simp [hn]
    obtain ⟨ls, h1, h2, _⟩ := Vtree.toPysdd_load (hfull hne) hlook
    have hperm : (t.mapVar fun v => (L.numbered.lookup v).getD 0).leaves.Perm (List.range' 1 L.literals.length) := by
      rw [Vtree.leaves_mapVar, ← n3]
      refine (ht.map _).trans (.of_eq ?_)
      rw [← n2, List.map_map]
      refine List.map_congr_left fun p hp => ?_
      have : L.numbered.lookup p.1 = some p.2 := assoc_of_mem (by rw [n2]; exact hL.1) hp
      simp [this]
    have hm := hmgr _ _ h2 (hperm.nodup_iff.mpr List.nodup_range') fun n hn => by
      have := hperm.subset hn
      simp only [List.mem_range'_1] at this
      omega
    obtain ⟨s, g1, g2, g3⟩ := compile_walk (K := K) (varnums := L.numbered) hm.over (fun l n h => by
      have := n1 l n h
      exact ⟨hperm.symm.subset (by simp only [List.mem_range'_1]; omega), by omega⟩) _ f (Nat.lt_succ_self _) hw ha hs'
    refine ⟨s, _, ?_, g2, hperm, g3⟩
    simp only [compileToSdd, h1, sddW_cwalk]
    exact g1

/-! ### Recovery -/

namespace Semi
variable {R : Type}

/-- `SemiringWalker.walk_or` when addition cannot fail. -/
def total (zero : R) (plus : R → R → R) : List R → R
  | [] => zero
  | r :: rs => rs.foldl plus r

theorem sumFrom_total {S : Semi R} {plus : R → R → R} (hp : ∀ a b, S.plus a b = .ok (plus a b)) (r : R) (rs : List R) :
    S.sumFrom r rs = .ok (rs.foldl plus r) := by
  induction rs generalizing r with
  | nil => rfl
  | cons x rs ih => simp only [sumFrom, hp, List.foldl_cons, ih]

theorem combine_total {S : Semi R} {times plus : R → R → R} (ht : ∀ a b, S.times a b = .ok (times a b))
    (hp : ∀ a b, S.plus a b = .ok (plus a b)) (rs : List (R × R)) :
    S.walker.combine rs = .ok (total S.zero plus (rs.map fun p => times p.1 p.2)) := by
  have : Prog.mapE (fun p : R × R => S.walker.onAnd p.1 p.2) rs = .ok (rs.map fun p => times p.1 p.2) :=
    mapE_ok fun p _ => ht p.1 p.2
  unfold SddWalker.combine
  rw [this]
  generalize (rs.map fun p => times p.1 p.2) = xs
  match xs with
  | [] => rfl
  | [r] => rfl
  | r :: x :: xs => exact sumFrom_total hp r (x :: xs)

end Semi

theorem truth_total (σ : Env K) (fs : List Formula) :
    truth σ (Semi.total (.boolC false) (fun a b => mkOr [a, b]) fs) = fs.any (truth σ) := by
  cases fs with
  | nil => simp [Semi.total, truth]
  | cons f fs =>
    simp only [Semi.total]
    induction fs generalizing f with
    | nil => simp
    | cons g fs ih => simp only [List.foldl_cons, ih, truth_mkOr, List.any_cons, List.any_nil, Bool.or_false, Bool.or_assoc]

theorem LiteralInfo.at?_bool {L : LiteralInfo} (hL : L.Linked) {n : ℕ} {x : String} (hv : L.at? n = some (.bool x)) :
    x ∈ L.booleans.map (·.1) := by
  obtain ⟨lit, _, _, h⟩ := invNumbered_eq hL.1 hv
  exact List.mem_map.mpr ⟨(x, lit), (hL.2.1 _ x).mp h, rfl⟩

/-- **C40**, recovery: the formula read back from an SDD over the literals is true exactly where the SDD is, when every
literal has the truth value of what it stands for.  `simp`, the external simplifier, keeps truth values. -/
theorem recoverFormula_correct {simp : Formula → Formula} (hsimp : ∀ (σ : Env K) f, truth σ (simp f) = truth σ f)
    {L : LiteralInfo} (hL : L.Linked) {s : Sdd} (hs : s.WF) (hv : ∀ n ∈ s.vars, 1 ≤ n ∧ n ≤ L.literals.length)
    (simplify : Bool) :
    ∃ g, recoverFormula simp s L simplify = .ok g ∧ ∀ σ : Env K, truth σ g = s.eval (L.byNumber σ) := by
  obtain ⟨r, h1, h2⟩ := SddWalker.walk_rel (w := (smtSemi L).walker)
    (P := fun s g => ∀ σ : Env K, truth σ g = s.eval (L.byNumber σ)) (fun n => 1 ≤ n ∧ n ≤ L.literals.length)
    ⟨.boolC true, rfl, fun σ => by simp [truth, Sdd.eval]⟩ ⟨.boolC false, rfl, fun σ => by simp [truth, Sdd.eval]⟩
    (fun l h0 ⟨hl1, hl2⟩ => by
      obtain ⟨v, hval⟩ := LiteralInfo.at?_some ⟨hl1, hl2⟩
      have key : ∃ f, litFormula L l.natAbs = .ok f ∧ ∀ σ : Env K, truth σ f = L.byNumber σ l.natAbs := by
        obtain ⟨lit, k1, k2, _⟩ := LiteralInfo.invNumbered_eq hL.1 hval
        simp only [litFormula, k1, k2, LiteralInfo.byNumber, hval]
        cases v with
        | bool n => exact ⟨.sym n .bool, by simp [LiteralInfo.at?_bool hL hval], fun σ => by simp [truth]⟩
        | atom a => exact ⟨a, rfl, fun σ => rfl⟩
      obtain ⟨f, hf, hσ⟩ := key
      simp only [Semi.walker, smtSemi, Semi.signed, hf]
      by_cases hneg : l < 0
      · exact ⟨_, by rw [if_pos hneg], fun σ => by simp [Sdd.eval, hneg, hσ]⟩
      · exact ⟨_, by rw [if_neg hneg], fun σ => by simp [Sdd.eval, hneg, hσ]⟩)
    (fun es rs w v hf => by
      clear w v
      refine ⟨_, Semi.combine_total (S := smtSemi L) (fun _ _ => rfl) (fun _ _ => rfl) rs, fun σ => ?_⟩
      show truth σ (Semi.total (.boolC false) (fun a b => mkOr [a, b]) _) = _
      rw [truth_total]
      simp only [Sdd.eval, Sdd.evalAny_eq, List.any_map]
      induction hf with
      | nil => rfl
      | cons h _ ih => simp [ih, h.1 σ, h.2 σ]) hs hv
  cases simplify with
  | false => exact ⟨r, by simp [recoverFormula, Semi.amc, h1], h2⟩
  | true => exact ⟨simp r, by simp [recoverFormula, Semi.amc, h1], fun σ => by rw [hsimp, h2]⟩

/-- **C40**, the whole round: extracting literals, compiling and recovering yields a formula that agrees with the original
at every assignment off the boundaries of its inequalities. -/
theorem compile_recover [IsStrictOrderedRing K] {mgr : Vtree.Export → SddManager} {simp : Formula → Formula}
    (hmgr : ∀ ex u, Vtree.load ex = some u → u.leaves.Nodup → (∀ n ∈ u.leaves, n ≠ 0) → (mgr ex).Ok u)
    (hsimp : ∀ (σ : Env K) f, truth σ (simp f) = truth σ f) {f g : Formula} {L : LiteralInfo} {t : Vtree String}
    (hw : wt .bool f = true) (he : extractLiterals f = .ok (g, L)) (ht : t.leaves.Perm (L.literals.map (·.1)))
    (hfull : L.literals ≠ [] → t.Full) (simplify : Bool) :
    ∃ s r, compileToSdd mgr g L (.ok t) = .ok s ∧ recoverFormula simp s L simplify = .ok r ∧
      ∀ σ : Env K, OffBoundary σ f → truth σ r = truth σ f := by
  obtain ⟨hL, hwg, hag, hsg, hsem, _, _⟩ := extractLiterals_correct (K := K) hw he
  obtain ⟨s, u, h1, h2, h3, h4⟩ := compileToSdd_correct (K := K) hL.1 ht hfull hmgr hwg hag fun p hp => (hsg p hp).2
  have hwf := h2.wf (h3.nodup_iff.mpr List.nodup_range')
  obtain ⟨r, g1, g2⟩ := recoverFormula_correct hsimp hL hwf (fun n hn => by
    have := h3.subset (h2.vars n hn)
    simp only [List.mem_range'_1] at this
    omega) simplify
  refine ⟨s, r, h1, g1, fun σ hσ => ?_⟩
  rw [g2, h4, ← hsem σ hσ]
  refine truth_congr hwg fun p hp => ?_
  obtain ⟨p1, p2⟩ := hsg p hp
  obtain ⟨n, ty⟩ := p
  simp only at p1 p2
  subst p1
  exact LiteralInfo.nameEnv_byNumber hL.1 σ p2

/-! ### A concrete case -/

/-- `(A ∧ x ≤ 1) ∨ (¬A ∧ x > 2)`. -/
def sampleTheory : Formula :=
  .or [.and [.sym "A" .bool, .le (.sym "x" .real) (.realC 1)],
    .and [.not (.sym "A" .bool), .lt (.realC 2) (.sym "x" .real)]]

/-- The hypotheses of `compile_recover` are met by it, with the reference manager and a balanced vtree. -/
example : ∃ g L, extractLiterals sampleTheory = .ok (g, L) ∧ wt .bool sampleTheory = true ∧ L.literals.length = 3 ∧
    (Vtree.createBalanced (L.literals.map (·.1)) true).leaves.Perm (L.literals.map (·.1)) ∧
    (Vtree.createBalanced (L.literals.map (·.1)) true).Full := by
  obtain ⟨g, L, h, hl⟩ : ∃ g L, extractLiterals sampleTheory = .ok (g, L) ∧ L.literals.length = 3 := by
    cases h : extractLiterals sampleTheory with
    | error e =>
      exfalso
      have : (match extractLiterals sampleTheory with | .ok _ => true | .error _ => false) = true := by decide +kernel
      rw [h] at this; cases this
    | ok p =>
      refine ⟨p.1, p.2, rfl, ?_⟩
      have : (match extractLiterals sampleTheory with | .ok p => p.2.literals.length | .error _ => 0) = 3 := by decide +kernel
      rw [h] at this; exact this
  refine ⟨g, L, h, by decide +kernel, hl, by rw [Vtree.createBalanced_leaves], Vtree.full_of_createBalanced ?_ _⟩
  intro h0
  rw [List.map_eq_nil_iff] at h0
  rw [h0] at hl
  cases hl

/-- A manager for every export, meeting the assumption. -/
example : ∀ ex u, Vtree.load ex = some u → u.leaves.Nodup → (∀ n ∈ u.leaves, n ≠ 0) →
    ((fun ex => Sdd.refManager ((Vtree.load ex).getD .empty)) ex).Ok u := fun ex u h h1 h2 => by
  simpa [h] using Sdd.refManager_ok h1 h2

end
end Pywmi
