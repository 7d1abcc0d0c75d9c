import Verif.Xsdd.Factor
import Verif.Props.Compile
import Verif.Props.Regions

set_option linter.unusedSectionVars false
set_option linter.unusedSimpArgs false

/-!
# Trimmed diagrams and the groups of their nodes
-/

namespace Pywmi
open Formula Prog

namespace Sdd

/-! ### Trimmed diagrams -/

/-- SPEC: no decision node is false: each has an element whose prime and sub are not the constant false.  The nodes of
pysdd have this property. -/
inductive Trimmed : Sdd → Prop where
  | tt : Trimmed .tt
  | ff : Trimmed .ff
  | lit (l) : Trimmed (.lit l)
  | dec (es) : (∀ e ∈ es, Trimmed e.1) → (∀ e ∈ es, Trimmed e.2) → (∃ e ∈ es, e.1 ≠ .ff ∧ e.2 ≠ .ff) → Trimmed (.dec es)

mutual
/-- SPEC: every way to make the diagram true uses a literal with the property. -/
def Every (P : ℤ → Prop) : Sdd → Prop
  | .tt => False
  | .ff => True
  | .lit l => P l
  | .dec es => EveryAll P es
/-- SPEC: the same for all elements. -/
def EveryAll (P : ℤ → Prop) : List (Sdd × Sdd) → Prop
  | [] => True
  | (p, s) :: es => (Every P p ∨ Every P s) ∧ EveryAll P es
end

theorem everyAll_iff {P : ℤ → Prop} {es : List (Sdd × Sdd)} : EveryAll P es ↔ ∀ e ∈ es, Every P e.1 ∨ Every P e.2 := by
  induction es with
  | nil => simp [EveryAll]
  | cons e es ih => obtain ⟨p, s⟩ := e; simp [EveryAll, ih]

theorem every_dec {P : ℤ → Prop} {es : List (Sdd × Sdd)} : Every P (.dec es) ↔ ∀ e ∈ es, Every P e.1 ∨ Every P e.2 := by
  rw [Every]; exact everyAll_iff

theorem Every.mono {P Q : ℤ → Prop} {s : Sdd} : (∀ l, l.natAbs ∈ s.vars → P l → Q l) → Every P s → Every Q s := by
  induction s using Sdd.induct with
  | tt => intro _ h; exact h
  | ff => intro _ h; exact h
  | lit l => intro hpq h; exact hpq l (by simp [vars]) h
  | dec es ih =>
    intro hpq h
    rw [every_dec] at h ⊢
    intro e he
    exact (h e he).imp ((ih e he).1 fun l hl => hpq l ((vars_mem he).1 hl)) ((ih e he).2 fun l hl => hpq l ((vars_mem he).2 hl))

/-- Combine assignments of disjoint sets of variables. -/
theorem combine_eval {p s : Sdd} (hd : Disjoint p.vars s.vars) {β γ : ℕ → Bool} (hp : p.eval β = true) (hs : s.eval γ = true) :
    p.eval (fun m => if m ∈ p.vars then β m else γ m) = true ∧ s.eval (fun m => if m ∈ p.vars then β m else γ m) = true := by
  constructor
  · rw [← hp]; exact eval_congr p fun n hn => by simp [hn]
  · rw [← hs]; exact eval_congr s fun n hn => by simp [Finset.disjoint_right.mp hd hn]

theorem trimmed_sat {s : Sdd} (hs : s.WF) (ht : s.Trimmed) : s ≠ .ff → ∃ β, s.eval β = true := by
  induction s using Sdd.induct with
  | tt => intro _; exact ⟨fun _ => false, rfl⟩
  | ff => intro h; exact absurd rfl h
  | lit l =>
    intro _
    exact ⟨fun _ => !decide (l < 0), by by_cases h : l < 0 <;> simp [eval, h]⟩
  | dec es ih =>
    intro _
    cases hs with
    | dec _ h1 h2 h3 h4 =>
      cases ht with
      | dec _ t1 t2 t3 =>
        obtain ⟨e, he, n1, n2⟩ := t3
        obtain ⟨β, hβ⟩ := (ih e he).1 (h1 e he) (t1 e he) n1
        obtain ⟨γ, hγ⟩ := (ih e he).2 (h2 e he) (t2 e he) n2
        obtain ⟨c1, c2⟩ := combine_eval (h3 e he) hβ hγ
        refine ⟨fun m => if m ∈ e.1.vars then β m else γ m, ?_⟩
        simp only [eval, evalAny_eq, List.any_eq_true]
        exact ⟨e, he, by rw [c1, c2]; rfl⟩

/-- If a diagram entails a variable, every way to make it true uses the positive literal of the variable. -/
theorem every_of_entails {s : Sdd} (hs : s.WF) {n : ℕ} (h : ∀ β, s.eval β = true → β n = true) :
    Every (fun l => l = n) s := by
  by_contra hcon
  obtain ⟨β, h1, h2⟩ : ∃ β, s.eval β = true ∧ β n = false := by
    clear h
    induction s using Sdd.induct with
    | tt => exact ⟨fun _ => false, rfl, rfl⟩
    | ff => exact absurd trivial hcon
    | lit l =>
      have hne : l ≠ n := hcon
      cases hs with
      | lit _ h0 =>
        by_cases hl : l < 0
        · exact ⟨fun _ => false, by simp [eval, hl], rfl⟩
        · refine ⟨fun m => decide (m = l.natAbs), by simp [eval, hl], ?_⟩
          simp only [decide_eq_false_iff_not]
          omega
    | dec es ih =>
      rw [every_dec] at hcon
      push Not at hcon
      obtain ⟨e, he, n1, n2⟩ := hcon
      cases hs with
      | dec _ h1 h2 h3 h4 =>
        obtain ⟨β, b1, b2⟩ := (ih e he).1 (h1 e he) n1
        obtain ⟨γ, g1, g2⟩ := (ih e he).2 (h2 e he) n2
        obtain ⟨c1, c2⟩ := combine_eval (h3 e he) b1 g1
        refine ⟨fun m => if m ∈ e.1.vars then β m else γ m, ?_, ?_⟩
        · simp only [eval, evalAny_eq, List.any_eq_true]
          exact ⟨e, he, by rw [c1, c2]; rfl⟩
        · simp only [b2, g2]; split <;> rfl
  exact absurd (h β h1) (by simp [h2])

/-! ### Circuits with a weight for every literal -/

section
variable {K : Type} [CommRing K]
mutual
/-- The value of the diagram as an arithmetic circuit, with a weight for every literal. -/
def wcirc (w : ℤ → K) : Sdd → K
  | .tt => 1
  | .ff => 0
  | .lit l => w l
  | .dec es => wcircSum w es
/-- The sum over the elements. -/
def wcircSum (w : ℤ → K) : List (Sdd × Sdd) → K
  | [] => 0
  | (p, s) :: es => wcirc w p * wcirc w s + wcircSum w es
end

theorem wcircSum_eq (w : ℤ → K) (es : List (Sdd × Sdd)) : wcircSum w es = (es.map fun e => wcirc w e.1 * wcirc w e.2).sum := by
  induction es with
  | nil => rfl
  | cons e es ih => obtain ⟨p, s⟩ := e; simp [wcircSum, ih]

theorem wcirc_congr {v w : ℤ → K} (s : Sdd) (hs : s.WF) : (∀ l : ℤ, l ≠ 0 → l.natAbs ∈ s.vars → v l = w l) →
    s.wcirc v = s.wcirc w := by
  induction s using Sdd.induct with
  | tt => intro _; rfl
  | ff => intro _; rfl
  | lit l => intro h; cases hs with | lit _ h0 => exact h l h0 (by simp [vars])
  | dec es ih =>
    intro h
    simp only [wcirc, wcircSum_eq]
    cases hs with
    | dec _ h1 h2 h3 h4 =>
      refine congrArg _ (List.map_congr_left fun e he => ?_)
      rw [(ih e he).1 (h1 e he) fun l h0 hl => h l h0 ((vars_mem he).1 hl),
        (ih e he).2 (h2 e he) fun l h0 hl => h l h0 ((vars_mem he).2 hl)]

theorem wcirc_circuit (w : ℕ → K) (s : Sdd) : s.wcirc (fun l => if l < 0 then 1 - w l.natAbs else w l.natAbs) = s.circuit w := by
  induction s using Sdd.induct with
  | tt => rfl
  | ff => rfl
  | lit l => rfl
  | dec es ih =>
    simp only [wcirc, wcircSum_eq, circuit, circuitSum_eq]
    refine congrArg _ (List.map_congr_left fun e he => ?_)
    rw [(ih e he).1, (ih e he).2]

/-- A circuit is zero when every way to make the diagram true uses a literal of weight zero. -/
theorem wcirc_zero {w : ℤ → K} {s : Sdd} (h : Every (fun l => w l = 0) s) : s.wcirc w = 0 := by
  induction s using Sdd.induct with
  | tt => exact absurd h id
  | ff => rfl
  | lit l => exact h
  | dec es ih =>
    rw [every_dec] at h
    simp only [wcirc, wcircSum_eq]
    refine List.sum_eq_zero fun x hx => ?_
    obtain ⟨e, he, rfl⟩ := List.mem_map.mp hx
    rcases h e he with h | h
    · rw [(ih e he).1 h, zero_mul]
    · rw [(ih e he).2 h, mul_zero]

end

/-! ### Trimming -/

/-- The element can be true. -/
def liveElem (e : Sdd × Sdd) : Bool := e.1 ≠ .ff && e.2 ≠ .ff

mutual
/-- Replace false decision nodes by the constant. -/
def trim : Sdd → Sdd
  | .tt => .tt
  | .ff => .ff
  | .lit l => .lit l
  | .dec es => if (trimList es).any liveElem then .dec (trimList es) else .ff
/-- Trim all elements. -/
def trimList : List (Sdd × Sdd) → List (Sdd × Sdd)
  | [] => []
  | (p, s) :: es => (trim p, trim s) :: trimList es
end

theorem trimList_eq (es : List (Sdd × Sdd)) : trimList es = es.map fun e => (trim e.1, trim e.2) := by
  induction es with
  | nil => rfl
  | cons e es ih => obtain ⟨p, s⟩ := e; simp [trimList, ih]

theorem liveElem_iff {e : Sdd × Sdd} : liveElem e = true ↔ e.1 ≠ .ff ∧ e.2 ≠ .ff := by simp [liveElem]

theorem trim_trimmed (s : Sdd) : (trim s).Trimmed := by
  induction s using Sdd.induct with
  | tt => exact .tt
  | ff => exact .ff
  | lit l => exact .lit l
  | dec es ih =>
    rw [trim]
    split
    · rename_i h
      refine .dec _ ?_ ?_ ?_
      · intro e he
        rw [trimList_eq] at he
        obtain ⟨x, hx, rfl⟩ := List.mem_map.mp he
        exact (ih x hx).1
      · intro e he
        rw [trimList_eq] at he
        obtain ⟨x, hx, rfl⟩ := List.mem_map.mp he
        exact (ih x hx).2
      · obtain ⟨e, he, h⟩ := List.any_eq_true.mp h
        exact ⟨e, he, liveElem_iff.mp h⟩
    · exact .ff

theorem eval_dead {β : ℕ → Bool} {e : Sdd × Sdd} (h : liveElem e = false) : (e.1.eval β && e.2.eval β) = false := by
  by_cases h1 : e.1 = .ff
  · rw [h1]; rfl
  · by_cases h2 : e.2 = .ff
    · rw [h2]; simp [eval]
    · rw [liveElem_iff.mpr ⟨h1, h2⟩] at h; cases h

theorem trim_eval (β : ℕ → Bool) (s : Sdd) : (trim s).eval β = s.eval β := by
  induction s using Sdd.induct with
  | tt => rfl
  | ff => rfl
  | lit l => rfl
  | dec es ih =>
    have key : (trimList es).any (fun e => e.1.eval β && e.2.eval β) = es.any fun e => e.1.eval β && e.2.eval β := by
      rw [trimList_eq, List.any_map]
      refine Bool.eq_iff_iff.mpr ?_
      simp only [List.any_eq_true, Function.comp]
      exact ⟨fun ⟨e, he, h⟩ => ⟨e, he, by rwa [(ih e he).1, (ih e he).2] at h⟩,
        fun ⟨e, he, h⟩ => ⟨e, he, by rwa [(ih e he).1, (ih e he).2]⟩⟩
    rw [trim]
    split
    · simp only [eval, evalAny_eq, key]
    · rename_i h
      simp only [eval, evalAny_eq, ← key]
      rw [eq_comm, List.any_eq_false]
      intro e he
      have hd : liveElem e = false := by
        by_contra hc
        exact h (List.any_eq_true.mpr ⟨e, he, by simpa using hc⟩)
      rw [eval_dead hd]; simp

theorem trim_over {t : Vtree ℕ} {s : Sdd} (h : Over t s) : Over t (trim s) := by
  induction h with
  | tt t => exact .tt t
  | ff t => exact .ff t
  | lit v l h1 h2 => exact .lit v l h1 h2
  | left l r s _ ih => exact .left _ _ _ ih
  | right l r s _ ih => exact .right _ _ _ ih
  | dec l r es h1 h2 h3 h4 ih1 ih2 =>
    rw [trim]
    split
    · rw [trimList_eq]
      refine .dec _ _ _ ?_ ?_ ?_ ?_
      · intro e he
        obtain ⟨x, hx, rfl⟩ := List.mem_map.mp he
        exact ih1 x hx
      · intro e he
        obtain ⟨x, hx, rfl⟩ := List.mem_map.mp he
        exact ih2 x hx
      · rw [List.pairwise_map]
        exact h3.imp fun h β => by simpa only [trim_eval] using h β
      · intro β
        obtain ⟨e, he, h⟩ := h4 β
        exact ⟨_, List.mem_map.mpr ⟨e, he, rfl⟩, by rwa [trim_eval]⟩
    · exact .ff _

end Sdd

/-- SPEC: the operations of the external library yield trimmed diagrams. -/
structure SddManager.Trims (M : SddManager) : Prop where
  conjoin : ∀ a b : Sdd, a.Trimmed → b.Trimmed → (M.conjoin a b).Trimmed
  disjoin : ∀ a b : Sdd, a.Trimmed → b.Trimmed → (M.disjoin a b).Trimmed
  negate : ∀ a : Sdd, a.Trimmed → (M.negate a).Trimmed

/-- The manager with trimming. -/
def SddManager.trim (M : SddManager) : SddManager where
  conjoin a b := (M.conjoin a b).trim
  disjoin a b := (M.disjoin a b).trim
  negate a := (M.negate a).trim

theorem SddManager.trim_trims (M : SddManager) : M.trim.Trims :=
  ⟨fun _ _ _ _ => Sdd.trim_trimmed _, fun _ _ _ _ => Sdd.trim_trimmed _, fun _ _ => Sdd.trim_trimmed _⟩

theorem SddManager.trim_ok {M : SddManager} {t : Vtree ℕ} (h : M.Ok t) : M.trim.Ok t := by
  have key : ∀ t, M.Respects (Sdd.Over t) → M.trim.Respects (Sdd.Over t) := fun t h => by
    refine ⟨fun a b ha hb => ?_, fun a b ha hb => ?_, fun a ha => ?_⟩
    · obtain ⟨h1, h2⟩ := h.conjoin a b ha hb
      exact ⟨Sdd.trim_over h1, fun β => (Sdd.trim_eval β _).trans (h2 β)⟩
    · obtain ⟨h1, h2⟩ := h.disjoin a b ha hb
      exact ⟨Sdd.trim_over h1, fun β => (Sdd.trim_eval β _).trans (h2 β)⟩
    · obtain ⟨h1, h2⟩ := h.negate a ha
      exact ⟨Sdd.trim_over h1, fun β => (Sdd.trim_eval β _).trans (h2 β)⟩
  exact ⟨key t h.over, key _ h.const⟩

theorem mapE_all {I R : Type} {g : I → Except PyErr R} {P : R → Prop} {as : List I} (h : ∀ a ∈ as, ∀ r, g a = .ok r → P r) :
    ∀ rs, mapE g as = .ok rs → ∀ r ∈ rs, P r := by
  induction as with
  | nil => intro rs e; cases e; simp
  | cons a as ih =>
    intro rs e
    simp only [mapE] at e
    cases ha : g a with
    | error err => rw [ha] at e; cases e
    | ok r =>
      rw [ha] at e
      cases hm : mapE g as with
      | error err => rw [hm] at e; cases e
      | ok rs' =>
        rw [hm] at e
        cases e
        intro x hx
        rcases List.mem_cons.mp hx with rfl | hx
        · exact h a (by simp) _ ha
        · exact ih (fun y hy => h y (by simp [hy])) rs' hm x hx

/-- The diagrams that compilation yields stay in every class that contains constants and literals and is closed under the
operations. -/
theorem sddW_trimmed {M : SddManager} (hM : M.Trims) (varnums : List (String × ℕ)) : ∀ (m : ℕ) (f : Formula), msize f < m →
    ∀ s, (sddW M varnums).walk f = .ok s → s.Trimmed := by
  intro m
  induction m with
  | zero => intro f h; omega
  | succ m ih =>
    intro f hm s hs
    rw [Walker.walk_eq (sddW_decr M varnums)] at hs
    have red : ∀ (op : Sdd → Sdd → Sdd), (∀ a b : Sdd, a.Trimmed → b.Trimmed → (op a b).Trimmed) → ∀ rs : List Sdd,
        (∀ r ∈ rs, r.Trimmed) → ∀ r, reduceSdd op rs = .ok r → r.Trimmed := by
      intro op hop rs hr r e
      cases rs with
      | nil => cases e
      | cons x xs =>
        cases e
        have : ∀ (xs : List Sdd) (x : Sdd), x.Trimmed → (∀ r ∈ xs, r.Trimmed) → (xs.foldl op x).Trimmed := by
          intro xs
          induction xs with
          | nil => intro x hx _; exact hx
          | cons y ys ih' => intro x hx h; exact ih' _ (hop x y hx (h y (by simp))) fun r hr => h r (by simp [hr])
        exact this xs x (hr x (by simp)) fun r hr' => hr r (by simp [hr'])
    have lst : ∀ (op : Sdd → Sdd → Sdd), (∀ a b : Sdd, a.Trimmed → b.Trimmed → (op a b).Trimmed) → ∀ as : List Formula,
        (∀ a ∈ as, msize a < m) → ((Prog.callAll as fun rs => .ofExcept (reduceSdd op rs)) : Prog Formula Sdd).interp
          (sddW M varnums).walk = .ok s → s.Trimmed := by
      intro op hop as ha e
      rw [interp_callAll] at e
      cases hr : mapE (sddW M varnums).walk as with
      | error err => rw [hr] at e; cases e
      | ok rs =>
        rw [hr] at e
        simp only [interp_ofExcept] at e
        exact red op hop rs (mapE_all (fun a h r hr => ih a (ha a h) r hr) rs hr) s e
    have impl : ∀ l r : Formula, msize (.implies l r) < m + 1 →
        ((sddW M varnums).dispatch (.implies l r)).interp (sddW M varnums).walk = .ok s → s.Trimmed := by
      intro l r hlt e
      have e' : (Prog.call (mkOr [mkNot l, r]) .done : Prog Formula Sdd).interp (sddW M varnums).walk = .ok s := e
      simp only [interp] at e'
      cases h : (sddW M varnums).walk (mkOr [mkNot l, r]) with
      | error err => rw [h] at e'; cases e'
      | ok x =>
        rw [h] at e'
        cases e'
        exact ih _ (by have := msize_impl l r; omega) _ h
    cases f with
    | and as =>
      exact lst M.conjoin hM.conjoin as (fun a h => by have := msize_lt_of_mem h; simp only [msize] at hm; omega) hs
    | or as =>
      exact lst M.disjoin hM.disjoin as (fun a h => by have := msize_lt_of_mem h; simp only [msize] at hm; omega) hs
    | iff l r =>
      refine lst M.conjoin hM.conjoin [.implies l r, .implies r l] (fun a h => ?_) hs
      simp only [List.mem_cons, List.not_mem_nil, or_false] at h
      rcases h with rfl | rfl <;> simp only [msize] at hm ⊢ <;> omega
    | not a =>
      have e' : (Prog.call a fun r => .done (M.negate r) : Prog Formula Sdd).interp (sddW M varnums).walk = .ok s := hs
      simp only [interp] at e'
      cases h : (sddW M varnums).walk a with
      | error err => rw [h] at e'; cases e'
      | ok x =>
        rw [h] at e'
        cases e'
        exact hM.negate x (ih a (by simp only [msize] at hm; omega) x h)
    | implies l r => exact impl l r hm hs
    | ite c t e =>
      have e' : (Prog.call c fun c => .call t fun t => .call e fun e =>
        .done (M.disjoin (M.conjoin c t) (M.conjoin (M.negate c) e)) : Prog Formula Sdd).interp (sddW M varnums).walk = .ok s := hs
      simp only [interp] at e'
      cases h1 : (sddW M varnums).walk c with
      | error err => rw [h1] at e'; cases e'
      | ok x =>
        rw [h1] at e'
        cases h2 : (sddW M varnums).walk t with
        | error err => simp only [h2] at e'; cases e'
        | ok y =>
          cases h3 : (sddW M varnums).walk e with
          | error err => simp only [h2, h3] at e'; cases e'
          | ok z =>
            simp only [h2, h3] at e'
            cases e'
            have t1 := ih c (by simp only [msize] at hm; omega) x h1
            have t2 := ih t (by simp only [msize] at hm; omega) y h2
            have t3 := ih e (by simp only [msize] at hm; omega) z h3
            exact hM.disjoin _ _ (hM.conjoin _ _ t1 t2) (hM.conjoin _ _ (hM.negate _ t1) t3)
    | sym n ty =>
      simp only [Walker.dispatch, sddW] at hs
      split at hs
      · split at hs
        · cases hs; exact .lit _
        · cases hs
      · cases hs
    | boolC b =>
      simp only [Walker.dispatch, sddW, interp] at hs
      cases hs
      cases b
      · exact .ff
      · exact .tt
    | times as => cases hs
    | plus as => cases hs
    | minus l r => cases hs
    | pow l r => cases hs
    | le l r => cases hs
    | lt l r => cases hs
    | equals l r => cases hs
    | realC q => cases hs

theorem compileToSdd_trimmed {mgr : Vtree.Export → SddManager} (hM : ∀ ex, (mgr ex).Trims) {f : Formula} {L : LiteralInfo}
    {vt : Except PyErr (Vtree String)} {s : Sdd} (h : compileToSdd mgr f L vt = .ok s) : s.Trimmed := by
  unfold compileToSdd at h
  split at h
  · cases h
  · split at h
    · cases h
    · rw [sddW_cwalk] at h
      exact sddW_trimmed (hM _) _ _ f (Nat.lt_succ_self _) s h

/-! ### The groups of a node -/

namespace Sdd

mutual
/-- SPEC: the groups of the literals that occur in elements that can be true. -/
def liveGroups {α : Type} [DecidableEq α] (l2g : ℤ → Finset α) : Sdd → Finset α
  | .tt => ∅
  | .ff => ∅
  | .lit l => l2g l
  | .dec es => liveGroupsAll l2g es
/-- SPEC: the same for a list of elements. -/
def liveGroupsAll {α : Type} [DecidableEq α] (l2g : ℤ → Finset α) : List (Sdd × Sdd) → Finset α
  | [] => ∅
  | (p, s) :: es => (if liveElem (p, s) then liveGroups l2g p ∪ liveGroups l2g s else ∅) ∪ liveGroupsAll l2g es
end

theorem mem_liveGroupsAll {α : Type} [DecidableEq α] {l2g : ℤ → Finset α} {es : List (Sdd × Sdd)} {t : α} :
    t ∈ liveGroupsAll l2g es ↔ ∃ e ∈ es, (e.1 ≠ .ff ∧ e.2 ≠ .ff) ∧ (t ∈ liveGroups l2g e.1 ∨ t ∈ liveGroups l2g e.2) := by
  induction es with
  | nil => simp [liveGroupsAll]
  | cons e es ih =>
    obtain ⟨p, s⟩ := e
    simp only [liveGroupsAll, Finset.mem_union, ih, List.mem_cons, exists_eq_or_imp]
    by_cases h : liveElem (p, s) = true
    · have := liveElem_iff.mp h
      simp [h, this]
    · have : ¬(p ≠ .ff ∧ s ≠ .ff) := fun hc => h (liveElem_iff.mpr hc)
      simp [h, this]

end Sdd

theorem foldl_union_groups (rs : List (Bool × Finset ℕ)) (g : Finset ℕ) (t : ℕ) :
    t ∈ rs.foldl (fun g r => g ∪ r.2) g ↔ t ∈ g ∨ ∃ r ∈ rs, t ∈ r.2 := by
  induction rs generalizing g with
  | nil => simp
  | cons r rs ih => rw [List.foldl_cons, ih]; simp [or_assoc]

/-- The analysis of a trimmed diagram returns whether the node can be true, and its groups. -/
theorem tagWalker_walk (l2g : ℤ → Finset ℕ) {s : Sdd} (ht : s.Trimmed) :
    (tagWalker l2g).walk s = .ok (decide (s ≠ .ff), s.liveGroups l2g) := by
  induction s using Sdd.induct with
  | tt => rw [SddWalker.walk_tt]; rfl
  | ff => rw [SddWalker.walk_ff]; rfl
  | lit l => rw [SddWalker.walk_lit]; rfl
  | dec es ih =>
    cases ht with
    | dec _ t1 t2 t3 =>
      have hp : ∀ es' : List (Sdd × Sdd), (∀ e ∈ es', e ∈ es) → SddWalker.pairsE (tagWalker l2g).walk es' =
          .ok (es'.map fun e => ((decide (e.1 ≠ .ff), e.1.liveGroups l2g), (decide (e.2 ≠ .ff), e.2.liveGroups l2g))) := by
        intro es'
        induction es' with
        | nil => intro _; rfl
        | cons e es' ih' =>
          intro h
          have he := h e (by simp)
          obtain ⟨p, s⟩ := e
          have := ih _ he
          simp only [SddWalker.pairsE, (ih _ he).1 (t1 _ he), (ih _ he).2 (t2 _ he), ih' fun x hx => h x (by simp [hx])]
          rfl
      rw [SddWalker.walk_dec, hp es fun _ h => h]
      set rs := es.map fun e : Sdd × Sdd => ((decide (e.1 ≠ .ff), e.1.liveGroups l2g), (decide (e.2 ≠ .ff), e.2.liveGroups l2g))
        with hrs
      have hand : mapE (fun p : (Bool × Finset ℕ) × (Bool × Finset ℕ) => (tagWalker l2g).onAnd p.1 p.2) rs =
          .ok (rs.map fun p => (p.1.1 && p.2.1, if p.1.1 && p.2.1 then p.1.2 ∪ p.2.2 else ∅)) := mapE_ok fun _ _ => rfl
      show (tagWalker l2g).combine rs = _
      unfold SddWalker.combine
      rw [hand]
      have hany : (rs.map fun p => (p.1.1 && p.2.1, if p.1.1 && p.2.1 then p.1.2 ∪ p.2.2 else ∅)).any (·.1) = true := by
        obtain ⟨e, he, n1, n2⟩ := t3
        refine List.any_eq_true.mpr ⟨(true, e.1.liveGroups l2g ∪ e.2.liveGroups l2g),
          List.mem_map.mpr ⟨_, List.mem_map.mpr ⟨e, he, rfl⟩, ?_⟩, rfl⟩
        simp [n1, n2]
      simp only [tagWalker, hany, if_true]
      congr 2
      ext t
      rw [foldl_union_groups, Sdd.liveGroups, Sdd.mem_liveGroupsAll]
      simp only [Finset.notMem_empty, false_or, List.mem_map, hrs, exists_exists_and_eq_and]
      refine exists_congr fun e => and_congr_right fun he => ?_
      by_cases h1 : e.1 = .ff
      · simp [h1]
      · by_cases h2 : e.2 = .ff
        · simp [h2]
        · simp [h1, h2]

theorem nodeGroups_eq (l2g : ℤ → Finset ℕ) {s : Sdd} (ht : s.Trimmed) : nodeGroups l2g s = s.liveGroups l2g := by
  simp only [nodeGroups, tagWalker_walk l2g ht]

/-- A property of all proofs that only literals of a group have makes the group one of the node. -/
theorem Sdd.Every.mem_groups {l2g : ℤ → Finset ℕ} {P : ℤ → Prop} {t : ℕ} (hP : ∀ l, P l → t ∈ l2g l) {s : Sdd}
    (ht : s.Trimmed) (hne : s ≠ .ff) (h : s.Every P) : t ∈ s.liveGroups l2g := by
  induction s using Sdd.induct with
  | tt => exact absurd h id
  | ff => exact absurd rfl hne
  | lit l => exact hP l h
  | dec es ih =>
    cases ht with
    | dec _ t1 t2 t3 =>
      obtain ⟨e, he, n1, n2⟩ := t3
      rw [Sdd.every_dec] at h
      refine Sdd.mem_liveGroupsAll.mpr ⟨e, he, ⟨n1, n2⟩, ?_⟩
      exact (h e he).imp ((ih e he).1 (t1 e he) n1) ((ih e he).2 (t2 e he) n2)

end Pywmi
