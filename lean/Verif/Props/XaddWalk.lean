import Verif.Props.Xadd

set_option linter.unusedSectionVars false
set_option linter.unusedSimpArgs false

/-!
# C53: bottom-up walks
-/

namespace Pywmi
open Formula Prog

section
variable {E : Type} [DecidableEq E] {X : XCtx E} {ev : E → (String → ℝ) → ℝ} {Γ : String → Ty} {α : Type}

/-! ### The result -/

/-- SPEC: the message of a node, from the messages of its children. -/
inductive Msg (p : Pool E) (vt : ℕ → E → α) (vi : ℕ → Decision → α → α → α) : ℕ → α → Prop
  | leaf {n : ℕ} {e : E} : p.node n = some (.leaf e) → Msg p vt vi n (vt n e)
  | inner {n : ℕ} {d : Decision} {t f : ℕ} {a b : α} : p.node n = some (.inner d t f) → Msg p vt vi t a → Msg p vt vi f b →
      Msg p vt vi n (vi n d a b)

theorem Msg.ext {p q : Pool E} (he : Ext p q) {vt : ℕ → E → α} {vi : ℕ → Decision → α → α → α} {n : ℕ} {a : α} (h : Msg p vt vi n a) :
    Msg q vt vi n a := by
  induction h with
  | leaf h => exact .leaf (he.node h)
  | inner h _ _ ih1 ih2 => exact .inner (he.node h) ih1 ih2

theorem Msg.back {X : XCtx E} {p q : Pool E} (hp : Core X p) (he : Ext p q) {vt : ℕ → E → α} {vi : ℕ → Decision → α → α → α} {n : ℕ} {a : α}
    (h : Msg q vt vi n a) : (p.node n).isSome → Msg p vt vi n a := by
  induction h with
  | leaf h =>
    intro hn
    obtain ⟨x, hx⟩ := Option.isSome_iff_exists.mp hn
    have := he.node hx
    rw [h] at this
    cases this
    exact .leaf hx
  | inner h _ _ ih1 ih2 =>
    intro hn
    obtain ⟨x, hx⟩ := Option.isSome_iff_exists.mp hn
    have := he.node hx
    rw [h] at this
    cases this
    have hi := hp.inner hx
    exact .inner hx (ih1 hi.2.2.2.1) (ih2 hi.2.2.2.2.1)

/-- A visitor of leaves that only computes. -/
def pureLeaf (vt : ℕ → E → α) (n : ℕ) (e : E) : XM E α := pure (vt n e)
/-- A visitor of inner nodes that only computes; it raises if a message is None. -/
def pureInner (vi : ℕ → Decision → α → α → α) (n : ℕ) (d : Decision) (a b : Option α) : XM E α :=
  match a, b with
  | some a, some b => pure (vi n d a b)
  | _, _ => XM.fail .typeError

theorem pure_visitors (p : Pool E) (root : ℕ) (vt : ℕ → E → α) (vi : ℕ → Decision → α → α → α) :
    Visitors X p root (pureLeaf vt) (pureInner vi) (fun q n a => Msg q vt vi n a) True := by
  refine ⟨fun q q' n a _ _ he h => h.ext he, fun q n e hq _ _ hn => Run.ret Fr1.refl hq (.leaf hn),
    fun q n d t f a b hq _ _ hn ha hb => Run.ret Fr1.refl hq (.inner hn ha hb), fun q n d t f a b hq _ _ _ _ _ hab => ?_⟩
  have : pureInner vi n d a b = (XM.fail .typeError : XM E α) := by
    rcases hab with rfl | rfl
    · rfl
    · cases a <;> rfl
  rw [this]
  exact Run.fail Fr1.refl hq id

/-- SPEC: no walk of this root raised before. -/
def Fresh (p : Pool E) (root : ℕ) : Prop := ∀ pr, p.profiles.lookup root = some pr → Clean pr

/-- C53: in every pool that can come up, a walk returns the message of the root and leaves the walk of this root ready for use. -/
theorem walk_message_partial (hX : XLaw X ev) {p : Pool E} (hp : Reachable X Γ p) {root : ℕ} (hr : (p.node root).isSome) (hf : Fresh p root)
    (vt : ℕ → E → α) (vi : ℕ → Decision → α → α → α) :
    ∃ a q, bottomUp (pureLeaf vt) (pureInner vi) root p = (.ok a, q) ∧ Msg p vt vi root a ∧ Fresh q root := by
  have hi := hp.inv hX
  have hip : IP X root True p := by
    refine ⟨hi.toInv1, fun pr h => ?_⟩
    obtain ⟨T, -, h1, h2, -⟩ := hi.prof root pr h
    exact ⟨h1, h2, Or.inl (hf pr h)⟩
  obtain ⟨a, q, h1, hq, he, h2⟩ := (bottomUp_run hip hr (pure_visitors p root vt vi)).returns trivial
  exact ⟨a, q, h1, h2.back hi.core he.toExt hr, fun pr h => (hq.prof pr h).2.2.resolve_right (by simp)⟩

/-! ### The order of the visits -/

/-- The loop of `BottomUpWalker.walk` (/repo/pywmi/engines/pyxadd/walk.py:294-303) that also returns the visited nodes. -/
def tracedLoop (vt : ℕ → E → XM E α) (vi : ℕ → Decision → Option α → Option α → XM E α) (root : ℕ) :
    ℕ → List (ℕ × α) → XM E (List ℕ × List (ℕ × α))
  | 0, _ => XM.fail .fuel
  | k + 1, ms => do
    let n ← profileNext root
    match n with
    | none => pure ([], ms)
    | some n =>
      let x ← getNode n
      match x with
      | .leaf e =>
        let a ← vt n e
        let r ← tracedLoop vt vi root k ((n, a) :: ms.filter fun q => q.1 ≠ n)
        pure (n :: r.1, r.2)
      | .inner d t f =>
        let r1 ← retrieve root t ms
        let r2 ← retrieve root f r1.2
        let a ← vi n d r1.1 r2.1
        let r ← tracedLoop vt vi root k ((n, a) :: r2.2.filter fun q => q.1 ≠ n)
        pure (n :: r.1, r.2)

/-- Forget the trace. -/
def untrace (r : Except PyErr (List ℕ × List (ℕ × α)) × Pool E) : Except PyErr (List (ℕ × α)) × Pool E :=
  (match r.1 with
    | .ok x => .ok x.2
    | .error e => .error e, r.2)

theorem untrace_map (m : XM E (List ℕ × List (ℕ × α))) (n : ℕ) (p : Pool E) :
    untrace ((do let r ← m; pure (n :: r.1, r.2) : XM E (List ℕ × List (ℕ × α))) p) = untrace (m p) := by
  rw [XM.bind_apply]
  cases h : m p with
  | mk r q => cases r <;> rfl

/-- The traced loop is the loop. -/
theorem tracedLoop_erase (vt : ℕ → E → XM E α) (vi : ℕ → Decision → Option α → Option α → XM E α) (root k : ℕ) :
    ∀ ms (p : Pool E), untrace (tracedLoop vt vi root k ms p) = bottomUpLoop vt vi root k ms p := by
  induction k with
  | zero => intro ms p; rfl
  | succ k ih =>
    intro ms p
    unfold tracedLoop bottomUpLoop
    rw [XM.bind_apply, XM.bind_apply]
    rcases profileNext root p with ⟨r, q⟩
    cases r with
    | error e => rfl
    | ok n =>
      cases n with
      | none => rfl
      | some n =>
        simp only
        rw [XM.bind_apply, XM.bind_apply]
        rcases getNode n q with ⟨r, q⟩
        cases r with
        | error e => rfl
        | ok x =>
          cases x with
          | leaf e =>
            simp only
            rw [XM.bind_apply, XM.bind_apply]
            rcases vt n e q with ⟨r, q⟩
            cases r with
            | error e => rfl
            | ok a => exact (untrace_map _ _ _).trans (ih _ _)
          | inner d t f =>
            simp only
            rw [XM.bind_apply, XM.bind_apply]
            rcases retrieve root t ms q with ⟨r, q⟩
            cases r with
            | error e => rfl
            | ok r1 =>
              simp only
              rw [XM.bind_apply, XM.bind_apply]
              rcases retrieve root f r1.2 q with ⟨r, q⟩
              cases r with
              | error e => rfl
              | ok r2 =>
                simp only
                rw [XM.bind_apply, XM.bind_apply]
                rcases vi n d r1.1 r2.1 q with ⟨r, q⟩
                cases r with
                | error e => rfl
                | ok a => exact (untrace_map _ _ _).trans (ih _ _)

theorem retrieve_prof {p q : Pool E} {root c i : ℕ} {ns : List ℕ} {ms : List (ℕ × α)} {r : Option α × List (ℕ × α)}
    (hl : ∃ cs, p.profiles.lookup root = some ⟨ns, cs, i⟩) (h : retrieve root c ms p = (.ok r, q)) :
    ∃ cs, q.profiles.lookup root = some ⟨ns, cs, i⟩ := by
  obtain ⟨cs, hl⟩ := hl
  unfold retrieve profileCount at h
  simp only [XM.bind_apply, getProfile_some hl] at h
  cases hc : cs.lookup c with
  | none => simp only [hc, XM.fail] at h; cases h
  | some mi =>
    obtain ⟨m, j⟩ := mi
    simp only [hc, XM.bind_apply, putProfile, XM.modify] at h
    have hq : ∀ q : Pool E, q = p.setProf root ⟨ns, setKey cs c (m, j + 1), i⟩ → ∃ cs, q.profiles.lookup root = some ⟨ns, cs, i⟩ := by
      rintro q rfl
      exact ⟨_, lookup_setProf hl⟩
    split_ifs at h
    · simp only [XM.pure_apply, if_true, Prod.mk.injEq] at h
      exact hq q h.2.symm
    · simp only [XM.pure_apply, Bool.false_eq_true, if_false] at h
      cases hm : ms.lookup c with
      | none => simp only [hm, XM.fail] at h; cases h
      | some a =>
        simp only [hm, XM.pure_apply, Prod.mk.injEq] at h
        exact hq q h.2.symm
    · simp only [XM.fail] at h; cases h

theorem bind_ok {β γ : Type} {m : XM E β} {f : β → XM E γ} {p q : Pool E} {c : γ} (h : (m >>= f) p = (.ok c, q)) :
    ∃ b q', m p = (.ok b, q') ∧ f b q' = (.ok c, q) := by
  rw [XM.bind_apply] at h
  rcases hm : m p with ⟨r, q'⟩
  rw [hm] at h
  cases r with
  | error e => cases h
  | ok b => exact ⟨b, q', rfl, h⟩

/-- The visited nodes are those that the profile lists. -/
theorem tracedLoop_nodes {vt : ℕ → E → XM E α} {vi : ℕ → Decision → Option α → Option α → XM E α} (ht : ∀ n e p, (vt n e p).2.profiles = p.profiles)
    (hi : ∀ n d a b p, (vi n d a b p).2.profiles = p.profiles) {root : ℕ} {ns : List ℕ} (k : ℕ) : ∀ i ms (p q : Pool E) r,
    (∃ cs, p.profiles.lookup root = some ⟨ns, cs, i⟩) → tracedLoop vt vi root k ms p = (.ok r, q) → r.1 = ns.drop i := by
  induction k with
  | zero => intro i ms p q r _ h; cases h
  | succ k ih =>
    intro i ms p q r hl h
    unfold tracedLoop at h
    obtain ⟨cs, hl⟩ := hl
    obtain ⟨n, p1, h1, h⟩ := bind_ok h
    cases hg : ns[i]? with
    | none =>
      rw [profileNext_none hl hg] at h1
      cases h1
      cases h
      exact (List.drop_eq_nil_of_le (List.getElem?_eq_none_iff.mp hg)).symm
    | some m =>
      rw [profileNext_some hl hg] at h1
      cases h1
      have hd : ns.drop i = m :: ns.drop (i + 1) := by
        obtain ⟨hlt, he⟩ := List.getElem?_eq_some_iff.mp hg
        rw [← he]; exact List.drop_eq_getElem_cons hlt
      simp only at h
      obtain ⟨x, p2, h2, h⟩ := bind_ok h
      have hp2 : ∃ cs, p2.profiles.lookup root = some ⟨ns, cs, i + 1⟩ := by
        refine ⟨cs, ?_⟩
        have h3 := lookup_setProf (pr := ⟨ns, cs, i + 1⟩) hl
        unfold getNode at h2
        split at h2 <;> cases h2
        exact h3
      cases x with
      | leaf e =>
        simp only at h
        obtain ⟨a, p3, h3, h⟩ := bind_ok h
        obtain ⟨r', p4, h4, h⟩ := bind_ok h
        cases h
        have := ht m e p2
        rw [h3] at this
        rw [hd]
        exact congrArg _ (ih (i + 1) _ p3 q r' (by rw [this]; exact hp2) h4)
      | inner d t f =>
        simp only at h
        obtain ⟨r1, p3, h3, h⟩ := bind_ok h
        obtain ⟨r2, p4, h4, h⟩ := bind_ok h
        obtain ⟨a, p5, h5, h⟩ := bind_ok h
        obtain ⟨r', p6, h6, h⟩ := bind_ok h
        cases h
        have := hi m d r1.1 r2.1 p4
        rw [h5] at this
        rw [hd]
        exact congrArg _ (ih (i + 1) _ p5 q r' (by rw [this]; exact retrieve_prof (retrieve_prof hp2 h3) h4) h6)

/-- C53: a walk that returns visited every node of the diagram once, each after its children. -/
theorem walk_visits_partial (hX : XLaw X ev) {p q : Pool E} (hp : Reachable X Γ p) {root : ℕ} (hr : (p.node root).isSome) (hf : Fresh p root)
    {vt : ℕ → E → XM E α} {vi : ℕ → Decision → Option α → Option α → XM E α} (ht : ∀ n e p, (vt n e p).2.profiles = p.profiles)
    (hi : ∀ n d a b p, (vi n d a b p).2.profiles = p.profiles) {a : α} (h : bottomUp vt vi root p = (.ok a, q)) :
    ∃ (k : ℕ) (p' q' : Pool E) (tr : List ℕ), (getProfile root p).2 = p' ∧ tracedLoop vt vi root k [] p' = (.ok (tr, [(root, a)]), q') ∧
      tr.Nodup ∧ (∀ n, n ∈ tr ↔ Reach p root n) ∧ ∀ l1 m l2, tr = l1 ++ m :: l2 → ∀ c, Child p m c → c ∈ l1 := by
  have hinv := hp.inv hX
  have hip : IP X root True p := by
    refine ⟨hinv.toInv1, fun pr h => ?_⟩
    obtain ⟨T, -, h1, h2, -⟩ := hinv.prof root pr h
    exact ⟨h1, h2, Or.inl (hf pr h)⟩
  obtain ⟨pr, p', h1, -, he, h3, hst, -, hcl⟩ := getProfile_run hip hr
  have hcl := hcl.resolve_right (by simp)
  unfold bottomUp at h
  obtain ⟨pr', p2, h4, h⟩ := bind_ok h
  rw [h1] at h4
  cases h4
  obtain ⟨ms, q', h5, h⟩ := bind_ok h
  rw [← tracedLoop_erase] at h5
  rcases h6 : tracedLoop vt vi root (pr.nodes.length + 1) [] p' with ⟨r, q''⟩
  rw [h6] at h5
  cases r with
  | error e => cases h5
  | ok r =>
    have hms : ms = r.2 ∧ q' = q'' := by
      simp only [untrace, Prod.mk.injEq, Except.ok.injEq] at h5
      exact ⟨h5.1.symm, h5.2.symm⟩
    obtain ⟨rfl, rfl⟩ := hms
    have htr : r.1 = pr.nodes := by
      have := tracedLoop_nodes ht hi (root := root) (ns := pr.nodes) _ 0 [] p' q' r ⟨pr.counts, by rw [h3]; congr 1; rw [← hcl.1]⟩ h6
      simpa using this
    have hlast : r.2 = [(root, a)] := by
      obtain ⟨tr, l⟩ := r
      simp only at h ⊢
      match l, h with
      | [], h => cases h
      | [(n, b)], h =>
        simp only at h
        split_ifs at h with hn
        · obtain ⟨u, q2, -, h⟩ := bind_ok h
          cases h
          rw [hn]
        · cases h
      | _ :: _ :: _, h => cases h
    refine ⟨_, p', q', r.1, by rw [h1], by rw [h6, ← hlast], ?_, fun n => ?_, fun l1 m l2 hl c hc => ?_⟩
    · rw [htr]; exact hst.order.nodup
    · rw [htr, hst.order.mem, he.toExt.reach hinv.core hr]
    · rw [htr] at hl
      have hm : Reach p root m := (he.toExt.reach hinv.core hr).mp ((hst.order.mem m).mp (by rw [hl]; simp))
      exact hst.order.order l1 m l2 hl c ((he.toExt.child hinv.core (hinv.core.reach_some hr hm)).mpr hc)

/-! ### A walk that raised -/

theorem walk_dirty {p : Pool E} (hi : Inv1 X p) {root : ℕ} (hr : (p.node root).isSome) {pr : Profile} (hl : p.profiles.lookup root = some pr)
    (hst : Static p root pr) (hnext : 0 < pr.next) (vt : ℕ → E → α) (vi : ℕ → Decision → α → α → α) :
    ∃ e q, bottomUp (pureLeaf vt) (pureInner vi) root p = (.error e, q) := by
  have hcl0 : pr.next = 0 → Clean pr := fun h => absurd h (by omega)
  have hv := pure_visitors (X := X) p root vt vi
  have hloop := bottomUpLoop_dirty hi.core hr hst.order hv pr.next (pr.nodes.length + 1) pr.next (le_refl _) p
    ⟨hi, pr, hl, hst, hcl0⟩ (Ext.refl p) ⟨pr.counts, hl⟩ [] (by simp)
  cases hb : bottomUp (pureLeaf vt) (pureInner vi) root p with
  | mk r q =>
    cases r with
    | error e => exact ⟨e, q, rfl⟩
    | ok a =>
      exfalso
      unfold bottomUp at hb
      obtain ⟨pr', p2, h4, h⟩ := bind_ok hb
      rw [getProfile_some hl] at h4
      cases h4
      obtain ⟨ms, q', h5, h⟩ := bind_ok h
      have h6 := hloop.2.2.1 ms (by rw [h5])
      match ms, h, h6 with
      | [], h, _ => cases h
      | [(n, b)], h, h6 =>
        simp only at h
        split_ifs at h with hn
        · subst hn
          cases hns : pr.nodes with
          | nil =>
            have := (hst.order.mem n).mpr .root
            rw [hns] at this; cases this
          | cons x l =>
            have hx : Reach p n x := (hst.order.mem x).mp (by rw [hns]; simp)
            have := h6.1 (n, b) (by simp) x hx
            have hnd := hst.order.nodup
            rw [hns] at this hnd
            obtain ⟨j, hj⟩ : ∃ j, pr.next = j + 1 := ⟨pr.next - 1, by omega⟩
            rw [hj, List.drop_succ_cons] at this
            exact (List.nodup_cons.mp hnd).1 (List.mem_of_mem_drop this)
        · cases h
      | _ :: _ :: _, h, _ => cases h

/-- C53, finding: when a walk raised after its first step, no later walk of the same root returns, whatever its visitors compute:
the profile in the pool's cache is not reset. -/
theorem walk_after_raise (hX : XLaw X ev) {p : Pool E} (hp : Reachable X Γ p) {root : ℕ} (hr : (p.node root).isSome) (hf : ¬Fresh p root)
    (vt : ℕ → E → α) (vi : ℕ → Decision → α → α → α) :
    ∃ e q, bottomUp (pureLeaf vt) (pureInner vi) root p = (.error e, q) := by
  have hi := hp.inv hX
  unfold Fresh at hf
  push Not at hf
  obtain ⟨pr, hl, hcl⟩ := hf
  obtain ⟨T, -, hst, hcl0, -⟩ := hi.prof root pr hl
  exact walk_dirty hi.toInv1 hr hl hst (Nat.pos_of_ne_zero fun h0 => hcl (hcl0 h0)) vt vi

end
end Pywmi
