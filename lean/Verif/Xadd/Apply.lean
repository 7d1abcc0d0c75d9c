import Verif.Xadd.Intern

set_option linter.unusedSectionVars false
set_option linter.unusedSimpArgs false

/-!
# `Pool.apply` keeps the invariant and computes the operation
-/

namespace Pywmi
open Formula Prog Decision

section
variable {E : Type} [DecidableEq E]

/-- SPEC: the operation on leaves. -/
def opE (X : XCtx E) : XOp → E → E → E
  | .mul, e, e' =>
    if e = X.back.alg.zero ∨ e' = X.back.alg.zero then X.back.alg.zero
    else if e = X.back.alg.one then e'
    else if e' = X.back.alg.one then e
    else X.back.flat (X.back.alg.times e e')
  | .add, e, e' =>
    if e = X.back.alg.zero then e'
    else if e' = X.back.alg.zero then e
    else X.back.flat (X.back.alg.plus e e')
  | .or, e, e' =>
    if e = X.back.alg.zero then e'
    else if e = X.back.alg.one then X.back.alg.one
    else if e' = X.back.alg.zero then e
    else X.back.alg.one
  | .and, e, e' =>
    if e = X.back.alg.one then e'
    else if e = X.back.alg.zero then X.back.alg.zero
    else if e' = X.back.alg.one then e
    else X.back.alg.zero

/-- SPEC: all leaves are zero or one. -/
def Bin (X : XCtx E) (T : XTree E) : Prop := ∀ e ∈ T.leaves, e = X.back.alg.zero ∨ e = X.back.alg.one

/-- SPEC: the third diagram is the operation applied to the first two. -/
structure AppSpec (X : XCtx E) (L : List Formula) (op : XOp) (T1 T2 T : XTree E) : Prop where
  leaf : ∀ c, T.leafAt c = opE X op (T1.leafAt c) (T2.leafAt c)
  tests : ∀ g ∈ T.tests, g ∈ T1.tests ∨ g ∈ T2.tests
  ord : T1.Ord L → T2.Ord L → T.Ord L
  bin : op ≠ .add → Bin X T1 → Bin X T2 → Bin X T

/-- SPEC: the node `r` stands for the operation applied to the nodes `a` and `b`. -/
def ApplyOk (X : XCtx E) (p : Pool E) (op : XOp) (a b r : ℕ) : Prop :=
  ∃ T1 T2 T, Den p a T1 ∧ Den p b T2 ∧ Den p r T ∧ AppSpec X p.tests op T1 T2 T

/-- The invariant with the cache of `apply`. -/
structure Inv0 (X : XCtx E) (p : Pool E) : Prop where
  core : Core X p
  app : ∀ op a b r, p.applyCache.lookup (op, a, b) = some r → ApplyOk X p op a b r

/-- The caches other than that of `apply` are as before. -/
structure Fr0 (p q : Pool E) : Prop extends Ext p q where
  reduceC : q.reduceCache = p.reduceCache
  resolveC : q.resolveCache = p.resolveCache
  profC : q.profiles = p.profiles
  walkC : q.walk = p.walk

theorem Fr0.refl (p : Pool E) : Fr0 p p := ⟨Ext.refl p, rfl, rfl, rfl, rfl⟩
theorem Fr0.trans {p q r : Pool E} (h : Fr0 p q) (h' : Fr0 q r) : Fr0 p r :=
  ⟨h.toExt.trans h'.toExt, h'.reduceC.trans h.reduceC, h'.resolveC.trans h.resolveC, h'.profC.trans h.profC,
    h'.walkC.trans h.walkC⟩
theorem Fr.fr0 {p q : Pool E} (h : Fr p q) : Fr0 p q := ⟨h.toExt, h.reduceC, h.resolveC, h.profC, h.walkC⟩

theorem Run.weaken {α : Type} {I I' : Pool E → Prop} {R R' : Pool E → Pool E → Prop} {m : XM E α} {p : Pool E} {s : Prop}
    {Q : α → Pool E → Prop} (h : Run I R m p s Q) (hI : ∀ q, I q → R p q → I' q) (hR : ∀ q, R p q → R' p q) :
    Run I' R' m p s Q :=
  ⟨hI _ h.1 h.2.1, hR _ h.2.1, h.2.2.1, h.2.2.2⟩

theorem Run.seq0 {α β : Type} {I : Pool E → Prop} {m : XM E α} {f : α → XM E β} {p : Pool E} {s safe : Prop}
    {P : α → Pool E → Prop} {Q : β → Pool E → Prop} (h1 : Run I Fr0 m p s P) (hs : safe → s)
    (h2 : ∀ a q, I q → Fr0 p q → P a q → Run I Fr0 (f a) q safe Q) : Run I Fr0 (m >>= f) p safe Q :=
  Run.bind (R := Fr0) (fun h h' => h.trans h') (h1.imp hs fun _ _ _ _ h => h) h2

theorem AppSpec.mono {X : XCtx E} {L L' : List Formula} (h : L <+: L') {op : XOp} {T1 T2 T : XTree E}
    (h1 : ∀ g ∈ T1.tests, g ∈ L) (h2 : ∀ g ∈ T2.tests, g ∈ L) (h3 : AppSpec X L op T1 T2 T) : AppSpec X L' op T1 T2 T :=
  ⟨h3.leaf, h3.tests, fun o1 o2 => (XTree.Ord.mono h fun g hg => (h3.tests g hg).elim (h1 g) (h2 g)).mpr
    (h3.ord ((XTree.Ord.mono h h1).mp o1) ((XTree.Ord.mono h h2).mp o2)), h3.bin⟩

theorem ApplyOk.mono {X : XCtx E} {p q : Pool E} (he : Ext p q) (hp : Core X p) {op : XOp} {a b r : ℕ}
    (h : ApplyOk X p op a b r) : ApplyOk X q op a b r := by
  obtain ⟨T1, T2, T, h1, h2, h3, h4⟩ := h
  exact ⟨T1, T2, T, he.den h1, he.den h2, he.den h3, h4.mono he.tests (h1.tests hp) (h2.tests hp)⟩

/-- Operations on the nodes leave the entries of the cache of `apply` true. -/
theorem Run.core {α : Type} {X : XCtx E} {m : XM E α} {p : Pool E} {s : Prop} {Q : α → Pool E → Prop} (hp : Inv0 X p)
    (h : Run (Core X) Fr m p s Q) : Run (Inv0 X) Fr0 m p s Q :=
  h.weaken (fun _ hq hpq => ⟨hq, fun op a b r hr => (hp.app op a b r (hpq.applyC ▸ hr)).mono hpq.toExt hp.core⟩)
    fun _ hpq => hpq.fr0

/-! ### Splitting an operand -/

/-- The subtrees of an operand for the outcomes of a test. -/
def splitT (g : Formula) : XTree E → XTree E × XTree E
  | .leaf e => (.leaf e, .leaf e)
  | .node d t f => if d.test = g then (t, f) else (.node d t f, .node d t f)

theorem splitT_leafAt (g : Formula) (T : XTree E) (c : Formula → Bool) :
    T.leafAt c = if c g then (splitT g T).1.leafAt c else (splitT g T).2.leafAt c := by
  cases T with
  | leaf e => simp [splitT]
  | node d t f =>
    by_cases h : d.test = g
    · subst h; simp only [splitT, if_true]; rfl
    · simp [splitT, h]

theorem splitT_tests (g : Formula) (T : XTree E) : (∀ h ∈ (splitT g T).1.tests, h ∈ T.tests) ∧ ∀ h ∈ (splitT g T).2.tests, h ∈ T.tests := by
  cases T with
  | leaf e => simp [splitT]
  | node d t f =>
    rw [splitT]
    split
    · exact ⟨fun h hh => by simp [XTree.tests, hh], fun h hh => by simp [XTree.tests, hh]⟩
    · exact ⟨fun h hh => hh, fun h hh => hh⟩

theorem splitT_leaves (g : Formula) (T : XTree E) :
    (∀ h ∈ (splitT g T).1.leaves, h ∈ T.leaves) ∧ ∀ h ∈ (splitT g T).2.leaves, h ∈ T.leaves := by
  cases T with
  | leaf e => simp [splitT]
  | node d t f =>
    rw [splitT]
    split
    · exact ⟨fun h hh => by simp [XTree.leaves, hh], fun h hh => by simp [XTree.leaves, hh]⟩
    · exact ⟨fun h hh => hh, fun h hh => hh⟩

/-- SPEC: the test is not after the root's test. -/
def Before (L : List Formula) (g : Formula) : XTree E → Prop
  | .leaf _ => True
  | .node d _ _ => L.idxOf g ≤ L.idxOf d.test

theorem idxOf_inj {L : List Formula} {g h : Formula} (hg : g ∈ L) (e : L.idxOf g = L.idxOf h) : g = h := by
  have h1 := List.getElem_idxOf (List.idxOf_lt_length_iff.mpr hg)
  have hh : h ∈ L := by
    rw [← List.idxOf_lt_length_iff, ← e]
    exact List.idxOf_lt_length_iff.mpr hg
  have h2 := List.getElem_idxOf (List.idxOf_lt_length_iff.mpr hh)
  rw [← h1, ← h2]
  congr 1

theorem splitT_ord {L : List Formula} {g : Formula} (hg : g ∈ L) {T : XTree E} (hT : T.Ord L) (hb : Before L g T) :
    (splitT g T).1.Ord L ∧ (splitT g T).2.Ord L ∧ (∀ h ∈ (splitT g T).1.tests, L.idxOf g < L.idxOf h) ∧
      ∀ h ∈ (splitT g T).2.tests, L.idxOf g < L.idxOf h := by
  cases T with
  | leaf e => exact ⟨trivial, trivial, fun h hh => (by cases hh), fun h hh => (by cases hh)⟩
  | node d t f =>
    rw [splitT]
    split
    · rename_i h
      subst h
      exact ⟨hT.2.1, hT.2.2, fun h hh => hT.1 h (Or.inl hh), fun h hh => hT.1 h (Or.inr hh)⟩
    · rename_i h
      have hlt : L.idxOf g < L.idxOf d.test := lt_of_le_of_ne hb fun e => h (idxOf_inj hg e).symm
      have : ∀ h ∈ (XTree.node d t f).tests, L.idxOf g < L.idxOf h := by
        intro h' hh
        simp only [XTree.tests, List.mem_cons, List.mem_append] at hh
        rcases hh with rfl | hh
        · exact hlt
        · exact hlt.trans (hT.1 h' hh)
      exact ⟨hT, hT, this, this⟩

theorem splitOn_den {p : Pool E} {sel : Decision} {a : ℕ} {x : XNode E} (hx : p.node a = some x) {T : XTree E} (hT : Den p a T) :
    Den p (splitOn sel a x).1 (splitT sel.test T).1 ∧ Den p (splitOn sel a x).2 (splitT sel.test T).2 := by
  cases hT with
  | leaf h =>
    rw [hx] at h
    simp only [Option.some.injEq] at h
    subst h
    exact ⟨.leaf hx, .leaf hx⟩
  | node h h1 h2 =>
    rw [hx] at h
    simp only [Option.some.injEq] at h
    subst h
    simp only [splitOn, splitT]
    split
    · exact ⟨h1, h2⟩
    · exact ⟨.node hx h1 h2, .node hx h1 h2⟩

theorem splitOn_le {X : XCtx E} {p : Pool E} (hp : Core X p) {sel : Decision} {a : ℕ} {x : XNode E} (hx : p.node a = some x) :
    (splitOn sel a x).1 ≤ a ∧ (splitOn sel a x).2 ≤ a := by
  cases x with
  | leaf e => exact ⟨le_refl _, le_refl _⟩
  | inner d t f =>
    obtain ⟨h1, h2, -⟩ := hp.inner hx
    simp only [splitOn]
    split
    · exact ⟨h1.le, h2.le⟩
    · exact ⟨le_refl _, le_refl _⟩

theorem splitOn_lt {X : XCtx E} {p : Pool E} (hp : Core X p) {sel d : Decision} {a t f : ℕ} (hx : p.node a = some (.inner d t f))
    (hd : d.test = sel.test) : (splitOn sel a (.inner d t f : XNode E)).1 < a ∧ (splitOn sel a (.inner d t f : XNode E)).2 < a := by
  obtain ⟨h1, h2, -⟩ := hp.inner hx
  simp only [splitOn, hd, if_true]
  exact ⟨h1, h2⟩

/-! ### Terminal cases -/

theorem Core.leafZero {X : XCtx E} {p : Pool E} (hp : Core X p) {a : ℕ} {T : XTree E} (h : Den p a T) :
    a = p.zeroId ↔ T = .leaf X.back.alg.zero := by
  constructor
  · rintro rfl; exact h.unique (.leaf hp.zero)
  · rintro rfl
    cases h with
    | leaf h => exact hp.leaf_inj h hp.zero

theorem Core.leafOne {X : XCtx E} {p : Pool E} (hp : Core X p) {a : ℕ} {T : XTree E} (h : Den p a T) :
    a = p.oneId ↔ T = .leaf X.back.alg.one := by
  constructor
  · rintro rfl; exact h.unique (.leaf hp.one)
  · rintro rfl
    cases h with
    | leaf h => exact hp.leaf_inj h hp.one

theorem Den.isLeaf {p : Pool E} {a : ℕ} {x : XNode E} (hx : p.node a = some x) {T : XTree E} (h : Den p a T) :
    x.isLeaf = true ↔ ∃ e, T = .leaf e := by
  cases h with
  | leaf h =>
    rw [hx] at h; simp only [Option.some.injEq] at h; subst h
    simp [XNode.isLeaf]
  | node h _ _ =>
    rw [hx] at h; simp only [Option.some.injEq] at h; subst h
    simp [XNode.isLeaf]

theorem bin_leaf {X : XCtx E} {e : E} : Bin X (.leaf e) ↔ (e = X.back.alg.zero ∨ e = X.back.alg.one) := by
  simp [Bin, XTree.leaves]

theorem computeTerminal_run {X : XCtx E} {p : Pool E} (hp : Inv0 X p) (op : XOp) {a b : ℕ} {x y : XNode E}
    (hx : p.node a = some x) (hy : p.node b = some y) {T1 T2 : XTree E} (h1 : Den p a T1) (h2 : Den p b T2) :
    Run (Inv0 X) Fr0 (computeTerminal X op a x b y) p (op = .or ∨ op = .and → Bin X T1 ∧ Bin X T2)
      (fun r q => match r with
        | some n => ∃ T, Den q n T ∧ AppSpec X q.tests op T1 T2 T
        | none => q = p ∧ ¬(x.isLeaf = true ∧ y.isLeaf = true)) := by
  have keep : ∀ {s : Prop} {n : ℕ} {T : XTree E}, Den p n T → AppSpec X p.tests op T1 T2 T →
      Run (Inv0 X) Fr0 (pure (some n) : XM E (Option ℕ)) p s
        (fun r q => match r with
          | some n => ∃ T, Den q n T ∧ AppSpec X q.tests op T1 T2 T
          | none => q = p ∧ ¬(x.isLeaf = true ∧ y.isLeaf = true)) :=
    fun {s n T} hd hs => Run.ret Fr0.refl hp ⟨T, hd, hs⟩
  have first : (∀ c, T1.leafAt c = opE X op (T1.leafAt c) (T2.leafAt c)) → AppSpec X p.tests op T1 T2 T1 := fun h =>
    ⟨h, fun g hg => Or.inl hg, fun h _ => h, fun _ h _ => h⟩
  have second : (∀ c, T2.leafAt c = opE X op (T1.leafAt c) (T2.leafAt c)) → AppSpec X p.tests op T1 T2 T2 := fun h =>
    ⟨h, fun g hg => Or.inr hg, fun _ h => h, fun _ _ h => h⟩
  have zero : (∀ c, X.back.alg.zero = opE X op (T1.leafAt c) (T2.leafAt c)) →
      AppSpec X p.tests op T1 T2 (.leaf X.back.alg.zero) := fun h =>
    ⟨h, fun g hg => (by cases hg), fun _ _ => trivial, fun _ _ _ => bin_leaf.mpr (Or.inl rfl)⟩
  have one : (∀ c, X.back.alg.one = opE X op (T1.leafAt c) (T2.leafAt c)) →
      AppSpec X p.tests op T1 T2 (.leaf X.back.alg.one) := fun h =>
    ⟨h, fun g hg => (by cases hg), fun _ _ => trivial, fun _ _ _ => bin_leaf.mpr (Or.inr rfl)⟩
  have dz : Den p p.zeroId (.leaf X.back.alg.zero) := .leaf hp.core.zero
  have d1 : Den p p.oneId (.leaf X.back.alg.one) := .leaf hp.core.one
  have lx := h1.isLeaf hx
  have ly := h2.isLeaf hy
  have za := hp.core.leafZero h1
  have zb := hp.core.leafZero h2
  have oa := hp.core.leafOne h1
  have ob := hp.core.leafOne h2
  unfold computeTerminal
  refine Run.bindGet ?_
  cases op with
  | mul =>
    simp only
    split
    · rename_i h
      refine keep dz (zero fun c => ?_)
      rcases h with h | h
      · rw [za.mp h]; simp [opE]
      · rw [zb.mp h]; simp [opE]
    · rename_i h
      push Not at h
      split
      · rename_i h'
        have hne : X.back.alg.one ≠ X.back.alg.zero := fun e => h.1 (za.mpr (by rw [oa.mp h', e]))
        refine keep h2 (second fun c => ?_)
        rw [oa.mp h', XTree.leafAt_leaf]
        simp only [opE, hne, false_or, if_true]
        split
        · rename_i h''; exact h''
        · rfl
      · split
        · rename_i h'
          have hne : X.back.alg.one ≠ X.back.alg.zero := fun e => h.2 (zb.mpr (by rw [ob.mp h', e]))
          refine keep h1 (first fun c => ?_)
          rw [ob.mp h', XTree.leafAt_leaf]
          simp only [opE, hne, or_false, if_true]
          split
          · rename_i h''; exact h''
          · split
            · rename_i h''; exact h''
            · rfl
        · rename_i ha hb
          split
          · rename_i e e'
            have e1 : T1 = .leaf e := h1.unique (.leaf hx)
            have e2 : T2 = .leaf e' := h2.unique (.leaf hy)
            subst e1 e2
            have f1 : e ≠ X.back.alg.zero := fun h' => h.1 (za.mpr (by rw [h']))
            have f2 : e' ≠ X.back.alg.zero := fun h' => h.2 (zb.mpr (by rw [h']))
            have f3 : e ≠ X.back.alg.one := fun h' => ha (oa.mpr (by rw [h']))
            have f4 : e' ≠ X.back.alg.one := fun h' => hb (ob.mpr (by rw [h']))
            refine Run.seq0 ((terminal_run hp.core _).core hp) (fun _ => trivial) ?_
            intro n q hq _ hn
            refine Run.ret Fr0.refl hq ⟨_, .leaf hn, fun c => ?_, fun g hg => (by cases hg), fun _ _ => trivial, ?_⟩
            · simp [opE, f1, f2, f3, f4]
            · intro _ hb1 _
              rcases bin_leaf.mp hb1 with h' | h'
              · exact absurd h' f1
              · exact absurd h' f3
          · rename_i hno
            refine Run.ret Fr0.refl hp ⟨rfl, ?_⟩
            rintro ⟨g1, g2⟩
            cases x with
            | inner _ _ _ => cases g1
            | leaf e => cases y with
              | inner _ _ _ => cases g2
              | leaf e' => exact hno e e' rfl rfl
  | add =>
    simp only
    split
    · rename_i h
      exact keep h2 (second fun c => by rw [za.mp h]; simp [opE])
    · rename_i ha
      split
      · rename_i h
        refine keep h1 (first fun c => ?_)
        rw [zb.mp h, XTree.leafAt_leaf]
        simp only [opE, if_true]
        split
        · rename_i h''; exact h''
        · rfl
      · rename_i hb
        split
        · rename_i e e'
          have e1 : T1 = .leaf e := h1.unique (.leaf hx)
          have e2 : T2 = .leaf e' := h2.unique (.leaf hy)
          subst e1 e2
          have f1 : e ≠ X.back.alg.zero := fun h' => ha (za.mpr (by rw [h']))
          have f2 : e' ≠ X.back.alg.zero := fun h' => hb (zb.mpr (by rw [h']))
          refine Run.seq0 ((terminal_run hp.core _).core hp) (fun _ => trivial) ?_
          intro n q hq _ hn
          refine Run.ret Fr0.refl hq ⟨_, .leaf hn, fun c => ?_, fun g hg => (by cases hg), fun _ _ => trivial,
            fun h => absurd rfl h⟩
          simp [opE, f1, f2]
        · rename_i hno
          refine Run.ret Fr0.refl hp ⟨rfl, ?_⟩
          rintro ⟨g1, g2⟩
          cases x with
          | inner _ _ _ => cases g1
          | leaf e => cases y with
            | inner _ _ _ => cases g2
            | leaf e' => exact hno e e' rfl rfl
  | or =>
    simp only
    split
    · rename_i h
      obtain ⟨g1, g2, g3⟩ := h
      refine Run.fail Fr0.refl hp fun hs => ?_
      obtain ⟨b1, b2⟩ := hs (by simp)
      obtain ⟨e, rfl⟩ := lx.mp g1
      obtain ⟨e', rfl⟩ := ly.mp g2
      rw [bin_leaf] at b1 b2
      simp only [XTree.leaf.injEq] at za zb oa ob
      rcases g3 with ⟨g3, g4⟩ | ⟨g3, g4⟩
      · exact b1.elim (fun h => g3 (za.mpr h)) fun h => g4 (oa.mpr h)
      · exact b2.elim (fun h => g3 (zb.mpr h)) fun h => g4 (ob.mpr h)
    · rename_i hbad
      split
      · rename_i h
        exact keep h2 (second fun c => by rw [za.mp h]; simp [opE])
      · rename_i haz
        split
        · rename_i h
          have hne : X.back.alg.one ≠ X.back.alg.zero := fun e => haz (za.mpr (by rw [oa.mp h, e]))
          exact keep d1 (one fun c => by rw [oa.mp h]; simp [opE, hne])
        · rename_i hao
          split
          · rename_i h
            refine keep h1 (first fun c => ?_)
            rw [zb.mp h, XTree.leafAt_leaf]
            simp only [opE, if_true]
            split
            · rename_i h''; exact h''
            · split
              · rename_i h''; exact h''
              · rfl
          · rename_i hbz
            split
            · rename_i h
              have hne : X.back.alg.one ≠ X.back.alg.zero := fun e => hbz (zb.mpr (by rw [ob.mp h, e]))
              refine keep d1 (one fun c => ?_)
              rw [ob.mp h, XTree.leafAt_leaf]
              simp only [opE, hne, if_false]
              split
              · rfl
              · split <;> rfl
            · rename_i hbo
              split
              · rename_i h
                exact absurd ⟨h.1, h.2, Or.inl ⟨haz, hao⟩⟩ hbad
              · rename_i h
                exact Run.ret Fr0.refl hp ⟨rfl, h⟩
  | and =>
    simp only
    split
    · rename_i h
      obtain ⟨g1, g2, g3⟩ := h
      refine Run.fail Fr0.refl hp fun hs => ?_
      obtain ⟨b1, b2⟩ := hs (by simp)
      obtain ⟨e, rfl⟩ := lx.mp g1
      obtain ⟨e', rfl⟩ := ly.mp g2
      rw [bin_leaf] at b1 b2
      simp only [XTree.leaf.injEq] at za zb oa ob
      rcases g3 with ⟨g3, g4⟩ | ⟨g3, g4⟩
      · exact b1.elim (fun h => g3 (za.mpr h)) fun h => g4 (oa.mpr h)
      · exact b2.elim (fun h => g3 (zb.mpr h)) fun h => g4 (ob.mpr h)
    · rename_i hbad
      split
      · rename_i h
        exact keep h2 (second fun c => by rw [oa.mp h]; simp [opE])
      · rename_i hao
        split
        · rename_i h
          have hne : X.back.alg.zero ≠ X.back.alg.one := fun e => hao (oa.mpr (by rw [za.mp h, e]))
          exact keep dz (zero fun c => by rw [za.mp h]; simp [opE, hne])
        · rename_i haz
          split
          · rename_i h
            refine keep h1 (first fun c => ?_)
            rw [ob.mp h, XTree.leafAt_leaf]
            simp only [opE, if_true]
            split
            · rename_i h''; exact h''
            · split
              · rename_i h''; exact h''
              · rfl
          · rename_i hbo
            split
            · rename_i h
              have hne : X.back.alg.zero ≠ X.back.alg.one := fun e => hbo (ob.mpr (by rw [zb.mp h, e]))
              refine keep dz (zero fun c => ?_)
              rw [zb.mp h, XTree.leafAt_leaf]
              simp only [opE, hne, if_false]
              split
              · rfl
              · split <;> rfl
            · rename_i hbz
              split
              · rename_i h
                exact absurd ⟨h.1, h.2, Or.inl ⟨haz, hao⟩⟩ hbad
              · rename_i h
                exact Run.ret Fr0.refl hp ⟨rfl, h⟩

/-! ### The selected test -/

theorem idxOf_of_idxOf? {L : List Formula} {g : Formula} {i : ℕ} (h : L.idxOf? g = some i) : L.idxOf g = i := by
  rw [List.idxOf?_eq_some_iff] at h
  obtain ⟨h1, h2, h3⟩ := h
  have hm : g ∈ L := h2 ▸ List.getElem_mem h1
  have hlt := List.idxOf_lt_length_iff.mpr hm
  have h4 := List.getElem_idxOf hlt
  rcases lt_trichotomy (L.idxOf g) i with h | h | h
  · exact absurd h4 (h3 _ h)
  · exact h
  · exact absurd h2 (by have := List.not_of_lt_findIdx (p := (· == g)) h; simpa using this)

theorem selectTest_run {X : XCtx E} {p : Pool E} (hp : Inv0 X p) {a b : ℕ} {x y : XNode E} (hx : p.node a = some x)
    (hy : p.node b = some y) {T1 T2 : XTree E} (h1 : Den p a T1) (h2 : Den p b T2) (hno : ¬(x.isLeaf = true ∧ y.isLeaf = true)) :
    Run (Inv0 X) Fr0 (selectTest x y) p True (fun d q => q = p ∧ DecOk d ∧ d.test ∈ p.tests ∧ Before p.tests d.test T1 ∧
      Before p.tests d.test T2 ∧ ((∃ d' t f, x = .inner d' t f ∧ d'.test = d.test) ∨ ∃ d' t f, y = .inner d' t f ∧ d'.test = d.test)) := by
  cases x with
  | leaf e =>
    have e1 : T1 = .leaf e := h1.unique (.leaf hx)
    subst e1
    cases y with
    | leaf e' => exact absurd ⟨rfl, rfl⟩ hno
    | inner d' t' f' =>
      obtain ⟨-, -, -, -, -, hd, hm⟩ := hp.core.inner hy
      cases h2 with
      | leaf h => rw [hy] at h; simp at h
      | node h _ _ =>
        rw [hy] at h
        simp only [Option.some.injEq, XNode.inner.injEq] at h
        obtain ⟨rfl, rfl, rfl⟩ := h
        exact Run.ret Fr0.refl hp ⟨rfl, hd, hm, trivial, le_refl _, Or.inr ⟨_, _, _, rfl, rfl⟩⟩
  | inner d t f =>
    obtain ⟨-, -, -, -, -, hd, hm⟩ := hp.core.inner hx
    cases h1 with
    | leaf h => rw [hx] at h; simp at h
    | node h _ _ =>
      rw [hx] at h
      simp only [Option.some.injEq, XNode.inner.injEq] at h
      obtain ⟨rfl, rfl, rfl⟩ := h
      cases y with
      | leaf e' =>
        have e2 : T2 = .leaf e' := h2.unique (.leaf hy)
        subst e2
        exact Run.ret Fr0.refl hp ⟨rfl, hd, hm, le_refl _, trivial, Or.inl ⟨_, _, _, rfl, rfl⟩⟩
      | inner d' t' f' =>
        obtain ⟨-, -, -, -, -, hd', hm'⟩ := hp.core.inner hy
        cases h2 with
        | leaf h => rw [hy] at h; simp at h
        | node h _ _ =>
          rw [hy] at h
          simp only [Option.some.injEq, XNode.inner.injEq] at h
          obtain ⟨rfl, rfl, rfl⟩ := h
          obtain ⟨i, hi⟩ := Option.isSome_iff_exists.mp (List.isSome_idxOf?.mpr hm)
          obtain ⟨j, hj⟩ := Option.isSome_iff_exists.mp (List.isSome_idxOf?.mpr hm')
          unfold selectTest
          refine Run.seq0 (s := True) (P := fun s q => q = p ∧ s = decide (i ≤ j)) ?_ (fun h => h) ?_
          · unfold Run testSmallerEq
            simp only [hi, hj]
            exact ⟨hp, Fr0.refl p, fun s hs => ⟨trivial, by simpa using hs.symm⟩, fun _ => ⟨_, rfl⟩⟩
          · rintro s q hq _ ⟨rfl, rfl⟩
            have ei := idxOf_of_idxOf? hi
            have ej := idxOf_of_idxOf? hj
            by_cases hij : i ≤ j
            · simp only [hij, decide_true, if_true]
              refine Run.ret Fr0.refl hq ⟨rfl, hd, hm, le_refl _, ?_, Or.inl ⟨_, _, _, rfl, rfl⟩⟩
              simp only [Before]; omega
            · simp only [hij, decide_false, Bool.false_eq_true, if_false]
              refine Run.ret Fr0.refl hq ⟨rfl, hd', hm', ?_, le_refl _, Or.inr ⟨_, _, _, rfl, rfl⟩⟩
              simp only [Before]; omega

/-- Adding an entry to the cache. -/
theorem cacheApply_run {X : XCtx E} {p : Pool E} (hp : Inv0 X p) {op : XOp} {a b r : ℕ} (h : ApplyOk X p op a b r)
    {s : Prop} {Q : ℕ → Pool E → Prop} (hQ : ∀ q : Pool E, q.slots = p.slots → q.tests = p.tests → Ext p q → Q r q) :
    Run (Inv0 X) Fr0 (do XM.modify fun p => { p with applyCache := ((op, a, b), r) :: p.applyCache }; pure r) p s Q := by
  have hext : Ext p { p with applyCache := ((op, a, b), r) :: p.applyCache } :=
    ⟨List.prefix_refl _, List.prefix_refl _, rfl, rfl⟩
  have hcore : Core X { p with applyCache := ((op, a, b), r) :: p.applyCache } :=
    have c := hp.core
    have hn : ∀ n, Pool.node { p with applyCache := ((op, a, b), r) :: p.applyCache } n = p.node n := node_congr rfl
    ⟨(hn _).trans c.zero, (hn _).trans c.one, fun h => by simp only [hn] at h ⊢; exact c.inner h,
      fun e n => by rw [hn]; exact c.exprs e n, fun i t f n => by simp only [hn]; exact c.inners i t f n, c.nodup⟩
  refine ⟨⟨hcore, ?_⟩, ⟨hext, rfl, rfl, rfl, rfl⟩, fun n hn => ?_, fun _ => ⟨r, rfl⟩⟩
  · intro op' a' b' r' hl
    simp only [XM.bind_apply, XM.modify, XM.pure_apply, List.lookup_cons] at hl
    split at hl
    · rename_i hk
      simp only [beq_iff_eq, Prod.mk.injEq] at hk
      obtain ⟨rfl, rfl, rfl⟩ := hk
      simp only [Option.some.injEq] at hl
      subst hl
      exact h.mono hext hp.core
    · exact (hp.app _ _ _ _ hl).mono hext hp.core
  · simp only [XM.bind_apply, XM.modify, XM.pure_apply, Except.ok.injEq] at hn ⊢
    subst hn
    exact hQ _ rfl rfl hext

theorem applyF_run {X : XCtx E} (hs : SimpLaw X.simp) (op : XOp) : ∀ (k : ℕ) {p : Pool E}, Inv0 X p → ∀ {a b : ℕ} {T1 T2 : XTree E},
    Den p a T1 → Den p b T2 → a + b < k →
    Run (Inv0 X) Fr0 (applyF X op k a b) p (op = .or ∨ op = .and → Bin X T1 ∧ Bin X T2)
      (fun r q => ∃ T, Den q r T ∧ AppSpec X q.tests op T1 T2 T) := by
  intro k
  induction k with
  | zero => intro p _ a b T1 T2 _ _ h; omega
  | succ k ih =>
    intro p hp a b T1 T2 h1 h2 hk
    unfold applyF
    refine Run.bindGet ?_
    cases hc : p.applyCache.lookup (op, a, b) with
    | some r =>
      obtain ⟨U1, U2, T, g1, g2, g3, g4⟩ := hp.app _ _ _ _ hc
      rw [g1.unique h1, g2.unique h2] at g4
      exact Run.ret Fr0.refl hp ⟨T, g3, g4⟩
    | none =>
      simp only
      obtain ⟨x, hx⟩ := Option.isSome_iff_exists.mp h1.isSome
      obtain ⟨y, hy⟩ := Option.isSome_iff_exists.mp h2.isSome
      refine Run.seq0 ((getNode_run hp (n := a)).weaken (fun _ h _ => h) fun _ h => h.fr0) (fun _ => h1.isSome) ?_
      rintro x' q hq - ⟨rfl, hx'⟩
      rw [hx] at hx'
      cases hx'
      refine Run.seq0 ((getNode_run hp (n := b)).weaken (fun _ h _ => h) fun _ h => h.fr0) (fun _ => h2.isSome) ?_
      rintro y' q' hq' - ⟨rfl, hy'⟩
      rw [hy] at hy'
      cases hy'
      refine Run.seq0 (computeTerminal_run hp op hx hy h1 h2) id ?_
      intro r q1 hq1 hpq1 hr
      cases r with
      | some r =>
        simp only at hr ⊢
        obtain ⟨T, hT, hsp⟩ := hr
        refine cacheApply_run hq1 ⟨T1, T2, T, hpq1.den h1, hpq1.den h2, hT, hsp⟩ fun q2 _ e2 he => ?_
        exact ⟨T, he.den hT, e2 ▸ hsp⟩
      | none =>
        simp only at hr ⊢
        obtain ⟨rfl, hno⟩ := hr
        refine Run.seq0 (selectTest_run hp hx hy h1 h2 hno) (fun _ => trivial) ?_
        rintro sel q2 - - ⟨rfl, hd, hm, hb1, hb2, hwho⟩
        obtain ⟨a1, a2⟩ := splitOn_den (sel := sel) hx h1
        obtain ⟨b1, b2⟩ := splitOn_den (sel := sel) hy h2
        have hla := splitOn_le hp.core (sel := sel) hx
        have hlb := splitOn_le hp.core (sel := sel) hy
        have hlt : (splitOn sel a x).1 + (splitOn sel b y).1 < k ∧ (splitOn sel a x).2 + (splitOn sel b y).2 < k := by
          rcases hwho with ⟨d', t, f, rfl, hd'⟩ | ⟨d', t, f, rfl, hd'⟩
          · have := splitOn_lt hp.core hx hd'
            omega
          · have := splitOn_lt hp.core hy hd'
            omega
        have hbin : (op = .or ∨ op = .and → Bin X T1 ∧ Bin X T2) →
            (op = .or ∨ op = .and → Bin X (splitT sel.test T1).1 ∧ Bin X (splitT sel.test T2).1) ∧
            (op = .or ∨ op = .and → Bin X (splitT sel.test T1).2 ∧ Bin X (splitT sel.test T2).2) := fun h =>
          ⟨fun ho => ⟨fun e he => (h ho).1 e ((splitT_leaves sel.test T1).1 e he), fun e he => (h ho).2 e ((splitT_leaves sel.test T2).1 e he)⟩,
           fun ho => ⟨fun e he => (h ho).1 e ((splitT_leaves sel.test T1).2 e he), fun e he => (h ho).2 e ((splitT_leaves sel.test T2).2 e he)⟩⟩
        refine Run.seq0 (ih hp a1 b1 hlt.1) (fun h => (hbin h).1) ?_
        rintro ct q3 hq3 h23 ⟨A, hA, sA⟩
        refine Run.seq0 (ih hq3 (h23.den a2) (h23.den b2) hlt.2) (fun h => (hbin h).2) ?_
        rintro cf q4 hq4 h34 ⟨B, hB, sB⟩
        refine Run.seq0 ((internal_canon hs hq4.core hd (h34.den hA) hB).core hq4) (fun _ => trivial) ?_
        rintro r q5 hq5 h45 ⟨T, hT, hcan⟩
        have h25 : Fr0 q2 q5 := (h23.trans h34).trans h45
        have sA5 : AppSpec X q5.tests op (splitT sel.test T1).1 (splitT sel.test T2).1 A :=
          sA.mono (h34.trans h45).tests ((h23.den a1).tests hq3.core) ((h23.den b1).tests hq3.core)
        have sB5 : AppSpec X q5.tests op (splitT sel.test T1).2 (splitT sel.test T2).2 B :=
          sB.mono h45.tests (((h23.trans h34).den a2).tests hq4.core) (((h23.trans h34).den b2).tests hq4.core)
        have hm5 : sel.test ∈ q5.tests := h25.tests.subset hm
        have hspec : AppSpec X q5.tests op T1 T2 T := by
          have hleaf : ∀ c, T.leafAt c = if c sel.test then A.leafAt c else B.leafAt c := by
            intro c
            rcases hcan with ⟨rfl, rfl⟩ | ⟨d', hd', -, rfl⟩
            · simp
            · rw [XTree.leafAt_node, hd']
          have htests : ∀ g ∈ T.tests, g = sel.test ∨ g ∈ A.tests ∨ g ∈ B.tests := by
            rcases hcan with ⟨rfl, rfl⟩ | ⟨d', hd', -, rfl⟩
            · exact fun g hg => Or.inr (Or.inl hg)
            · intro g hg
              simp only [XTree.tests, List.mem_cons, List.mem_append, hd'] at hg
              exact hg
          refine ⟨fun c => ?_, fun g hg => ?_, fun o1 o2 => ?_, fun hop g1 g2 => ?_⟩
          · rw [hleaf c, splitT_leafAt sel.test T1 c, splitT_leafAt sel.test T2 c, sA5.leaf, sB5.leaf]
            split <;> rfl
          · rcases htests g hg with rfl | hg | hg
            · rcases hwho with ⟨d', t, f, rfl, hd'⟩ | ⟨d', t, f, rfl, hd'⟩
              · left
                cases h1 with
                | leaf h => rw [hx] at h; simp at h
                | node h _ _ =>
                  rw [hx] at h
                  simp only [Option.some.injEq, XNode.inner.injEq] at h
                  simp [XTree.tests, ← h.1, hd']
              · right
                cases h2 with
                | leaf h => rw [hy] at h; simp at h
                | node h _ _ =>
                  rw [hy] at h
                  simp only [Option.some.injEq, XNode.inner.injEq] at h
                  simp [XTree.tests, ← h.1, hd']
            · exact (sA5.tests g hg).imp ((splitT_tests _ _).1 g) ((splitT_tests _ _).1 g)
            · exact (sB5.tests g hg).imp ((splitT_tests _ _).2 g) ((splitT_tests _ _).2 g)
          · have hbm : ∀ {T : XTree E} {n : ℕ}, Den q2 n T → Before q2.tests sel.test T → Before q5.tests sel.test T := by
              intro T n hn hb
              cases T with
              | leaf e => trivial
              | node d t f =>
                have := hn.tests hp.core d.test (by simp [XTree.tests])
                simp only [Before] at hb ⊢
                rw [XTree.idxOf_prefix h25.tests hm, XTree.idxOf_prefix h25.tests this]
                exact hb
            obtain ⟨p1, p2, p3, p4⟩ := splitT_ord hm5 o1 (hbm h1 hb1)
            obtain ⟨r1, r2, r3, r4⟩ := splitT_ord hm5 o2 (hbm h2 hb2)
            have oA := sA5.ord p1 r1
            have oB := sB5.ord p2 r2
            rcases hcan with ⟨rfl, rfl⟩ | ⟨d', hd', -, rfl⟩
            · exact oA
            · refine ⟨fun g hg => ?_, oA, oB⟩
              rw [hd']
              rcases hg with hg | hg
              · exact (sA5.tests g hg).elim (p3 g) (r3 g)
              · exact (sB5.tests g hg).elim (p4 g) (r4 g)
          · have bA := sA5.bin hop (fun e he => g1 e ((splitT_leaves _ _).1 e he)) (fun e he => g2 e ((splitT_leaves _ _).1 e he))
            have bB := sB5.bin hop (fun e he => g1 e ((splitT_leaves _ _).2 e he)) (fun e he => g2 e ((splitT_leaves _ _).2 e he))
            rcases hcan with ⟨rfl, rfl⟩ | ⟨d', hd', -, rfl⟩
            · exact bA
            · intro e he
              simp only [XTree.leaves, List.mem_append] at he
              exact he.elim (bA e) (bB e)
        refine cacheApply_run hq5 ⟨T1, T2, T, h25.den h1, h25.den h2, hT, hspec⟩ fun q6 _ e6 he => ?_
        exact ⟨T, he.den hT, e6 ▸ hspec⟩

/-- `Pool.apply` computes the operation. -/
theorem apply_run {X : XCtx E} (hs : SimpLaw X.simp) (op : XOp) {p : Pool E} (hp : Inv0 X p) {a b : ℕ} {T1 T2 : XTree E}
    (h1 : Den p a T1) (h2 : Den p b T2) :
    Run (Inv0 X) Fr0 (apply X op a b) p (op = .or ∨ op = .and → Bin X T1 ∧ Bin X T2)
      (fun r q => ∃ T, Den q r T ∧ AppSpec X q.tests op T1 T2 T) :=
  applyF_run hs op _ hp h1 h2 (by omega)

end
end Pywmi
