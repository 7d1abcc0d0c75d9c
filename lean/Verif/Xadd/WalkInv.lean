import Verif.Xadd.Profile

set_option linter.unusedSectionVars false
set_option linter.unusedSimpArgs false

/-!
# Bottom-up walks
-/

namespace Pywmi
open Prog

section
variable {E : Type} [DecidableEq E] {α : Type}

/-! ### Profiles in the pool -/

/-- The pool with a new state of a profile. -/
def Pool.setProf (p : Pool E) (root : ℕ) (pr : Profile) : Pool E := { p with profiles := setKey p.profiles root pr }

/-- A change of the pool outside of nodes, tests and the caches of `apply` and of reductions. -/
theorem Inv1.congr {X : XCtx E} {p q : Pool E} (h : Inv1 X p) (hs : q.slots = p.slots) (ht : q.tests = p.tests)
    (hi : q.internalMap = p.internalMap) (hx : q.expressions = p.expressions) (hz : q.zeroId = p.zeroId) (ho : q.oneId = p.oneId)
    (ha : q.applyCache = p.applyCache) (hr : q.reduceCache = p.reduceCache) : Inv1 X q := by
  have he : Ext p q := ⟨by rw [hs], by rw [ht], hz, ho⟩
  exact ⟨⟨h.core.congr hs ht hi hx hz ho, fun op a b r hr' => (h.app op a b r (ha ▸ hr')).mono he h.core⟩,
    fun n r hr' => (h.red n r (hr ▸ hr')).mono he h.core⟩

theorem Inv1.setProf {X : XCtx E} {p : Pool E} (h : Inv1 X p) (root : ℕ) (pr : Profile) : Inv1 X (p.setProf root pr) :=
  h.congr rfl rfl rfl rfl rfl rfl rfl rfl

theorem Ext.setProf (p : Pool E) (root : ℕ) (pr : Profile) : Ext p (p.setProf root pr) :=
  ⟨List.prefix_refl _, List.prefix_refl _, rfl, rfl⟩

/-- Only the state of the given profile changes. -/
structure FrP (root : ℕ) (p q : Pool E) : Prop extends Ext p q where
  resolveC : q.resolveCache = p.resolveCache
  walkC : q.walk = p.walk
  profC : ∀ r, r ≠ root → q.profiles.lookup r = p.profiles.lookup r

theorem FrP.refl (root : ℕ) (p : Pool E) : FrP root p p := ⟨Ext.refl p, rfl, rfl, fun _ _ => rfl⟩
theorem FrP.trans {root : ℕ} {p q r : Pool E} (h : FrP root p q) (h' : FrP root q r) : FrP root p r :=
  ⟨h.toExt.trans h'.toExt, h'.resolveC.trans h.resolveC, h'.walkC.trans h.walkC, fun x hx => (h'.profC x hx).trans (h.profC x hx)⟩
theorem Fr1.frP {root : ℕ} {p q : Pool E} (h : Fr1 p q) : FrP root p q := ⟨h.toExt, h.resolveC, h.walkC, fun _ _ => by rw [h.profC]⟩
theorem FrP.setProf (p : Pool E) (root : ℕ) (pr : Profile) : FrP root p (p.setProf root pr) :=
  ⟨Ext.setProf p root pr, rfl, rfl, fun r hr => by simp only [Pool.setProf]; rw [lookup_setKey, if_neg hr]⟩

theorem lookup_setProf {p : Pool E} {root : ℕ} {pr pr' : Profile} (h : p.profiles.lookup root = some pr') :
    (p.setProf root pr).profiles.lookup root = some pr := by
  simp only [Pool.setProf]; rw [lookup_setKey, if_pos rfl, h]; rfl

/-- Reachable nodes are the same in a larger pool. -/
theorem Ext.child {X : XCtx E} {p q : Pool E} (he : Ext p q) (_hp : Core X p) {m c : ℕ} (hm : (p.node m).isSome) :
    Child q m c ↔ Child p m c := by
  obtain ⟨x, hx⟩ := Option.isSome_iff_exists.mp hm
  have hq := he.node hx
  unfold Child
  rw [hx, hq]

theorem Ext.reach {X : XCtx E} {p q : Pool E} (he : Ext p q) (hp : Core X p) {r n : ℕ} (hr : (p.node r).isSome) :
    Reach q r n ↔ Reach p r n := by
  constructor
  · intro h
    induction h with
    | root => exact .root
    | step _ hc ih => exact .step ih ((he.child hp (hp.reach_some hr ih)).mp hc)
  · intro h
    induction h with
    | root => exact .root
    | step hm hc ih => exact .step ih ((he.child hp (hp.reach_some hr hm)).mpr hc)

/-- SPEC: the profile lists the nodes and the numbers of parents. -/
structure Static (p : Pool E) (root : ℕ) (pr : Profile) : Prop where
  found : (p.node root).isSome
  order : WalkOrder p root pr.nodes
  counts : CountsOf p pr root

/-- SPEC: the profile is at the start. -/
def Clean (pr : Profile) : Prop := pr.next = 0 ∧ ∀ q ∈ pr.counts, q.2.2 = 0

theorem WalkOrder.mono {X : XCtx E} {p q : Pool E} (he : Ext p q) (hp : Core X p) {root : ℕ} (hr : (p.node root).isSome) {ns : List ℕ}
    (h : WalkOrder p root ns) : WalkOrder q root ns := by
  refine ⟨h.nodup, fun n => (h.mem n).trans (he.reach hp hr).symm, fun l1 m l2 heq c hc => ?_⟩
  have : Reach p root m := (h.mem m).mp (by rw [heq]; simp)
  exact h.order l1 m l2 heq c ((he.child hp (hp.reach_some hr this)).mp hc)

theorem Static.mono {X : XCtx E} {p q : Pool E} (he : Ext p q) (hp : Core X p) {root : ℕ} {pr : Profile}
    (h : Static p root pr) : Static q root pr := by
  refine ⟨he.isSome h.found, h.order.mono he hp h.found, fun n hn => ?_⟩
  obtain ⟨par, i, h1, h2, h3⟩ := h.counts n ((he.reach hp h.found).mp hn)
  refine ⟨par, i, h1, fun m => (h2 m).trans ?_, h3⟩
  rw [he.reach hp h.found]
  exact and_congr_right fun hm => (he.child hp (hp.reach_some h.found hm)).symm

/-- The invariant during a walk. -/
structure IS (X : XCtx E) (root : ℕ) (p : Pool E) : Prop extends Inv1 X p where
  prof : ∃ pr, p.profiles.lookup root = some pr ∧ Static p root pr ∧ (pr.next = 0 → Clean pr)

/-- A step that gives the stated result. -/
theorem Run.bindEq {β : Type} {I : Pool E → Prop} {R : Pool E → Pool E → Prop} (ht : ∀ {p q r}, R p q → R q r → R p r) {m : XM E α}
    {f : α → XM E β} {p q : Pool E} {a : α} {safe : Prop} {Q : β → Pool E → Prop} (h : m p = (.ok a, q)) (hr : R p q)
    (h2 : Run I R (f a) q safe Q) : Run I R (m >>= f) p safe Q := by
  obtain ⟨i2, r2, p2, s2⟩ := h2
  unfold Run
  rw [XM.bind_apply, h]
  exact ⟨i2, ht hr r2, p2, s2⟩

theorem Run.seqP {β : Type} {root : ℕ} {I : Pool E → Prop} {m : XM E α} {f : α → XM E β} {p : Pool E} {s safe : Prop}
    {P : α → Pool E → Prop} {Q : β → Pool E → Prop} (h1 : Run I (FrP root) m p s P) (hs : safe → s)
    (h2 : ∀ a q, I q → FrP root p q → P a q → Run I (FrP root) (f a) q safe Q) : Run I (FrP root) (m >>= f) p safe Q :=
  Run.bind (R := FrP root) (fun h h' => h.trans h') (h1.imp hs fun _ _ _ _ h => h) h2

theorem Run.eqP {β : Type} {root : ℕ} {I : Pool E → Prop} {m : XM E α} {f : α → XM E β} {p q : Pool E} {a : α} {safe : Prop}
    {Q : β → Pool E → Prop} (h : m p = (.ok a, q)) (hr : FrP root p q)
    (h2 : Run I (FrP root) (f a) q safe Q) : Run I (FrP root) (m >>= f) p safe Q :=
  Run.bindEq (R := FrP root) (fun h h' => h.trans h') h hr h2

/-- Computations that do not touch profiles, within a walk. -/
theorem Run.inWalk {X : XCtx E} {root : ℕ} {m : XM E α} {p : Pool E} {s : Prop} {Q : α → Pool E → Prop} (hp : IS X root p)
    (h : Run (Inv1 X) Fr1 m p s Q) : Run (IS X root) (FrP root) m p s fun a q => Q a q ∧ Fr1 p q := by
  obtain ⟨h1, h2, h3, h4⟩ := h
  refine ⟨⟨h1, ?_⟩, h2.frP, fun a ha => ⟨h3 a ha, h2⟩, h4⟩
  obtain ⟨pr, e1, e2, e3⟩ := hp.prof
  exact ⟨pr, by rw [h2.profC]; exact e1, e2.mono h2.toExt hp.core, e3⟩

/-! ### The operations of a profile -/

theorem getProfile_some {p : Pool E} {root : ℕ} {pr : Profile} (h : p.profiles.lookup root = some pr) :
    getProfile root p = (.ok pr, p) := by
  unfold getProfile
  simp only [XM.bind_apply, XM.get]
  rw [h]
  rfl

theorem profileNext_some {p : Pool E} {root n : ℕ} {pr : Profile} (h : p.profiles.lookup root = some pr) (hn : pr.nodes[pr.next]? = some n) :
    profileNext root p = (.ok (some n), p.setProf root { pr with next := pr.next + 1 }) := by
  unfold profileNext
  simp only [XM.bind_apply, getProfile_some h]
  rw [hn]
  rfl

theorem profileNext_none {p : Pool E} {root : ℕ} {pr : Profile} (h : p.profiles.lookup root = some pr) (hn : pr.nodes[pr.next]? = none) :
    profileNext root p = (.ok none, p) := by
  unfold profileNext
  simp only [XM.bind_apply, getProfile_some h]
  rw [hn]
  rfl

theorem profileCount_eq {p : Pool E} {root c m i : ℕ} {pr : Profile} (h : p.profiles.lookup root = some pr)
    (hc : pr.counts.lookup c = some (m, i)) (hi : i < m) :
    profileCount root c p = (.ok (decide (i + 1 = m)), p.setProf root { pr with counts := setKey pr.counts c (m, i + 1) }) := by
  unfold profileCount
  simp only [XM.bind_apply, getProfile_some h]
  rw [hc]
  simp only
  by_cases he : i + 1 = m
  · simp only [he, decide_true, if_true]
    rfl
  · have : i + 1 < m := by omega
    simp only [he, decide_false, if_false, this, if_true]
    rfl

theorem profileReset_eq {p : Pool E} {root : ℕ} {pr : Profile} (h : p.profiles.lookup root = some pr) :
    profileReset root p = (.ok (), p.setProf root { pr with counts := pr.counts.map fun q => (q.1, (q.2.1, 0)), next := 0 }) := by
  unfold profileReset
  simp only [XM.bind_apply, getProfile_some h]
  rfl

theorem lookup_map_val {β γ : Type} (d : List (ℕ × β)) (g : β → γ) (k : ℕ) :
    (d.map fun q => (q.1, g q.2)).lookup k = (d.lookup k).map g := by
  induction d with
  | nil => rfl
  | cons q d ih =>
    rw [List.map_cons, List.lookup_cons, List.lookup_cons, ih]
    split <;> rfl

/-- A change of the numbers of visits does not matter for the static part. -/
theorem Static.recount {p : Pool E} {root : ℕ} {pr pr' : Profile} (h : Static p root pr) (hn : pr'.nodes = pr.nodes)
    (hc : ∀ n m i, pr.counts.lookup n = some (m, i) → ∃ j, pr'.counts.lookup n = some (m, j)) : Static p root pr' := by
  refine ⟨h.found, hn ▸ h.order, fun n hr => ?_⟩
  obtain ⟨par, i, h1, h2, h3⟩ := h.counts n hr
  obtain ⟨j, hj⟩ := hc n _ i h3
  exact ⟨par, j, h1, h2, hj⟩

theorem recount_setKey {cs : List (ℕ × (ℕ × ℕ))} {c m i j : ℕ} (hc : cs.lookup c = some (m, i)) (n m' i' : ℕ)
    (h : cs.lookup n = some (m', i')) : ∃ j', (setKey cs c (m, j)).lookup n = some (m', j') := by
  rw [lookup_setKey]
  split
  · rename_i hn
    subst hn
    rw [hc] at h
    cases h
    exact ⟨j, by rw [hc]; rfl⟩
  · exact ⟨i', h⟩

theorem Static.setProf {X : XCtx E} {p : Pool E} (hp : Core X p) {root : ℕ} {pr : Profile} (h : Static p root pr) (pr' : Profile) :
    Static (p.setProf root pr') root pr := h.mono (Ext.setProf p root pr') hp

theorem IS.setProf {X : XCtx E} {root : ℕ} {p : Pool E} (h : IS X root p) {pr pr' : Profile} (hl : p.profiles.lookup root = some pr)
    (hs : Static p root pr') (hn : 0 < pr'.next) : IS X root (p.setProf root pr') :=
  ⟨h.toInv1.setProf root pr', pr', lookup_setProf hl, hs.setProf h.core pr', fun h0 => absurd h0 (by omega)⟩

/-! ### What visitors do -/

/-- Assumption on the visitors of a walk over the diagram with the given root: `M` relates nodes and their messages, and the
visitors do not raise if `S`. -/
structure Visitors (X : XCtx E) (p : Pool E) (root : ℕ) (vt : ℕ → E → XM E α) (vi : ℕ → Decision → Option α → Option α → XM E α)
    (M : Pool E → ℕ → α → Prop) (S : Prop) : Prop where
  mono : ∀ q q' n a, Inv1 X q → Inv1 X q' → Ext q q' → M q n a → M q' n a
  leaf : ∀ q n e, Inv1 X q → Ext p q → Reach p root n → q.node n = some (.leaf e) →
    Run (Inv1 X) Fr1 (vt n e) q S fun a q' => M q' n a
  inner : ∀ q n d t f a b, Inv1 X q → Ext p q → Reach p root n → q.node n = some (.inner d t f) → M q t a → M q f b →
    Run (Inv1 X) Fr1 (vi n d (some a) (some b)) q S fun r q' => M q' n r
  lost : ∀ q n d t f a b, Inv1 X q → Ext p q → Reach p root n → q.node n = some (.inner d t f) → (∀ x, a = some x → M q t x) →
    (∀ x, b = some x → M q f x) → a = none ∨ b = none → Run (Inv1 X) Fr1 (vi n d a b) q False fun _ _ => False

/-! ### A walk from the start -/

/-- State of the walk when the nodes `l1` were visited. -/
structure At (p q : Pool E) (root : ℕ) (ns : List ℕ) (par : ℕ → List ℕ) (cnt : ℕ → ℕ) (i : ℕ) : Prop where
  prof : ∃ cs, q.profiles.lookup root = some ⟨ns, cs, i⟩ ∧ ∀ n, Reach p root n → cs.lookup n = some ((par n).length, cnt n)

/-- The number of visited parents. -/
def visited (par : ℕ → List ℕ) (l1 : List ℕ) (n : ℕ) : ℕ := ((par n).filter fun m => decide (m ∈ l1)).length

theorem visited_snoc {par : ℕ → List ℕ} {l1 : List ℕ} {n c : ℕ} (hn : n ∉ l1) (hd : (par c).Nodup) :
    visited par (l1 ++ [n]) c = visited par l1 c + if n ∈ par c then 1 else 0 := by
  unfold visited
  generalize hl : par c = l at hd
  clear hl
  induction l with
  | nil => simp
  | cons m l ih =>
    rw [List.nodup_cons] at hd
    have ih := ih hd.2
    simp only [List.filter_cons]
    by_cases hm : m = n
    · subst hm
      have h1 : decide (m ∈ l1 ++ [m]) = true := by simp
      have h2 : decide (m ∈ l1) = false := by simpa using hn
      rw [if_neg hd.1] at ih
      rw [h1, h2]
      simp only [if_true, List.length_cons, List.mem_cons, true_or]
      simp at ih ⊢
      omega
    · have h1 : decide (m ∈ l1 ++ [n]) = decide (m ∈ l1) := by simp [hm]
      have hm' : ¬n = m := fun e => hm e.symm
      have h2 : (n ∈ m :: l) ↔ n ∈ l := by simp [hm']
      rw [h1]
      simp only [h2]
      split
      · simp only [List.length_cons, ih]; omega
      · exact ih

theorem visited_lt {par : ℕ → List ℕ} {l1 : List ℕ} {n c : ℕ} (hn : n ∉ l1) (hc : n ∈ par c) : visited par l1 c < (par c).length := by
  unfold visited
  apply List.length_filter_lt_length_iff_exists.mpr
  exact ⟨n, hc, by simpa using hn⟩

theorem visited_all {par : ℕ → List ℕ} {l1 : List ℕ} {c : ℕ} : visited par l1 c = (par c).length ↔ ∀ m ∈ par c, m ∈ l1 := by
  unfold visited
  rw [List.length_filter_eq_length_iff]
  simp

theorem count_step {X : XCtx E} {p q : Pool E} {root : ℕ} (hq : IS X root q) {ns : List ℕ} {par : ℕ → List ℕ} {cnt : ℕ → ℕ} {i : ℕ}
    (h : At p q root ns par cnt i) (hi : 0 < i) {c : ℕ} (hc : Reach p root c) (hlt : cnt c < (par c).length) :
    ∃ q', profileCount root c q = (.ok (decide (cnt c + 1 = (par c).length)), q') ∧ IS X root q' ∧ FrP root q q' ∧
      At p q' root ns par (fun n => if n = c then cnt c + 1 else cnt n) i := by
  obtain ⟨cs, h1, h2⟩ := h.prof
  have hcs := h2 c hc
  obtain ⟨pr, e1, e2, -⟩ := hq.prof
  rw [h1] at e1
  cases e1
  refine ⟨_, profileCount_eq h1 hcs hlt, hq.setProf h1 (e2.recount rfl (recount_setKey hcs)) hi, FrP.setProf _ _ _,
    ⟨_, lookup_setProf h1, fun n hn => ?_⟩⟩
  rw [lookup_setKey]
  by_cases hnc : n = c
  · subst hnc
    rw [if_pos rfl, hcs]
    simp
  · rw [if_neg hnc, h2 n hn]
    simp [hnc]

/-- The messages that wait. -/
structure Msgs (M : Pool E → ℕ → α → Prop) (q : Pool E) (want : ℕ → Prop) (ms : List (ℕ × α)) : Prop where
  nodup : (ms.map (·.1)).Nodup
  key : ∀ n, (ms.lookup n).isSome ↔ want n
  ok : ∀ n a, ms.lookup n = some a → M q n a

theorem lookup_filter_other {β : Type} (d : List (ℕ × β)) (c n : ℕ) :
    (d.filter fun q => q.1 ≠ c).lookup n = if n = c then none else d.lookup n := by
  induction d with
  | nil => simp
  | cons q d ih =>
    obtain ⟨k, v⟩ := q
    rw [List.filter_cons]
    by_cases hk : k = c
    · subst hk
      simp only [ne_eq, not_true, decide_false, Bool.false_eq_true, if_false]
      rw [ih, List.lookup_cons]
      by_cases hn : n = k
      · simp [hn]
      · have : (n == k) = false := by simpa using hn
        simp [hn, this]
    · have hd : decide (k ≠ c) = true := by simpa using hk
      rw [if_pos hd, List.lookup_cons, List.lookup_cons, ih]
      by_cases hn : n = k
      · subst hn; simp [hk]
      · have : (n == k) = false := by simpa using hn
        simp [this]

theorem nodup_filter_keys {β : Type} {d : List (ℕ × β)} (h : (d.map (·.1)).Nodup) (f : ℕ × β → Bool) : ((d.filter f).map (·.1)).Nodup :=
  h.sublist (List.filter_sublist.map _)

theorem Msgs.drop {M : Pool E → ℕ → α → Prop} {q : Pool E} {want : ℕ → Prop} {ms : List (ℕ × α)} (h : Msgs M q want ms) (c : ℕ) :
    Msgs M q (fun n => want n ∧ n ≠ c) (ms.filter fun q => q.1 ≠ c) := by
  refine ⟨nodup_filter_keys h.nodup _, fun n => ?_, fun n a ha => ?_⟩
  · rw [lookup_filter_other]
    by_cases hn : n = c
    · simp [hn]
    · simp [hn, h.key]
  · rw [lookup_filter_other] at ha
    split at ha
    · cases ha
    · exact h.ok n a ha

theorem Msgs.put {M : Pool E → ℕ → α → Prop} {q : Pool E} {want : ℕ → Prop} {ms : List (ℕ × α)} (h : Msgs M q want ms) {c : ℕ} {a : α}
    (ha : M q c a) : Msgs M q (fun n => want n ∨ n = c) ((c, a) :: ms.filter fun q => q.1 ≠ c) := by
  have hd := h.drop c
  refine ⟨?_, fun n => ?_, fun n b hb => ?_⟩
  · rw [List.map_cons, List.nodup_cons]
    refine ⟨fun hm => ?_, hd.nodup⟩
    obtain ⟨q', hq', e⟩ := List.mem_map.mp hm
    have := (List.mem_filter.mp hq').2
    simp only at e
    simp [e] at this
  · rw [List.lookup_cons]
    by_cases hn : n = c
    · subst hn; simp
    · have : (n == c) = false := by simpa using hn
      rw [this]
      simp only [hd.key, hn, or_false, ne_eq, not_false_eq_true, and_true]
  · rw [List.lookup_cons] at hb
    by_cases hn : n = c
    · subst hn; simp at hb; subst hb; exact ha
    · have : (n == c) = false := by simpa using hn
      rw [this] at hb
      exact hd.ok n b hb

theorem Msgs.congr {M : Pool E → ℕ → α → Prop} {q : Pool E} {want want' : ℕ → Prop} {ms : List (ℕ × α)} (h : Msgs M q want ms)
    (hw : ∀ n, want n ↔ want' n) : Msgs M q want' ms := ⟨h.nodup, fun n => (h.key n).trans (hw n), h.ok⟩

theorem Msgs.pool {M : Pool E → ℕ → α → Prop} {q q' : Pool E} {want : ℕ → Prop} {ms : List (ℕ × α)} (h : Msgs M q want ms)
    (hM : ∀ n a, M q n a → M q' n a) : Msgs M q' want ms := ⟨h.nodup, h.key, fun n a ha => hM n a (h.ok n a ha)⟩

theorem retrieve_step {X : XCtx E} {p q : Pool E} {root : ℕ} {M : Pool E → ℕ → α → Prop}
    (hM : ∀ q q' n a, Inv1 X q → Inv1 X q' → Ext q q' → M q n a → M q' n a) (hq : IS X root q) {ns : List ℕ} {par : ℕ → List ℕ}
    {cnt : ℕ → ℕ} {i : ℕ} (h : At p q root ns par cnt i) (hi : 0 < i) {c : ℕ} (hc : Reach p root c) (hlt : cnt c < (par c).length)
    {want : ℕ → Prop} {ms : List (ℕ × α)} (hms : Msgs M q want ms) (hw : want c) :
    ∃ q' a ms', retrieve root c ms q = (.ok (some a, ms'), q') ∧ IS X root q' ∧ FrP root q q' ∧
      At p q' root ns par (fun n => if n = c then cnt c + 1 else cnt n) i ∧
      M q' c a ∧ Msgs M q' (fun n => want n ∧ (n = c → cnt c + 1 ≠ (par c).length)) ms' := by
  obtain ⟨q', h1, h2, h3, h4⟩ := count_step hq h hi hc hlt
  obtain ⟨a, ha⟩ := Option.isSome_iff_exists.mp ((hms.key c).mpr hw)
  have hpool : ∀ n a, M q n a → M q' n a := fun n a => hM q q' n a hq.toInv1 h2.toInv1 h3.toExt
  by_cases hlast : cnt c + 1 = (par c).length
  · refine ⟨q', a, ms.filter fun q => q.1 ≠ c, ?_, h2, h3, h4, hpool _ _ (hms.ok c a ha), ?_⟩
    · unfold retrieve
      simp only [XM.bind_apply, h1, hlast, decide_true, if_true, ha]
      rfl
    · exact ((hms.drop c).congr fun n => by
        simp only [hlast, ne_eq, not_true, imp_false]).pool hpool
  · refine ⟨q', a, ms, ?_, h2, h3, h4, hpool _ _ (hms.ok c a ha), ?_⟩
    · unfold retrieve
      simp only [XM.bind_apply, h1, hlast, decide_false, Bool.false_eq_true, if_false, ha]
      rfl
    · exact (hms.congr fun n => by simp [hlast]).pool hpool

/-- What is fixed during a walk. -/
structure WalkData (p : Pool E) (root : ℕ) (ns : List ℕ) (par : ℕ → List ℕ) : Prop where
  found : (p.node root).isSome
  order : WalkOrder p root ns
  nodup : ∀ n, Reach p root n → (par n).Nodup
  par : ∀ n, Reach p root n → ∀ m, m ∈ par n ↔ Reach p root m ∧ Child p m n

theorem bottomUpLoop_run {X : XCtx E} {p : Pool E} (hp : Core X p) {root : ℕ} {ns : List ℕ} {par : ℕ → List ℕ}
    (hd : WalkData p root ns par) {vt : ℕ → E → XM E α} {vi : ℕ → Decision → Option α → Option α → XM E α} {M : Pool E → ℕ → α → Prop}
    {S : Prop} (hv : Visitors X p root vt vi M S) : ∀ (k : ℕ) (l1 l2 : List ℕ), ns = l1 ++ l2 → l2.length < k → ∀ (q : Pool E),
    IS X root q → Ext p q → At p q root ns par (visited par l1) l1.length → ∀ (ms : List (ℕ × α)),
    Msgs M q (fun n => n ∈ l1 ∧ (n = root ∨ ∃ m ∈ par n, m ∉ l1)) ms →
    Run (IS X root) (FrP root) (bottomUpLoop vt vi root k ms) q S (fun r q' => ∃ a, r = [(root, a)] ∧ M q' root a) := by
  intro k
  induction k with
  | zero => intro l1 l2 _ h; omega
  | succ k ih =>
    intro l1 l2 hns hk q hq hpq hat ms hms
    unfold bottomUpLoop
    obtain ⟨cs, hl, hcs⟩ := hat.prof
    cases l2 with
    | nil =>
      simp only [List.append_nil] at hns
      subst hns
      refine Run.eqP (profileNext_none hl (by simp)) (FrP.refl _ _) ?_
      refine Run.ret (FrP.refl root) hq ?_
      have hroot : root ∈ ns := (hd.order.mem root).mpr .root
      obtain ⟨a, ha⟩ := Option.isSome_iff_exists.mp ((hms.key root).mpr ⟨hroot, Or.inl rfl⟩)
      refine ⟨a, ?_, hms.ok root a ha⟩
      have honly : ∀ x ∈ ms, x.1 = root := by
        rintro ⟨n, b⟩ hx
        have := (hms.key n).mp (by rw [lookup_of_mem_nat hms.nodup hx]; rfl)
        rcases this.2 with h | ⟨m, hm, hm'⟩
        · exact h
        · have hr := (hd.par n ((hd.order.mem n).mp this.1) m).mp hm
          exact absurd ((hd.order.mem m).mpr hr.1) hm'
      have hmem := mem_of_lookup_nat ha
      cases ms with
      | nil => cases hmem
      | cons x ms =>
        have hnil : ms = [] := by
          cases ms with
          | nil => rfl
          | cons y ms =>
            exfalso
            have h1 := honly x (by simp)
            have h2 := honly y (by simp)
            have := hms.nodup
            simp [h1, h2] at this
        subst hnil
        simp only [List.mem_singleton] at hmem
        rw [hmem]
    | cons n l2 =>
      have hget : ns[l1.length]? = some n := by rw [hns]; simp
      have hrn : Reach p root n := (hd.order.mem n).mp (by rw [hns]; simp)
      have hnd := hd.order.nodup
      rw [hns] at hnd
      have hnl : n ∉ l1 := fun hm => (List.nodup_append.mp hnd).2.2 n hm n (by simp) rfl
      obtain ⟨pr, e1, e2, -⟩ := hq.prof
      have heq : pr = ⟨ns, cs, l1.length⟩ := by rw [hl] at e1; cases e1; rfl
      refine Run.eqP (profileNext_some hl (by simpa using hget)) (FrP.setProf _ _ _) ?_
      try simp only
      obtain ⟨q1, hq1e⟩ : ∃ q1, q1 = q.setProf root ⟨ns, cs, l1.length + 1⟩ := ⟨_, rfl⟩
      have hq1 : IS X root q1 := hq1e ▸ hq.setProf hl (e2.recount (by rw [heq]) fun n m i h => ⟨i, by rw [heq] at h; exact h⟩) (by simp)
      have hqq1 : Ext q q1 := hq1e ▸ Ext.setProf _ _ _
      have hat1 : At p q1 root ns par (visited par l1) (l1 ++ [n]).length :=
        ⟨cs, by rw [hq1e, lookup_setProf hl]; simp, hcs⟩
      have hms1 := hms.pool fun n a => hv.mono q q1 n a hq.toInv1 hq1.toInv1 hqq1
      rw [← hq1e]
      obtain ⟨x, hx⟩ := Option.isSome_iff_exists.mp (hp.reach_some hd.found hrn)
      have hx1 : q1.node n = some x := (hpq.trans hqq1).node hx
      have hg : getNode n q1 = (.ok x, q1) := by
        unfold getNode
        rw [hx1]
      refine Run.eqP hg (FrP.refl _ _) ?_
      -- parents of the node are visited later
      have hpar : ∀ m ∈ par n, m ∉ l1 ++ [n] := by
        intro m hm hm'
        obtain ⟨hrm, hmc⟩ := (hd.par n hrn m).mp hm
        rcases List.mem_append.mp hm' with h | h
        · obtain ⟨a, b, hab⟩ := List.append_of_mem h
          have := hd.order.order a m (b ++ n :: l2) (by rw [hns, hab]; simp) n hmc
          exact hnl (by rw [hab]; simp [this])
        · simp only [List.mem_singleton] at h
          subst h
          exact absurd (hp.child_lt hmc) (lt_irrefl _)
      have hself : n = root ∨ ∃ m ∈ par n, m ∉ l1 ++ [n] := by
        by_cases hr : n = root
        · exact Or.inl hr
        · obtain ⟨m, hm, hmc⟩ := hrn.parent hr
          have hm' := (hd.par n hrn m).mpr ⟨hm, hmc⟩
          exact Or.inr ⟨m, hm', hpar m hm'⟩
      cases x with
      | leaf e =>
        have hleafpar : ∀ c, Reach p root c → n ∉ par c := by
          intro c hc hm
          obtain ⟨_, _, _, h, -⟩ := ((hd.par c hc n).mp hm).2
          rw [hx] at h; simp at h
        simp only
        refine Run.seqP ((hv.leaf q1 n e hq1.toInv1 (hpq.trans hqq1) hrn hx1).inWalk hq1) id ?_
        rintro a q2 hq2 - ⟨ha, hfr⟩
        refine ih (l1 ++ [n]) l2 (by rw [hns]; simp) (by simp only [List.length_cons] at hk; omega) q2 hq2
          ((hpq.trans hqq1).trans hfr.toExt) ⟨cs, ?_, fun c hc => ?_⟩ _ ?_
        · obtain ⟨cs', h1, -⟩ := hat1.prof
          rw [hfr.profC, hq1e, lookup_setProf hl]; simp
        · rw [hcs c hc, visited_snoc hnl (hd.nodup c hc), if_neg (hleafpar c hc)]; rfl
        · refine ((hms1.pool fun n a => hv.mono q1 q2 n a hq1.toInv1 hq2.toInv1 hfr.toExt).put ha).congr fun c => ?_
          by_cases hcn : c = n
          · subst hcn
            simp only [or_true, true_iff]
            exact ⟨by simp, hself⟩
          · simp only [hcn, or_false, List.mem_append, List.mem_singleton]
            refine and_congr_right fun hc => or_congr_right ?_
            have hrc : Reach p root c := (hd.order.mem c).mp (by rw [hns]; simp [hc])
            refine exists_congr fun m => and_congr_right fun hm => not_congr ?_
            constructor
            · exact Or.inl
            · rintro (h | rfl)
              · exact h
              · exact absurd hm (hleafpar c hrc)
      | inner d t f =>
        have ht : Child p n t := ⟨d, t, f, hx, Or.inl rfl⟩
        have hf : Child p n f := ⟨d, t, f, hx, Or.inr rfl⟩
        have hch : ∀ c, Child p n c → c = t ∨ c = f := by
          rintro c ⟨d', t', f', h, hc⟩
          rw [hx] at h
          simp only [Option.some.injEq, XNode.inner.injEq] at h
          obtain ⟨-, rfl, rfl⟩ := h
          exact hc
        have htf : t ≠ f := (hp.inner hx).2.2.1
        have hrt : Reach p root t := .step hrn ht
        have hrf : Reach p root f := .step hrn hf
        have hnt : n ∈ par t := (hd.par t hrt n).mpr ⟨hrn, ht⟩
        have hnf : n ∈ par f := (hd.par f hrf n).mpr ⟨hrn, hf⟩
        have htl : t ∈ l1 := hd.order.order l1 n l2 hns t ht
        have hfl : f ∈ l1 := hd.order.order l1 n l2 hns f hf
        simp only
        obtain ⟨q2, a, ms2, r1, r2, r3, r4, r5, r6⟩ := retrieve_step hv.mono hq1 hat1 (by simp) hrt (visited_lt hnl hnt) hms1
          ⟨htl, Or.inr ⟨n, hnt, hnl⟩⟩
        refine Run.eqP r1 r3 ?_
        simp only
        obtain ⟨q3, b, ms3, s1, s2, s3, s4, s5, s6⟩ := retrieve_step hv.mono r2 r4 (by simp) hrf
          (by simp only [htf.symm, if_false]; exact visited_lt hnl hnf) r6 ⟨⟨hfl, Or.inr ⟨n, hnf, hnl⟩⟩, fun h => absurd h htf.symm⟩
        refine Run.eqP s1 s3 ?_
        simp only
        have hpq3 : Ext p q3 := ((hpq.trans hqq1).trans r3.toExt).trans s3.toExt
        refine Run.seqP ((hv.inner q3 n d t f a b s2.toInv1 hpq3 hrn (hpq3.node hx)
          (hv.mono q2 q3 t a r2.toInv1 s2.toInv1 s3.toExt r5) s5).inWalk s2) id ?_
        rintro c q4 hq4 - ⟨hc, hfr⟩
        have hvis : ∀ x, Reach p root x → visited par (l1 ++ [n]) x =
            (if x = f then (if f = t then visited par l1 t + 1 else visited par l1 f) + 1 else
              if x = t then visited par l1 t + 1 else visited par l1 x) := by
          intro x hx
          rw [visited_snoc hnl (hd.nodup x hx)]
          by_cases hxf : x = f
          · subst hxf
            simp [hnf, htf.symm]
          · by_cases hxt : x = t
            · subst hxt; simp [hnt, hxf]
            · have : n ∉ par x := by
                intro hm
                rcases hch x ((hd.par x hx n).mp hm).2 with h | h <;> contradiction
              simp [this, hxf, hxt]
        refine ih (l1 ++ [n]) l2 (by rw [hns]; simp) (by simp only [List.length_cons] at hk; omega) q4 hq4
          (hpq3.trans hfr.toExt) ?_ _ ?_
        · obtain ⟨cs', h1, h2⟩ := s4.prof
          refine ⟨cs', by rw [hfr.profC]; exact h1, fun x hx => ?_⟩
          rw [h2 x hx, hvis x hx]
        · refine ((s6.pool fun n a => hv.mono q3 q4 n a s2.toInv1 hq4.toInv1 hfr.toExt).put hc).congr fun x => ?_
          by_cases hxn : x = n
          · subst hxn
            simp only [or_true, true_iff]
            exact ⟨by simp, hself⟩
          · simp only [hxn, or_false, List.mem_append, List.mem_singleton]
            by_cases hxl : x ∈ l1
            · have hrx : Reach p root x := (hd.order.mem x).mp (by rw [hns]; simp [hxl])
              have hxroot : ∀ y, Child p n y → y ≠ root := by
                rintro y hy rfl
                have := hp.child_lt hy
                have := hp.reach_le hrn
                omega
              have hrem : ∀ y, Reach p root y → ((∃ m ∈ par y, ¬(m ∈ l1 ∨ m = n)) ↔ visited par (l1 ++ [n]) y ≠ (par y).length) := by
                intro y hy
                rw [ne_eq, visited_all]
                push Not
                simp
              simp only [hxl, true_and]
              rw [hrem x hrx, hvis x hrx]
              by_cases hxt : x = t
              · subst hxt
                simp only [htf, if_false, if_true, hxroot x ht, false_or, false_imp_iff, and_true, true_imp_iff]
                exact ⟨fun h => h.2, fun h => ⟨⟨n, hnt, hnl⟩, h⟩⟩
              · by_cases hxf : x = f
                · subst hxf
                  simp only [htf.symm, if_false, if_true, hxroot x hf, false_or, false_imp_iff, and_true, true_imp_iff]
                  exact ⟨fun h => h.2, fun h => ⟨⟨n, hnf, hnl⟩, h⟩⟩
                · simp only [hxt, hxf, if_false, false_imp_iff, and_true]
                  refine or_congr_right ?_
                  rw [ne_eq, visited_all]
                  push Not
                  rfl
            · simp [hxl]

/-! ### A walk that continues one that raised -/

theorem retrieve_dirty {X : XCtx E} {q : Pool E} {root : ℕ} (hq : IS X root q) {ns : List ℕ} {i : ℕ}
    (h : ∃ cs, q.profiles.lookup root = some ⟨ns, cs, i⟩) (hi : 0 < i) (c : ℕ) (ms : List (ℕ × α)) :
    Run (IS X root) (FrP root) (retrieve root c ms) q False (fun r q' => (∃ cs, q'.profiles.lookup root = some ⟨ns, cs, i⟩) ∧
      (∀ a, r.1 = some a → (c, a) ∈ ms) ∧ ∀ x ∈ r.2, x ∈ ms) := by
  obtain ⟨cs, hl⟩ := h
  obtain ⟨pr, e1, e2, -⟩ := hq.prof
  have heq : pr = ⟨ns, cs, i⟩ := by rw [hl] at e1; cases e1; rfl
  have hcount : Run (IS X root) (FrP root) (profileCount root c) q False (fun _ q' => ∃ cs, q'.profiles.lookup root = some ⟨ns, cs, i⟩) := by
    unfold profileCount
    refine Run.eqP (getProfile_some hl) (FrP.refl _ _) ?_
    cases hc : cs.lookup c with
    | none => exact Run.fail (FrP.refl root) hq id
    | some v =>
      obtain ⟨m, j⟩ := v
      simp only
      have hput : putProfile root ⟨ns, setKey cs c (m, j + 1), i⟩ q = (.ok (), q.setProf root ⟨ns, setKey cs c (m, j + 1), i⟩) := rfl
      refine Run.eqP hput (FrP.setProf _ _ _) ?_
      have hI : IS X root (q.setProf root ⟨ns, setKey cs c (m, j + 1), i⟩) :=
        hq.setProf hl (e2.recount (by rw [heq]) (by rw [heq]; exact recount_setKey hc)) hi
      split
      · exact Run.ret (FrP.refl root) hI ⟨_, lookup_setProf hl⟩
      · split
        · exact Run.ret (FrP.refl root) hI ⟨_, lookup_setProf hl⟩
        · exact Run.fail (FrP.refl root) hI id
  unfold retrieve
  refine Run.seqP hcount id ?_
  intro b q1 hq1 _ hl1
  cases b with
  | true =>
    refine Run.ret (FrP.refl root) hq1 ⟨hl1, fun a ha => mem_of_lookup_nat ha, fun x hx => List.mem_of_mem_filter hx⟩
  | false =>
    simp only [Bool.false_eq_true, if_false]
    cases hm : ms.lookup c with
    | none => exact Run.fail (FrP.refl root) hq1 id
    | some a =>
      refine Run.ret (FrP.refl root) hq1 ⟨hl1, fun b hb => ?_, fun x hx => hx⟩
      simp only [Option.some.injEq] at hb
      subst hb
      exact mem_of_lookup_nat hm

theorem bottomUpLoop_dirty {X : XCtx E} {p : Pool E} (hp : Core X p) {root : ℕ} {ns : List ℕ} (hs : (p.node root).isSome)
    (hd : WalkOrder p root ns) {vt : ℕ → E → XM E α} {vi : ℕ → Decision → Option α → Option α → XM E α} {M : Pool E → ℕ → α → Prop}
    {S : Prop} (hv : Visitors X p root vt vi M S) (j : ℕ) : ∀ (k i : ℕ), j ≤ i → ∀ (q : Pool E),
    IS X root q → Ext p q → (∃ cs, q.profiles.lookup root = some ⟨ns, cs, i⟩) → ∀ (ms : List (ℕ × α)),
    (∀ x ∈ ms, M q x.1 x.2 ∧ ∀ n, Reach p x.1 n → n ∈ ns.drop j) →
    Run (IS X root) (FrP root) (bottomUpLoop vt vi root k ms) q False
      (fun r q' => (∀ x ∈ r, ∀ n, Reach p x.1 n → n ∈ ns.drop j) ∧ ∃ cs i, q'.profiles.lookup root = some ⟨ns, cs, i⟩) := by
  intro k
  induction k with
  | zero => intro i _ q hq _ _ ms _; exact Run.fail (FrP.refl root) hq id
  | succ k ih =>
    intro i hji q hq hpq hl ms hms
    unfold bottomUpLoop
    obtain ⟨cs, hl⟩ := hl
    cases hget : ns[i]? with
    | none =>
      refine Run.eqP (profileNext_none hl hget) (FrP.refl _ _) ?_
      exact Run.ret (FrP.refl root) hq ⟨fun x hx => (hms x hx).2, cs, i, hl⟩
    | some n =>
      have hnd : n ∈ ns.drop j := by
        rw [List.mem_iff_getElem?]
        exact ⟨i - j, by rw [List.getElem?_drop]; rw [show j + (i - j) = i by omega]; exact hget⟩
      have hrn : Reach p root n := (hd.mem n).mp (List.mem_of_getElem? hget)
      obtain ⟨pr, e1, e2, -⟩ := hq.prof
      have heq : pr = ⟨ns, cs, i⟩ := by rw [hl] at e1; cases e1; rfl
      refine Run.eqP (profileNext_some hl hget) (FrP.setProf _ _ _) ?_
      try simp only
      obtain ⟨q1, hq1e⟩ : ∃ q1, q1 = q.setProf root ⟨ns, cs, i + 1⟩ := ⟨_, rfl⟩
      have hq1 : IS X root q1 := hq1e ▸ hq.setProf hl (e2.recount (by rw [heq]) fun n m i h => ⟨i, by rw [heq] at h; exact h⟩) (by simp)
      have hqq1 : Ext q q1 := hq1e ▸ Ext.setProf _ _ _
      have hl1 : ∃ cs, q1.profiles.lookup root = some ⟨ns, cs, i + 1⟩ := ⟨cs, by rw [hq1e, lookup_setProf hl]⟩
      rw [← hq1e]
      have hms1 : ∀ x ∈ ms, M q1 x.1 x.2 ∧ ∀ n, Reach p x.1 n → n ∈ ns.drop j := fun x hx =>
        ⟨hv.mono q q1 _ _ hq.toInv1 hq1.toInv1 hqq1 (hms x hx).1, (hms x hx).2⟩
      obtain ⟨x, hx⟩ := Option.isSome_iff_exists.mp (hp.reach_some hs hrn)
      have hx1 : q1.node n = some x := (hpq.trans hqq1).node hx
      have hg : getNode n q1 = (.ok x, q1) := by
        unfold getNode
        rw [hx1]
      refine Run.eqP hg (FrP.refl _ _) ?_
      cases x with
      | leaf e =>
        simp only
        refine Run.seqP ((hv.leaf q1 n e hq1.toInv1 (hpq.trans hqq1) hrn hx1).inWalk hq1) False.elim ?_
        rintro a q2 hq2 - ⟨ha, hfr⟩
        refine ih (i + 1) (by omega) q2 hq2 ((hpq.trans hqq1).trans hfr.toExt) (by rw [hfr.profC]; exact hl1) _ ?_
        intro y hy
        rcases List.mem_cons.mp hy with rfl | hy
        · refine ⟨ha, fun m hm => ?_⟩
          cases hm with
          | root => exact hnd
          | step h1 h2 =>
            exfalso
            have : ∀ m, Reach p n m → m = n := by
              intro m hm
              induction hm with
              | root => rfl
              | step _ hc ih =>
                obtain ⟨_, _, _, h, -⟩ := hc
                rw [ih, hx] at h; simp at h
            rw [this _ h1] at h2
            obtain ⟨_, _, _, h, -⟩ := h2
            rw [hx] at h; simp at h
        · have := hms1 y (List.mem_of_mem_filter hy)
          exact ⟨hv.mono q1 q2 _ _ hq1.toInv1 hq2.toInv1 hfr.toExt this.1, this.2⟩
      | inner d t f =>
        simp only
        refine Run.seqP (retrieve_dirty hq1 hl1 (by omega) t ms) id ?_
        rintro r1 q2 hq2 h12 ⟨hl2, hr1, hr1'⟩
        refine Run.seqP (retrieve_dirty hq2 hl2 (by omega) f r1.2) id ?_
        rintro r2 q3 hq3 h23 ⟨hl3, hr2, hr2'⟩
        have hpq3 : Ext p q3 := ((hpq.trans hqq1).trans h12.toExt).trans h23.toExt
        have hms3 : ∀ x ∈ ms, M q3 x.1 x.2 ∧ ∀ n, Reach p x.1 n → n ∈ ns.drop j := fun x hx =>
          ⟨hv.mono q1 q3 _ _ hq1.toInv1 hq3.toInv1 (h12.toExt.trans h23.toExt) (hms1 x hx).1, (hms1 x hx).2⟩
        have hx3 : q3.node n = some (.inner d t f) := hpq3.node hx
        have m1 : ∀ a, r1.1 = some a → M q3 t a := fun a ha => (hms3 _ (hr1 a ha)).1
        have m2 : ∀ a, r2.1 = some a → M q3 f a := fun a ha => (hms3 _ (hr1' _ (hr2 a ha))).1
        by_cases hnone : r1.1 = none ∨ r2.1 = none
        · refine Run.seqP ((hv.lost q3 n d t f r1.1 r2.1 hq3.toInv1 hpq3 hrn hx3 m1 m2 hnone).inWalk hq3) id ?_
          rintro a q4 _ _ ⟨h, -⟩
          exact h.elim
        · push Not at hnone
          obtain ⟨a, ha⟩ := Option.ne_none_iff_exists'.mp hnone.1
          obtain ⟨b, hb⟩ := Option.ne_none_iff_exists'.mp hnone.2
          rw [ha, hb]
          refine Run.seqP ((hv.inner q3 n d t f a b hq3.toInv1 hpq3 hrn hx3 (m1 a ha) (m2 b hb)).inWalk hq3) False.elim ?_
          rintro c q4 hq4 - ⟨hc, hfr⟩
          refine ih (i + 1) (by omega) q4 hq4 (hpq3.trans hfr.toExt) (by rw [hfr.profC]; exact hl3) _ ?_
          intro y hy
          rcases List.mem_cons.mp hy with rfl | hy
          · refine ⟨hc, fun m hm => ?_⟩
            have key : ∀ m, Reach p n m → m = n ∨ Reach p t m ∨ Reach p f m := by
              intro m hm
              induction hm with
              | root => exact Or.inl rfl
              | step _ hcc ih =>
                rcases ih with rfl | ih | ih
                · obtain ⟨d', t', f', h, hc⟩ := hcc
                  rw [hx] at h
                  simp only [Option.some.injEq, XNode.inner.injEq] at h
                  obtain ⟨-, rfl, rfl⟩ := h
                  rcases hc with rfl | rfl
                  · exact Or.inr (Or.inl .root)
                  · exact Or.inr (Or.inr .root)
                · exact Or.inr (Or.inl (.step ih hcc))
                · exact Or.inr (Or.inr (.step ih hcc))
            rcases key m hm with rfl | h | h
            · exact hnd
            · exact (hms3 _ (hr1 a ha)).2 m h
            · exact (hms3 _ (hr1' _ (hr2 b hb))).2 m h
          · have := hms3 y (hr1' _ (hr2' _ (List.mem_of_mem_filter hy)))
            exact ⟨hv.mono q3 q4 _ _ hq3.toInv1 hq4.toInv1 hfr.toExt this.1, this.2⟩

/-! ### The walk -/

/-- SPEC: a profile in the pool: it lists the diagram, and it is at the start unless `ok` fails (a walk raised). -/
def ProfOk (p : Pool E) (root : ℕ) (pr : Profile) (ok : Prop) : Prop :=
  Static p root pr ∧ (pr.next = 0 → Clean pr) ∧ (Clean pr ∨ ¬ok)

/-- The invariant of a pool whose profile for the given root may be in use. -/
structure IP (X : XCtx E) (root : ℕ) (S : Prop) (p : Pool E) : Prop extends Inv1 X p where
  prof : ∀ pr, p.profiles.lookup root = some pr → ProfOk p root pr S

theorem getProfile_run {X : XCtx E} {p : Pool E} {root : ℕ} {S : Prop} (hp : IP X root S p) (hr : (p.node root).isSome) :
    ∃ pr q, getProfile root p = (.ok pr, q) ∧ IS X root q ∧ FrP root p q ∧ q.profiles.lookup root = some pr ∧ ProfOk q root pr S := by
  cases hl : p.profiles.lookup root with
  | some pr =>
    have := hp.prof pr hl
    exact ⟨pr, p, getProfile_some hl, ⟨hp.toInv1, pr, hl, this.1, this.2.1⟩, FrP.refl _ _, hl, this⟩
  | none =>
    obtain ⟨pr, h1, h2, h3, h4, h5, h6⟩ := newProfile_ok hp.core hr
    obtain ⟨q, hq⟩ : ∃ q : Pool E, q = { p with profiles := (root, pr) :: p.profiles } := ⟨_, rfl⟩
    have hext : Ext p q := by rw [hq]; exact ⟨List.prefix_refl _, List.prefix_refl _, rfl, rfl⟩
    have hst : Static q root pr := Static.mono hext hp.core ⟨hr, h2, h3⟩
    have hlq : q.profiles.lookup root = some pr := by rw [hq]; simp
    have hcl : Clean pr := ⟨h4, h6⟩
    refine ⟨pr, q, ?_, ⟨hp.toInv1.congr (by rw [hq]) (by rw [hq]) (by rw [hq]) (by rw [hq]) (by rw [hq]) (by rw [hq]) (by rw [hq])
      (by rw [hq]), pr, hlq, hst, fun _ => hcl⟩, ⟨hext, by rw [hq], by rw [hq], fun r hr' => ?_⟩, hlq, hst, fun _ => hcl, Or.inl hcl⟩
    · unfold getProfile
      simp only [XM.bind_apply, XM.get]
      rw [hl]
      simp only [XM.bind_apply, XM.lift, h1, hq]
      rfl
    · rw [hq]
      simp only [List.lookup_cons]
      have : (r == root) = false := by simpa using hr'
      rw [this]

theorem bottomUp_run {X : XCtx E} {p : Pool E} {root : ℕ} {S : Prop} (hp : IP X root S p) (hr : (p.node root).isSome)
    {vt : ℕ → E → XM E α} {vi : ℕ → Decision → Option α → Option α → XM E α} {M : Pool E → ℕ → α → Prop}
    (hv : Visitors X p root vt vi M S) :
    Run (IP X root S) (FrP root) (bottomUp vt vi root) p S (fun a q => M q root a) := by
  obtain ⟨pr, q, h1, h2, h3, h4, h5⟩ := getProfile_run hp hr
  unfold bottomUp
  refine Run.eqP h1 h3 ?_
  have hrq := h3.toExt.isSome hr
  -- the walk keeps the static part, and it does not stop at the start when it raises
  by_cases hcl : Clean pr
  · -- from the start
    have hw : ∃ par, WalkData p root pr.nodes par ∧ ∀ n, Reach p root n → pr.counts.lookup n = some ((par n).length, 0) := by
      classical
      have hc := h5.1.counts
      choose! par i hpar using hc
      refine ⟨par, ⟨hr, ⟨h5.1.order.nodup, fun n => (h5.1.order.mem n).trans (h3.toExt.reach hp.core hr), fun l1 m l2 he c hc => ?_⟩,
        fun n hn => (hpar n ((h3.toExt.reach hp.core hr).mpr hn)).1, fun n hn m => ?_⟩, fun n hn => ?_⟩
      · have hm : Reach p root m := (h3.toExt.reach hp.core hr).mp ((h5.1.order.mem m).mp (by rw [he]; simp))
        exact h5.1.order.order l1 m l2 he c ((h3.toExt.child hp.core (hp.core.reach_some hr hm)).mpr hc)
      · rw [(hpar n ((h3.toExt.reach hp.core hr).mpr hn)).2.1, h3.toExt.reach hp.core hr]
        exact and_congr_right fun hm => h3.toExt.child hp.core (hp.core.reach_some hr hm)
      · have := (hpar n ((h3.toExt.reach hp.core hr).mpr hn)).2.2
        rw [this]
        have h0 := hcl.2 _ (mem_of_lookup_nat this)
        simp only at h0
        rw [h0]
    obtain ⟨par, hwd, hcs⟩ := hw
    have hloop := bottomUpLoop_run hp.core hwd hv (pr.nodes.length + 1) [] pr.nodes rfl (by omega) q h2 h3.toExt
      ⟨pr.counts, by rw [h4, List.length_nil, ← hcl.1], fun n hn => by rw [hcs n hn]; simp [visited]⟩ []
      ⟨by simp, fun n => by simp, fun n a h => by simp at h⟩
    obtain ⟨i1, r1, p1, s1⟩ := hloop
    unfold Run
    rw [XM.bind_apply]
    cases hm : bottomUpLoop vt vi root (pr.nodes.length + 1) [] q with
    | mk r q2 =>
      rw [hm] at i1 r1 p1 s1
      cases r with
      | error e =>
        refine ⟨⟨i1.toInv1, fun pr' hl' => ?_⟩, r1, fun a ha => (by cases ha), fun hS => ?_⟩
        · obtain ⟨pr2, hl2, hst2, hn2⟩ := i1.prof
          rw [hl2] at hl'
          cases hl'
          exact ⟨hst2, hn2, Or.inr fun hS => by obtain ⟨a, ha⟩ := s1 hS; cases ha⟩
        · obtain ⟨a, ha⟩ := s1 hS; cases ha
      | ok ms =>
        obtain ⟨a, rfl, ha⟩ := p1 ms rfl
        obtain ⟨pr', hl', hst, -⟩ := i1.prof
        simp only [if_true, XM.bind_apply, profileReset_eq hl', XM.pure_apply]
        have hcl' : Clean { pr' with counts := pr'.counts.map fun q => (q.1, (q.2.1, 0)), next := 0 } := by
          refine ⟨rfl, fun x hx => ?_⟩
          obtain ⟨y, -, rfl⟩ := List.mem_map.mp hx
          rfl
        refine ⟨⟨i1.toInv1.setProf _ _, fun pr2 hl2 => ?_⟩, r1.trans (FrP.setProf _ _ _), fun b hb => ?_, fun _ => ⟨a, rfl⟩⟩
        · rw [lookup_setProf hl'] at hl2
          cases hl2
          have hst2 : Static q2 root { pr' with counts := pr'.counts.map fun q => (q.1, (q.2.1, 0)), next := 0 } := by
            refine hst.recount rfl fun n m i h => ⟨0, ?_⟩
            simp only
            rw [lookup_map_val pr'.counts (fun v => (v.1, 0)), h]
            rfl
          exact ⟨hst2.setProf i1.core _, fun _ => hcl', Or.inl hcl'⟩
        · cases hb
          exact hv.mono q2 _ root a i1.toInv1 (i1.toInv1.setProf _ _) (Ext.setProf _ _ _) ha
  · -- after a walk that raised
    have hS : ¬S := h5.2.2.resolve_left hcl
    have hnext : 0 < pr.next := Nat.pos_of_ne_zero fun h0 => hcl (h5.2.1 h0)
    have hord : WalkOrder p root pr.nodes := by
      refine ⟨h5.1.order.nodup, fun n => (h5.1.order.mem n).trans (h3.toExt.reach hp.core hr), fun l1 m l2 he c hc => ?_⟩
      have hm : Reach p root m := (h3.toExt.reach hp.core hr).mp ((h5.1.order.mem m).mp (by rw [he]; simp))
      exact h5.1.order.order l1 m l2 he c ((h3.toExt.child hp.core (hp.core.reach_some hr hm)).mpr hc)
    have hloop := bottomUpLoop_dirty hp.core hr hord hv pr.next (pr.nodes.length + 1) pr.next (le_refl _) q h2 h3.toExt
      ⟨pr.counts, h4⟩ [] (by simp)
    have fin : ∀ q', IS X root q' → IP X root S q' := by
      intro q' hq'
      refine ⟨hq'.toInv1, fun pr' hl' => ?_⟩
      obtain ⟨pr2, hl2, hst2, hn2⟩ := hq'.prof
      rw [hl2] at hl'
      cases hl'
      exact ⟨hst2, hn2, Or.inr hS⟩
    refine Run.imp (s := False) (Q := fun _ _ => False) ?_ (fun h => hS h) (fun _ _ _ _ h => h.elim)
    refine Run.weaken (I := IS X root) (R := FrP root) ?_ (fun q' hq' _ => fin q' hq') fun _ h => h
    refine Run.seqP hloop id ?_
    rintro ms q2 hq2 - ⟨hms, -⟩
    split
    · rename_i n a
      split
      · rename_i hn
        exfalso
        subst hn
        cases hns : pr.nodes with
        | nil =>
          have := (hord.mem n).mpr .root
          rw [hns] at this; cases this
        | cons x l =>
          have hx : Reach p n x := (hord.mem x).mp (by rw [hns]; simp)
          have := hms (n, a) (by simp) x hx
          have hnd := hord.nodup
          rw [hns] at this hnd
          obtain ⟨j, hj⟩ : ∃ j, pr.next = j + 1 := ⟨pr.next - 1, by omega⟩
          rw [hj, List.drop_succ_cons] at this
          exact (List.nodup_cons.mp hnd).1 (List.mem_of_mem_drop this)
      · exact Run.fail (FrP.refl root) hq2 id
    · exact Run.fail (FrP.refl root) hq2 id

end
end Pywmi
