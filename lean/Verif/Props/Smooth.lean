import Verif.Xsdd.Smooth
import Verif.Props.Sdd

set_option linter.unusedSectionVars false
set_option linter.unusedSimpArgs false

/-!
# C86: smoothing
-/

namespace Pywmi

/-! ### SPEC -/

namespace PVtree

/-- SPEC: the variables of a vtree. -/
def vars : PVtree → Finset ℕ
  | leaf _ v => {v}
  | split _ l r => l.vars ∪ r.vars

/-- SPEC: the nodes of a vtree. -/
def nodes : PVtree → List PVtree
  | leaf p v => [leaf p v]
  | split p l r => split p l r :: (l.nodes ++ r.nodes)

/-- SPEC: every variable at one leaf. -/
def Once : PVtree → Prop
  | leaf _ _ => True
  | split _ l r => Disjoint l.vars r.vars ∧ l.Once ∧ r.Once

end PVtree

/-- SPEC: what is assumed of pysdd's vtrees: positions are distinct and below `2 * var_count - 1`, variables occur once, constants have no vtree. -/
structure SddLib.Ok (lib : SddLib) : Prop where
  distinct : (lib.root.nodes.map PVtree.pos).Nodup
  range : ∀ t ∈ lib.root.nodes, t.pos < lib.varCount * 2 - 1
  once : lib.root.Once
  tt : lib.vtreeOf .tt = none
  ff : lib.vtreeOf .ff = none

/-- SPEC: the node lies below a node of the vtree: a constant, a literal of a leaf, a decision node whose primes lie below the left child and exclude each
other and whose subs lie below the right child; `node.vtree()` is the vtree node for which it is a literal or decision. -/
inductive SddLib.Below (lib : SddLib) : PVtree → Sdd → Prop where
  | tt (t) : lib.Below t .tt
  | ff (t) : lib.Below t .ff
  | lit (p v : ℕ) (l : ℤ) : l.natAbs = v → lib.vtreeOf (.lit l) = some (.leaf p v) → lib.Below (.leaf p v) (.lit l)
  | left (p l r s) : lib.Below l s → lib.Below (.split p l r) s
  | right (p l r s) : lib.Below r s → lib.Below (.split p l r) s
  | dec (p l r) (es : List (Sdd × Sdd)) : lib.vtreeOf (.dec es) = some (.split p l r) → (∀ e ∈ es, lib.Below l e.1) → (∀ e ∈ es, lib.Below r e.2) →
      (es.Pairwise fun e f => ∀ β, ¬(e.1.eval β = true ∧ f.1.eval β = true)) → lib.Below (.split p l r) (.dec es)

section
variable {K : Type} [CommRing K]

/-- SPEC: the sum over the assignments of `V` that satisfy the diagram of the products of the weights `w n true` of the variables that are true and
`w n false` of the others. -/
def modelSum (w : ℕ → Bool → K) (V : Finset ℕ) (s : Sdd) : K :=
  ∑ S ∈ V.powerset, if s.eval (fun n => decide (n ∈ S)) then (∏ n ∈ S, w n true) * ∏ n ∈ V \ S, w n false else 0

/-- SPEC: the weight of variables that do not occur. -/
def freeWeight (w : ℕ → Bool → K) (V : Finset ℕ) : K := ∏ n ∈ V, (w n true + w n false)

/-- SPEC: a function for weighted model counting as the documentation of `depth_first` describes it: variables that are expected and not used are summed out. -/
def countFunc (w : ℕ → Bool → K) : SddFunc K := fun node rvalues ep es =>
  match rvalues with
  | none =>
    match node with
    | some .tt => .ok (freeWeight w (ep.getD ∅))
    | some .ff => .ok 0
    | some (.lit l) => .ok (w l.natAbs (decide (0 ≤ l)) * freeWeight w (ep.getD ∅ \ {l.natAbs}))
    | _ => .error .other
  | some rv => .ok (rv.map fun v => v.prime * freeWeight w (ep.getD ∅ \ v.usedPrime.getD ∅) * (v.sub * freeWeight w (es.getD ∅ \ v.usedSub.getD ∅))).sum

/-! ### Sums over assignments -/

/-- The sum over the assignments of `V` of a function with weights. -/
def wsum (w : ℕ → Bool → K) (V : Finset ℕ) (f : (ℕ → Bool) → K) : K :=
  ∑ S ∈ V.powerset, (∏ n ∈ S, w n true) * (∏ n ∈ V \ S, w n false) * f fun n => decide (n ∈ S)

theorem modelSum_eq (w : ℕ → Bool → K) (V : Finset ℕ) (s : Sdd) : modelSum w V s = wsum w V fun β => ind (s.eval β) := by
  unfold modelSum wsum
  refine Finset.sum_congr rfl fun S _ => ?_
  by_cases h : s.eval (fun n => decide (n ∈ S)) = true <;> simp [h]

theorem wsum_insert (w : ℕ → Bool → K) {V : Finset ℕ} {a : ℕ} (ha : a ∉ V) (f : (ℕ → Bool) → K) :
    wsum w (insert a V) f = w a true * wsum w V (fun β => f (Function.update β a true)) + w a false * wsum w V fun β => f (Function.update β a false) := by
  unfold wsum
  rw [Finset.sum_powerset_insert ha, add_comm, Finset.mul_sum, Finset.mul_sum]
  congr 1
  · refine Finset.sum_congr rfl fun S hS => ?_
    have haS : a ∉ S := fun h => ha (Finset.mem_powerset.mp hS h)
    have h1 : insert a V \ insert a S = V \ S := by
      ext n
      simp only [Finset.mem_sdiff, Finset.mem_insert]
      constructor
      · rintro ⟨h | h, h'⟩
        · exact absurd (Or.inl h) h'
        · exact ⟨h, fun h2 => h' (Or.inr h2)⟩
      · rintro ⟨h, h'⟩
        exact ⟨Or.inr h, fun h2 => h2.elim (fun e => ha (e ▸ h)) h'⟩
    have h2 : (fun n => decide (n ∈ insert a S)) = Function.update (fun n => decide (n ∈ S)) a true := by
      funext n
      by_cases hn : n = a
      · subst hn; simp
      · simp [hn]
    rw [Finset.prod_insert haS, h1, h2]
    ring
  · refine Finset.sum_congr rfl fun S hS => ?_
    have haS : a ∉ S := fun h => ha (Finset.mem_powerset.mp hS h)
    have h1 : insert a V \ S = insert a (V \ S) := by
      rw [Finset.insert_sdiff_of_notMem _ haS]
    have h2 : (fun n => decide (n ∈ S)) = Function.update (fun n => decide (n ∈ S)) a false := by
      funext n
      by_cases hn : n = a
      · subst hn; simp [haS]
      · simp [hn]
    rw [h1, Finset.prod_insert (by simp [ha])]
    simp only [← h2]
    ring

theorem wsum_add (w : ℕ → Bool → K) (V : Finset ℕ) (f g : (ℕ → Bool) → K) : wsum w V (fun β => f β + g β) = wsum w V f + wsum w V g := by
  unfold wsum
  rw [← Finset.sum_add_distrib]
  exact Finset.sum_congr rfl fun S _ => by ring

theorem wsum_zero (w : ℕ → Bool → K) (V : Finset ℕ) : wsum w V (fun _ => 0) = 0 := by simp [wsum]

theorem wsum_const_mul (w : ℕ → Bool → K) (V : Finset ℕ) (c : K) (f : (ℕ → Bool) → K) : wsum w V (fun β => c * f β) = c * wsum w V f := by
  unfold wsum
  rw [Finset.mul_sum]
  exact Finset.sum_congr rfl fun S _ => by ring

theorem wsum_one (w : ℕ → Bool → K) (V : Finset ℕ) : wsum w V (fun _ => 1) = freeWeight w V := by
  induction V using Finset.induction_on with
  | empty => simp [wsum, freeWeight]
  | insert a V ha ih =>
    rw [wsum_insert w ha, ih, freeWeight, freeWeight, Finset.prod_insert ha]
    ring

theorem wsum_mul (w : ℕ → Bool → K) {A B : Finset ℕ} (h : Disjoint A B) (f g : (ℕ → Bool) → K) (hf : DependsOn' f A) (hg : DependsOn' g B) :
    wsum w (A ∪ B) (fun β => f β * g β) = wsum w A f * wsum w B g := by
  induction A using Finset.induction_on generalizing f with
  | empty =>
    have hc : ∀ β, f β = f fun _ => false := fun β => hf _ _ (by simp)
    simp only [Finset.empty_union]
    have : (fun β => f β * g β) = fun β => (f fun _ => false) * g β := by funext β; rw [hc]
    rw [this, wsum_const_mul]
    simp [wsum]
  | insert a A ha ih =>
    obtain ⟨hB, hAB⟩ := Finset.disjoint_insert_left.mp h
    have haU : a ∉ A ∪ B := by simp [ha, hB]
    have hg' : ∀ b β, g (Function.update β a b) = g β := fun b β => hg _ _ fun i hi => by
      have : i ≠ a := fun e => hB (e ▸ hi)
      simp [this]
    have hf' : ∀ b, DependsOn' (fun β => f (Function.update β a b)) A := fun b β γ e => hf _ _ fun i hi => by
      by_cases hi' : i = a
      · subst hi'; simp
      · simp [hi', e i ((Finset.mem_insert.mp hi).resolve_left hi')]
    rw [Finset.insert_union, wsum_insert w haU, wsum_insert w ha]
    simp only [hg']
    rw [ih hAB _ (hf' true), ih hAB _ (hf' false)]
    ring

theorem eval_depends (s : Sdd) {V : Finset ℕ} (h : s.vars ⊆ V) : DependsOn' (fun β => (ind (s.eval β) : K)) V := by
  intro β γ e
  show (ind (s.eval β) : K) = ind (s.eval γ)
  rw [Sdd.eval_congr s fun n hn => e n (h hn)]

/-- Variables that do not occur are summed out. -/
theorem modelSum_free (w : ℕ → Bool → K) {U V : Finset ℕ} {s : Sdd} (hs : s.vars ⊆ U) (hU : U ⊆ V) : modelSum w V s = modelSum w U s * freeWeight w (V \ U) := by
  rw [modelSum_eq, modelSum_eq, ← wsum_one]
  have := wsum_mul w (A := U) (B := V \ U) Finset.disjoint_sdiff (fun β => (ind (s.eval β) : K)) (fun _ => 1) (eval_depends s hs) (fun _ _ _ => rfl)
  simp only [mul_one] at this
  rw [← this, Finset.union_sdiff_of_subset hU]

theorem modelSum_dec (w : ℕ → Bool → K) {L R : Finset ℕ} (h : Disjoint L R) {es : List (Sdd × Sdd)} (hl : ∀ e ∈ es, e.1.vars ⊆ L) (hr : ∀ e ∈ es, e.2.vars ⊆ R)
    (hx : es.Pairwise fun e f => ∀ β, ¬(e.1.eval β = true ∧ f.1.eval β = true)) :
    modelSum w (L ∪ R) (.dec es) = (es.map fun e => modelSum w L e.1 * modelSum w R e.2).sum := by
  rw [modelSum_eq]
  simp only [Sdd.eval, Sdd.ind_evalAny hx]
  clear hx
  induction es with
  | nil => simp [wsum_zero]
  | cons e es ih =>
    simp only [List.map_cons, List.sum_cons]
    rw [wsum_add, ih (fun x hx => hl x (by simp [hx])) (fun x hx => hr x (by simp [hx])),
      wsum_mul w h _ _ (eval_depends _ (hl e (by simp))) (eval_depends _ (hr e (by simp))), modelSum_eq, modelSum_eq]

/-! ### The expected variables -/

end

theorem PVtree.self_mem (t : PVtree) : t ∈ t.nodes := by cases t <;> simp [PVtree.nodes]

theorem PVtree.vars_mono {t u : PVtree} (h : u ∈ t.nodes) : u.vars ⊆ t.vars := by
  induction t with
  | leaf p v => simp only [PVtree.nodes, List.mem_singleton] at h; subst h; exact subset_rfl
  | split p l r il ir =>
    simp only [PVtree.nodes, List.mem_cons, List.mem_append] at h
    rcases h with rfl | h | h
    · exact subset_rfl
    · exact (il h).trans Finset.subset_union_left
    · exact (ir h).trans Finset.subset_union_right

theorem PVtree.nodes_trans {t u v : PVtree} (h : u ∈ t.nodes) (h' : v ∈ u.nodes) : v ∈ t.nodes := by
  induction t with
  | leaf p w => simp only [PVtree.nodes, List.mem_singleton] at h; subst h; exact h'
  | split p l r il ir =>
    simp only [PVtree.nodes, List.mem_cons, List.mem_append] at h ⊢
    rcases h with rfl | h | h
    · simpa [PVtree.nodes] using h'
    · exact Or.inr (Or.inl (il h))
    · exact Or.inr (Or.inr (ir h))

theorem PVtree.once_mem {t u : PVtree} (h : u ∈ t.nodes) (ht : t.Once) : u.Once := by
  induction t with
  | leaf p w => simp only [PVtree.nodes, List.mem_singleton] at h; subst h; exact ht
  | split p l r il ir =>
    simp only [PVtree.nodes, List.mem_cons, List.mem_append] at h
    rcases h with rfl | h | h
    · exact ht
    · exact il h ht.2.1
    · exact ir h ht.2.2

theorem lookup_cons_nat {β : Type} (k a : ℕ) (b : β) (d : List (ℕ × β)) : List.lookup k ((a, b) :: d) = if k = a then some b else d.lookup k := by
  rw [List.lookup_cons]
  by_cases h : k = a
  · subst h; simp
  · have : (k == a) = false := by simpa using h
    simp [this, h]

theorem cacheLoop_spec {n : ℕ} (t : PVtree) (k : ℕ) (q : List PVtree) (vis : List ℕ) (d : VarCache) (hn : (t.nodes.map PVtree.pos).Nodup)
    (hr : ∀ u ∈ t.nodes, u.pos < n) (hv : ∀ u ∈ t.nodes, u.pos ∉ vis) :
    ∃ vis' d', cacheLoop n (k + t.turns) (t :: q) vis d = cacheLoop n k q vis' d' ∧ (∀ x ∈ vis', x ∈ vis ∨ x ∈ t.nodes.map PVtree.pos) ∧
      (∀ x ∈ vis, x ∈ vis') ∧
      (∀ u ∈ t.nodes, d'.lookup u.pos = some u.vars) ∧ ∀ x, x ∉ t.nodes.map PVtree.pos → d'.lookup x = d.lookup x := by
  induction t generalizing k q vis d with
  | leaf p v =>
    refine ⟨vis, (p, {v}) :: d, rfl, fun x h => Or.inl h, fun x h => h, fun u hu => ?_, fun x hx => ?_⟩
    · simp only [PVtree.nodes, List.mem_singleton] at hu
      subst hu
      simp [PVtree.pos, PVtree.vars]
    · simp only [PVtree.nodes, List.map_cons, List.map_nil, List.mem_singleton, PVtree.pos] at hx
      rw [lookup_cons_nat, if_neg hx]
  | split p l r il ir =>
    simp only [PVtree.nodes, List.map_cons, List.map_append, List.nodup_cons, List.mem_append, not_or, PVtree.pos] at hn
    obtain ⟨⟨hpl, hpr⟩, hnlr⟩ := hn
    obtain ⟨hnl, hnr, hdis⟩ := List.nodup_append.mp hnlr
    have hp : p < n := hr (.split p l r) (PVtree.self_mem _)
    have hpv : p ∉ vis := hv (.split p l r) (PVtree.self_mem _)
    have ml : ∀ u ∈ l.nodes, u ∈ (PVtree.split p l r).nodes := fun u h => by simp [PVtree.nodes, h]
    have mr : ∀ u ∈ r.nodes, u ∈ (PVtree.split p l r).nodes := fun u h => by simp [PVtree.nodes, h]
    have hvl : ∀ u ∈ l.nodes, u.pos ∉ p :: vis := fun u hu h => by
      rcases List.mem_cons.mp h with h | h
      · exact hpl (h ▸ List.mem_map_of_mem hu)
      · exact hv u (ml u hu) h
    obtain ⟨vis1, d1, e1, a1, b1, c1, f1⟩ := il (k + 1 + r.turns) (r :: .split p l r :: q) (p :: vis) d hnl (fun u hu => hr u (ml u hu)) hvl
    have hvr : ∀ u ∈ r.nodes, u.pos ∉ vis1 := fun u hu h => by
      rcases a1 _ h with h | h
      · rcases List.mem_cons.mp h with h | h
        · exact hpr (h ▸ List.mem_map_of_mem hu)
        · exact hv u (mr u hu) h
      · exact hdis _ h _ (List.mem_map_of_mem hu) rfl
    obtain ⟨vis2, d2, e2, a2, b2, c2, f2⟩ := ir (k + 1) (.split p l r :: q) vis1 d1 hnr (fun u hu => hr u (mr u hu)) hvr
    have hpin : p ∈ vis2 := b2 p (b1 p (by simp))
    have gl : d2.get l.pos = .ok l.vars := by
      have : d2.lookup l.pos = some l.vars := by
        rw [f2 l.pos fun h => hdis _ (List.mem_map_of_mem (PVtree.self_mem l)) _ h rfl]
        exact c1 l (PVtree.self_mem l)
      simp [VarCache.get, this]
    have gr : d2.get r.pos = .ok r.vars := by
      simp [VarCache.get, c2 r (PVtree.self_mem r)]
    refine ⟨vis2, (p, l.vars ∪ r.vars) :: d2, ?_, fun x hx => ?_, fun x hx => b2 x (b1 x (by simp [hx])), fun u hu => ?_, fun x hx => ?_⟩
    · have et : k + (PVtree.split p l r).turns = (k + 1 + r.turns + l.turns) + 1 := by simp only [PVtree.turns]; omega
      rw [et, cacheLoop, if_neg (by omega), if_neg hpv, e1, e2, cacheLoop, if_neg (by omega), if_pos hpin, gl]
      simp only [gr]
    · simp only [PVtree.nodes, List.map_cons, List.map_append, List.mem_cons, List.mem_append, PVtree.pos]
      rcases a2 x hx with h | h
      · rcases a1 x h with h | h
        · rcases List.mem_cons.mp h with h | h
          · exact Or.inr (Or.inl h)
          · exact Or.inl h
        · exact Or.inr (Or.inr (Or.inl h))
      · exact Or.inr (Or.inr (Or.inr h))
    · simp only [PVtree.nodes, List.mem_cons, List.mem_append] at hu
      rw [lookup_cons_nat]
      rcases hu with rfl | hu | hu
      · simp [PVtree.pos, PVtree.vars]
      · rw [if_neg fun h : u.pos = p => hpl (h ▸ List.mem_map_of_mem hu), f2 _ fun h => hdis _ (List.mem_map_of_mem hu) _ h rfl]
        exact c1 u hu
      · rw [if_neg fun h : u.pos = p => hpr (h ▸ List.mem_map_of_mem hu)]
        exact c2 u hu
    · simp only [PVtree.nodes, List.map_cons, List.map_append, List.mem_cons, List.mem_append, PVtree.pos, not_or] at hx
      rw [lookup_cons_nat, if_neg hx.1, f2 x hx.2.2, f1 x hx.2.1]

/-- C86: the iterator expects at every node of the vtree exactly the variables below it. -/
theorem expected_vars {lib : SddLib} (h : lib.Ok) : ∃ d, cacheExpected lib = .ok d ∧ ∀ t ∈ lib.root.nodes, d.get t.pos = .ok t.vars := by
  obtain ⟨vis, d, e, -, -, hd, -⟩ := cacheLoop_spec (n := lib.varCount * 2 - 1) lib.root 0 [] [] [] h.distinct h.range (by simp)
  refine ⟨d, ?_, fun t ht => by simp [VarCache.get, hd t ht]⟩
  have h0 : lib.varCount ≠ 0 := fun h0 => by
    have := h.range _ (PVtree.self_mem _)
    omega
  rw [Nat.zero_add] at e
  rw [cacheExpected, if_neg h0, e]
  cases lib.root.turns <;> simp [cacheLoop]

/-! ### The traversal -/

section
variable {R : Type} {lib : SddLib}

/-- What is known about a node below a vtree node. -/
theorem SddLib.Below.cases_on {t : PVtree} {s : Sdd} (h : lib.Below t s) : s = .tt ∨ s = .ff ∨ ∃ u ∈ t.nodes, lib.vtreeOf s = some u ∧ lib.Below u s ∧ s.vars ⊆ u.vars ∧
    (∀ l, s = .lit l → ∃ p, u = .leaf p l.natAbs) ∧
    ∀ es, s = .dec es → ∃ p l r, u = .split p l r ∧ (∀ e ∈ es, lib.Below l e.1) ∧ (∀ e ∈ es, lib.Below r e.2) ∧
      es.Pairwise fun e f => ∀ β, ¬(e.1.eval β = true ∧ f.1.eval β = true) := by
  induction h with
  | tt => exact Or.inl rfl
  | ff => exact Or.inr (Or.inl rfl)
  | lit p v l h1 h2 => exact Or.inr (Or.inr ⟨_, PVtree.self_mem _, h2, .lit p v l h1 h2, by simp [Sdd.vars, PVtree.vars, h1],
      fun l' e => (by cases e; exact ⟨p, by rw [h1]⟩), fun es e => (by cases e)⟩)
  | left p l r s _ ih =>
    rcases ih with h | h | ⟨u, h1, h2⟩
    · exact Or.inl h
    · exact Or.inr (Or.inl h)
    · exact Or.inr (Or.inr ⟨u, by simp [PVtree.nodes, h1], h2⟩)
  | right p l r s _ ih =>
    rcases ih with h | h | ⟨u, h1, h2⟩
    · exact Or.inl h
    · exact Or.inr (Or.inl h)
    · exact Or.inr (Or.inr ⟨u, by simp [PVtree.nodes, h1], h2⟩)
  | dec p l r es h1 h2 h3 h4 ih1 ih2 =>
    refine Or.inr (Or.inr ⟨_, PVtree.self_mem _, h1, .dec p l r es h1 h2 h3 h4, fun n hn => ?_, fun l' e => (by cases e),
      fun es' e => (by cases e; exact ⟨p, l, r, rfl, h2, h3, h4⟩)⟩)
    obtain ⟨e, he, h | h⟩ := Sdd.mem_varsList.mp hn
    · rcases ih1 e he with h' | h' | ⟨u, hu, -, -, hs, -⟩
      · rw [h'] at h; simp [Sdd.vars] at h
      · rw [h'] at h; simp [Sdd.vars] at h
      · exact Finset.mem_union_left _ (PVtree.vars_mono hu (hs h))
    · rcases ih2 e he with h' | h' | ⟨u, hu, -, -, hs, -⟩
      · rw [h'] at h; simp [Sdd.vars] at h
      · rw [h'] at h; simp [Sdd.vars] at h
      · exact Finset.mem_union_right _ (PVtree.vars_mono hu (hs h))

theorem SddLib.Below.vars {t : PVtree} {s : Sdd} (h : lib.Below t s) : s.vars ⊆ t.vars := by
  rcases h.cases_on with rfl | rfl | ⟨u, h1, -, -, h4, -⟩
  · simp [Sdd.vars]
  · simp [Sdd.vars]
  · exact h4.trans (PVtree.vars_mono h1)

/-- The variables of the vtree node of a diagram. -/
def ownVars (lib : SddLib) (s : Sdd) : Finset ℕ :=
  match lib.vtreeOf s with
  | some u => u.vars
  | none => ∅

/-- The tuple that is handed for an element. -/
def elemVal (lib : SddLib) (smooth : Bool) (F : Sdd → R) (e : Sdd × Sdd) : RVal R :=
  ⟨F e.1, F e.2, if smooth then some (ownVars lib e.1) else none, if smooth then some (ownVars lib e.2) else none, some e⟩

theorem visit_ok {d : VarCache} {smooth : Bool} (hd : smooth = true → ∀ t ∈ lib.root.nodes, d.get t.pos = .ok t.vars) {func : SddFunc R} {F : Sdd → R}
    (hleaf : ∀ s t, t ∈ lib.root.nodes → lib.Below t s → (∀ es, s ≠ .dec es) → func (some s) none none none = .ok (F s))
    (hdec : ∀ es p l r, .split p l r ∈ lib.root.nodes → lib.Below (.split p l r) (.dec es) → lib.vtreeOf (.dec es) = some (.split p l r) →
      func (some (.dec es)) (some (es.map (elemVal lib smooth F))) (some (if smooth then l.vars else ∅)) (some (if smooth then r.vars else ∅)) = .ok (F (.dec es)))
    (hok : lib.vtreeOf .tt = none ∧ lib.vtreeOf .ff = none) (s : Sdd) :
    ∀ t ∈ lib.root.nodes, lib.Below t s → ∀ memo : List (Sdd × R), (∀ x ∈ memo, x.2 = F x.1) →
      ∃ memo', visitNode lib smooth d func s memo = .ok (F s, memo') ∧ ∀ x ∈ memo', x.2 = F x.1 := by
  have hlook : ∀ (memo : List (Sdd × R)), (∀ x ∈ memo, x.2 = F x.1) → ∀ s r, memo.lookup s = some r → r = F s := by
    intro memo
    induction memo with
    | nil => intro _ s r h; simp at h
    | cons x memo ih =>
      intro hm s r h
      obtain ⟨a, b⟩ := x
      rw [List.lookup_cons] at h
      by_cases hs : s = a
      · subst hs
        simp at h
        rw [← h]
        exact hm (s, b) (by simp)
      · have : (s == a) = false := by simpa using hs
        rw [this] at h
        exact ih (fun x hx => hm x (by simp [hx])) s r h
  have hvl : ∀ s t, t ∈ lib.root.nodes → lib.Below t s → (∀ es, s ≠ .dec es) → ∀ memo : List (Sdd × R), (∀ x ∈ memo, x.2 = F x.1) →
      ∃ memo', visitLeaf func s memo = .ok (F s, memo') ∧ ∀ x ∈ memo', x.2 = F x.1 := by
    intro s t ht hb hs memo hm
    unfold visitLeaf
    cases hl : memo.lookup s with
    | some r => exact ⟨memo, by simp only [hlook memo hm s r hl], hm⟩
    | none =>
      simp only [hleaf s t ht hb hs]
      refine ⟨_, rfl, fun x hx => ?_⟩
      rcases List.mem_cons.mp hx with rfl | hx
      · rfl
      · exact hm x hx
  have hused : ∀ s t, t ∈ lib.root.nodes → lib.Below t s → usedOf lib smooth d s = .ok (if smooth then some (ownVars lib s) else none) := by
    intro s t ht hb
    unfold usedOf ownVars
    cases hsm : smooth with
    | false => simp
    | true =>
      rcases hb.cases_on with rfl | rfl | ⟨u, h1, h2, -⟩
      · simp [hok.1]
      · simp [hok.2]
      · simp [h2, hd hsm u (PVtree.nodes_trans ht h1)]
  induction s using Sdd.induct with
  | tt => intro t ht hb memo hm; rw [visitNode]; exact hvl _ t ht hb (by simp) memo hm
  | ff => intro t ht hb memo hm; rw [visitNode]; exact hvl _ t ht hb (by simp) memo hm
  | lit l => intro t ht hb memo hm; rw [visitNode]; exact hvl _ t ht hb (by simp) memo hm
  | dec es ih =>
    intro t ht hb memo hm
    rcases hb.cases_on with h | h | ⟨u, h1, h2, h3, -, -, h5⟩
    · cases h
    · cases h
    have hu := PVtree.nodes_trans ht h1
    cases hl : memo.lookup (.dec es) with
    | some r => exact ⟨memo, by rw [visitNode, hl, hlook memo hm _ r hl], hm⟩
    | none =>
      obtain ⟨p, l, r, rfl, hbl, hbr, -⟩ := h5 es rfl
      have hln : l ∈ lib.root.nodes := PVtree.nodes_trans hu (by simp [PVtree.nodes, PVtree.self_mem])
      have hrn : r ∈ lib.root.nodes := PVtree.nodes_trans hu (by simp [PVtree.nodes, PVtree.self_mem])
      have hel : ∀ (fs : List (Sdd × Sdd)), (∀ e ∈ fs, e ∈ es) → ∀ memo : List (Sdd × R), (∀ x ∈ memo, x.2 = F x.1) →
          ∃ memo', visitElems lib smooth d func fs memo = .ok (fs.map (elemVal lib smooth F), memo') ∧ ∀ x ∈ memo', x.2 = F x.1 := by
        intro fs
        induction fs with
        | nil => intro _ memo hm; exact ⟨memo, by rw [visitElems]; rfl, hm⟩
        | cons e fs ih2 =>
          intro hfs memo hm
          obtain ⟨a, b⟩ := e
          have he := hfs (a, b) (by simp)
          obtain ⟨m1, e1, k1⟩ := (ih _ he).1 l hln (hbl _ he) memo hm
          obtain ⟨m2, e2, k2⟩ := (ih _ he).2 r hrn (hbr _ he) m1 k1
          obtain ⟨m3, e3, k3⟩ := ih2 (fun x hx => hfs x (by simp [hx])) m2 k2
          refine ⟨m3, ?_, k3⟩
          rw [visitElems]
          simp only at e1 e2
          simp only [e1, e2, hused a l hln (hbl _ he), hused b r hrn (hbr _ he), e3]
          rfl
      obtain ⟨m', e', k'⟩ := hel es (fun _ h => h) memo hm
      have exl : expectedOf smooth d (PVtree.split p l r).left = .ok (if smooth then l.vars else ∅) := by
        cases hsm : smooth with
        | false => simp [expectedOf]
        | true => simp [expectedOf, PVtree.left, hd hsm l hln]
      have exr : expectedOf smooth d (PVtree.split p l r).right = .ok (if smooth then r.vars else ∅) := by
        cases hsm : smooth with
        | false => simp [expectedOf]
        | true => simp [expectedOf, PVtree.right, hd hsm r hrn]
      refine ⟨(.dec es, F (.dec es)) :: m', ?_, fun x hx => ?_⟩
      · rw [visitNode, hl]
        simp only [h2, exl, exr, e', hdec es p l r hu h3 h2]
      · rcases List.mem_cons.mp hx with rfl | hx
        · rfl
        · exact k' x hx

end

/-! ### Weighted model counting -/

section
variable {K : Type} [CommRing K] {lib : SddLib}

theorem modelSum_tt (w : ℕ → Bool → K) (V : Finset ℕ) : modelSum w V .tt = freeWeight w V := by
  rw [modelSum_eq, ← wsum_one]; rfl

theorem modelSum_ff (w : ℕ → Bool → K) (V : Finset ℕ) : modelSum w V .ff = 0 := by
  rw [modelSum_eq]; exact wsum_zero w V

theorem modelSum_lit (w : ℕ → Bool → K) (l : ℤ) : modelSum w {l.natAbs} (.lit l) = w l.natAbs (decide (0 ≤ l)) := by
  rw [modelSum_eq, ← Finset.insert_empty, wsum_insert w (by simp)]
  by_cases h : 0 ≤ l
  · have : ¬ l < 0 := by omega
    simp [wsum, Sdd.eval, h, this]
  · have : l < 0 := by omega
    simp [wsum, Sdd.eval, h, this]

/-- The sum over the variables of the vtree node, with 1 and 0 for the constants. -/
def ownSum (lib : SddLib) (w : ℕ → Bool → K) (s : Sdd) : K := modelSum w (ownVars lib s) s

theorem ownSum_free (hok : lib.Ok) (w : ℕ → Bool → K) {t : PVtree} {s : Sdd} (h : lib.Below t s) : ownSum lib w s * freeWeight w (t.vars \ ownVars lib s) = modelSum w t.vars s := by
  rcases h.cases_on with rfl | rfl | ⟨u, h1, h2, -, h4, -⟩
  · simp only [ownSum, ownVars, hok.tt]
    rw [modelSum_free w (U := ∅) (V := t.vars) (by simp [Sdd.vars]) (by simp)]
  · rw [ownSum, modelSum_ff, modelSum_ff, zero_mul]
  · simp only [ownSum, ownVars, h2]
    rw [modelSum_free w h4 (PVtree.vars_mono h1)]

theorem count_visit (hok : lib.Ok) (w : ℕ → Bool → K) {d : VarCache} (hd : ∀ t ∈ lib.root.nodes, d.get t.pos = .ok t.vars) {s : Sdd} (hs : lib.Below lib.root s) :
    ∃ memo, visitNode lib true d (countFunc w) s [] = .ok (ownSum lib w s, memo) := by
  refine (visit_ok (lib := lib) (smooth := true) (func := countFunc w) (F := ownSum lib w) (fun _ => hd) (fun s t ht hb hs => ?_) (fun es p l r hu hb hv => ?_)
    ⟨hok.tt, hok.ff⟩ s lib.root (PVtree.self_mem _) hs [] (by simp)).imp fun m h => h.1
  · rcases hb.cases_on with rfl | rfl | ⟨u, -, h2, -, -, h3, -⟩
    · simp [countFunc, ownSum, ownVars, hok.tt, modelSum_tt]
    · simp [countFunc, ownSum, ownVars, hok.ff, modelSum_ff]
    · cases s with
      | tt => simp [hok.tt] at h2
      | ff => simp [hok.ff] at h2
      | lit l =>
        obtain ⟨p, rfl⟩ := h3 l rfl
        simp [countFunc, ownSum, ownVars, h2, PVtree.vars, modelSum_lit, freeWeight]
      | dec es => exact absurd rfl (hs es)
  · rcases hb.cases_on with h | h | ⟨u, -, h2, -, -, -, h3⟩
    · cases h
    · cases h
    obtain ⟨p', l', r', e, hl, hr, hx⟩ := h3 es rfl
    rw [hv] at h2
    obtain rfl := Option.some.inj h2
    cases e
    have hdis : Disjoint l.vars r.vars := (PVtree.once_mem hu hok.once).1
    have : ownSum lib w (.dec es) = (es.map fun e => modelSum w l.vars e.1 * modelSum w r.vars e.2).sum := by
      simp only [ownSum, ownVars, hv, PVtree.vars]
      exact modelSum_dec w hdis (fun e he => (hl e he).vars) (fun e he => (hr e he).vars) hx
    rw [this]
    simp only [countFunc, List.map_map, if_true, Option.getD_some]
    congr 2
    refine List.map_congr_left fun e he => ?_
    simp only [Function.comp, elemVal, if_true, Option.getD_some]
    rw [ownSum_free hok w (hl e he), ownSum_free hok w (hr e he)]

/-- C86: with smoothing, weighted model counting by the documented interface returns for a decision node the weighted model count over the variables of
its vtree node, and for every other node the count over all variables. Missing for the full claim: decision nodes below the root, see `smooth_count_below`. -/
theorem smooth_count_partial (hok : lib.Ok) (w : ℕ → Bool → K) {s : Sdd} (hs : lib.Below lib.root s) :
    depthFirst lib true false (countFunc w) s =
      .ok (modelSum w (match s, lib.vtreeOf s with | .dec _, some u => u.vars | _, _ => lib.root.vars) s) := by
  obtain ⟨d, h1, h2⟩ := expected_vars hok
  obtain ⟨m, h3⟩ := count_visit hok w h2 hs
  have hroot := h2 lib.root (PVtree.self_mem _)
  unfold depthFirst
  simp only [if_true, h1, Bool.false_and, Bool.false_eq_true, if_false]
  cases s with
  | tt => simp [depthFirstBase, Sdd.isTrueOrLit, hroot, countFunc, modelSum_tt]
  | ff =>
    simp only [depthFirstBase, Sdd.isTrueOrLit, Bool.and_false, Bool.false_eq_true, if_false, h3]
    simp [ownSum, modelSum_ff]
  | lit l =>
    rcases hs.cases_on with h | h | ⟨u, k1, -, -, k2, -⟩
    · cases h
    · cases h
    have hl : {l.natAbs} ⊆ lib.root.vars := by
      have := k2.trans (PVtree.vars_mono k1)
      simpa [Sdd.vars] using this
    simp only [depthFirstBase, Sdd.isTrueOrLit, Bool.and_true, if_true, hroot, countFunc, Option.getD_some]
    rw [modelSum_free w (U := {l.natAbs}) (V := lib.root.vars) (by simp [Sdd.vars]) hl, modelSum_lit]
  | dec es =>
    rcases hs.cases_on with h | h | ⟨u, -, k1, -⟩
    · cases h
    · cases h
    simp only [depthFirstBase, Sdd.isTrueOrLit, Bool.and_false, Bool.false_eq_true, if_false, h3, k1, ownSum, ownVars]

/-- C86: a decision node above which no variable is missing is counted over all variables. -/
theorem smooth_count_root (hok : lib.Ok) (w : ℕ → Bool → K) {s : Sdd} (hs : lib.Below lib.root s) (hv : ∀ es, s = .dec es → lib.vtreeOf s = some lib.root) :
    depthFirst lib true false (countFunc w) s = .ok (modelSum w lib.root.vars s) := by
  rw [smooth_count_partial hok w hs]
  cases s with
  | dec es => simp only [hv es rfl]
  | _ => rfl

/-- FINDING: a decision node below the root is counted over too few variables, unlike constants and literals: its result has to be multiplied. -/
theorem smooth_count_below (hok : lib.Ok) (w : ℕ → Bool → K) {es : List (Sdd × Sdd)} (hs : lib.Below lib.root (.dec es)) {u : PVtree} (hv : lib.vtreeOf (.dec es) = some u) :
    ∃ r, depthFirst lib true false (countFunc w) (.dec es) = .ok r ∧ r * freeWeight w (lib.root.vars \ u.vars) = modelSum w lib.root.vars (.dec es) := by
  refine ⟨_, smooth_count_partial hok w hs, ?_⟩
  have := ownSum_free hok w hs
  simp only [ownSum, ownVars, hv] at this
  simp only [hv, this]

/-- FINDING: with `smooth_to_root` the constants always end in an AttributeError. -/
theorem smooth_root_constants {R : Type} (hok : lib.Ok) {func : SddFunc R} {a b : R} (h2 : func (some .ff) none none none = .ok b)
    (h3 : ∀ e f, func (some .tt) none e f = .ok a) :
    depthFirst lib true true func .tt = .error .attributeError ∧ depthFirst lib true true func .ff = .error .attributeError := by
  obtain ⟨d, e1, e2⟩ := expected_vars hok
  have hroot := e2 lib.root (PVtree.self_mem _)
  constructor
  · simp [depthFirst, e1, depthFirstBase, Sdd.isTrueOrLit, hroot, h3, hok.tt]
  · simp [depthFirst, e1, depthFirstBase, Sdd.isTrueOrLit, visitNode, visitLeaf, h2, h3, hok.ff]

/-! ### Smoothing of `amc` -/

theorem circuit_modelSum (hok : lib.Ok) (w : ℕ → K) (s : Sdd) : ∀ t ∈ lib.root.nodes, lib.Below t s →
    modelSum (fun n b => if b then w n else 1 - w n) t.vars s = s.circuit w := by
  have hfree : ∀ V, freeWeight (fun n b => if b then w n else 1 - w n) V = 1 := fun V => by simp [freeWeight]
  have hfree' : ∀ t s, lib.Below t s → modelSum (fun n b => if b then w n else 1 - w n) t.vars s = ownSum lib (fun n b => if b then w n else 1 - w n) s := by
    intro t s h
    rw [← ownSum_free hok _ h, hfree, mul_one]
  induction s using Sdd.induct with
  | tt => intro t _ _; rw [modelSum_tt, hfree]; rfl
  | ff => intro t _ _; rw [modelSum_ff]; rfl
  | lit l =>
    intro t _ hb
    rcases hb.cases_on with h | h | ⟨u, -, h2, -, -, h3, -⟩
    · cases h
    · cases h
    obtain ⟨p, rfl⟩ := h3 l rfl
    rw [hfree' t _ hb]
    simp only [ownSum, ownVars, h2, PVtree.vars, modelSum_lit, Sdd.circuit]
    by_cases h0 : 0 ≤ l
    · have : ¬ l < 0 := by omega
      simp [h0, this]
    · have : l < 0 := by omega
      simp [h0, this]
  | dec es ih =>
    intro t ht hb
    rcases hb.cases_on with h | h | ⟨u, h1, h2, -, -, -, h3⟩
    · cases h
    · cases h
    obtain ⟨p, l, r, rfl, hl, hr, hx⟩ := h3 es rfl
    have hu := PVtree.nodes_trans ht h1
    have hln : l ∈ lib.root.nodes := PVtree.nodes_trans hu (by simp [PVtree.nodes, PVtree.self_mem])
    have hrn : r ∈ lib.root.nodes := PVtree.nodes_trans hu (by simp [PVtree.nodes, PVtree.self_mem])
    have hdis : Disjoint l.vars r.vars := (PVtree.once_mem hu hok.once).1
    rw [hfree' t _ hb]
    simp only [ownSum, ownVars, h2, PVtree.vars]
    rw [modelSum_dec _ hdis (fun e he => (hl e he).vars) (fun e he => (hr e he).vars) hx]
    simp only [Sdd.circuit, Sdd.circuitSum_eq]
    congr 1
    refine List.map_congr_left fun e he => ?_
    rw [(ih e he).1 l hln (hl e he), (ih e he).2 r hrn (hr e he)]

/-- C86: `amc` returns the same with and without smoothing: the result of weighted model counting with probabilities. -/
theorem amc_smooth (hok : lib.Ok) (weights : ℕ → Option K) (w : ℕ → K) {s : Sdd} (hs : lib.Below lib.root s) (hw : ∀ n ∈ lib.root.vars, weights n = some (w n)) (smooth : Bool) :
    amcSmooth lib smooth (wmcSemi weights) s = .ok (modelSum (fun n b => if b then w n else 1 - w n) lib.root.vars s) := by
  obtain ⟨d0, e1, e2⟩ := expected_vars hok
  rw [circuit_modelSum hok w s lib.root (PVtree.self_mem _) hs]
  have hleaf : ∀ ep es s t, t ∈ lib.root.nodes → lib.Below t s → (∀ es, s ≠ .dec es) →
      walkCallback (wmcSemi weights).walker (some s) none ep es = .ok (s.circuit w) := by
    intro ep es s t ht hb hne
    cases s with
    | tt => rfl
    | ff => rfl
    | dec es => exact absurd rfl (hne es)
    | lit l =>
      have hl : l.natAbs ∈ lib.root.vars := PVtree.vars_mono ht (hb.vars (by simp [Sdd.vars]))
      simp only [walkCallback, Semi.walker, wmcSemi, Semi.signed, hw _ hl, Sdd.circuit]
      split <;> rfl
  have hdec : ∀ es p l r, .split p l r ∈ lib.root.nodes → lib.Below (.split p l r) (.dec es) → lib.vtreeOf (.dec es) = some (.split p l r) →
      walkCallback (wmcSemi weights).walker (some (.dec es)) (some (es.map (elemVal lib smooth (Sdd.circuit w)))) (some (if smooth then l.vars else ∅))
        (some (if smooth then r.vars else ∅)) = .ok (Sdd.circuit w (.dec es)) := by
    intro es p l r _ _ _
    have : ∀ fs : List (Sdd × Sdd), Prog.mapE (unpackAnd (wmcSemi weights).walker)
        (fs.map (elemVal lib smooth (Sdd.circuit w))) = .ok (fs.map fun e => e.1.circuit w * e.2.circuit w) := by
      intro fs
      induction fs with
      | nil => rfl
      | cons e fs ih =>
        simp only [List.map_cons, Prog.mapE, ih]
        rfl
    simp only [walkCallback, this es, wmcSemi_onOr, Sdd.circuit, Sdd.circuitSum_eq]
  have hd : ∀ d, (smooth = true → ∀ t ∈ lib.root.nodes, d.get t.pos = .ok t.vars) → ∃ m, visitNode lib smooth d (walkCallback (wmcSemi weights).walker) s [] = .ok (s.circuit w, m) := by
    intro d hd
    obtain ⟨m, h, -⟩ := visit_ok hd (hleaf none none) hdec ⟨hok.tt, hok.ff⟩ s lib.root (PVtree.self_mem _) hs [] (by simp)
    exact ⟨m, h⟩
  cases smooth with
  | false =>
    obtain ⟨m, hm⟩ := hd [] (by simp)
    simp [amcSmooth, depthFirst, depthFirstBase, hm]
  | true =>
    obtain ⟨m, hm⟩ := hd d0 fun _ => e2
    by_cases h : s.isTrueOrLit = true
    · have hl := hleaf (some lib.root.vars) (some ∅) s lib.root (PVtree.self_mem _) hs fun es e => by subst e; simp [Sdd.isTrueOrLit] at h
      simp [amcSmooth, depthFirst, depthFirstBase, e1, h, e2 _ (PVtree.self_mem _), hl]
    · simp [amcSmooth, depthFirst, depthFirstBase, e1, h, hm]

end

/-! ### Examples -/

/-- EXAMPLE: the vtree `((1 2) 3)` with positions in order. -/
def exPV : PVtree := .split 3 (.split 1 (.leaf 0 1) (.leaf 2 2)) (.leaf 4 3)

/-- EXAMPLE: the diagrams `1 or 2` (below the left child), `(1 or 2) and 3` and the literals. -/
def exDisj : Sdd := .dec [(.lit 1, .tt), (.lit (-1), .lit 2)]
/-- EXAMPLE: the negation. -/
def exNorm0 : Sdd := .dec [(.lit 1, .ff), (.lit (-1), .lit (-2))]
/-- EXAMPLE: a decision node at the root. -/
def exTop : Sdd := .dec [(exDisj, .lit 3), (exNorm0, .ff)]

/-- EXAMPLE: the library for these diagrams. -/
def exLib : SddLib := ⟨exPV, 3, fun s => match s with
  | .tt => none
  | .ff => none
  | .lit l => if l.natAbs = 1 then some (.leaf 0 1) else if l.natAbs = 2 then some (.leaf 2 2) else some (.leaf 4 3)
  | .dec es => if Sdd.dec es = exTop then some exPV else some (.split 1 (.leaf 0 1) (.leaf 2 2))⟩

theorem exLib_ok : exLib.Ok := ⟨by decide, by decide, by simp [exLib, exPV, PVtree.Once, PVtree.vars], rfl, rfl⟩

theorem exDisj_below : exLib.Below (.split 1 (.leaf 0 1) (.leaf 2 2)) exDisj := by
  refine .dec _ _ _ _ (by decide +kernel) ?_ ?_ ?_
  · simp only [List.mem_cons, List.not_mem_nil, or_false, forall_eq_or_imp, forall_eq]
    exact ⟨.lit _ _ _ rfl (by decide), .lit _ _ _ rfl (by decide)⟩
  · simp only [List.mem_cons, List.not_mem_nil, or_false, forall_eq_or_imp, forall_eq]
    exact ⟨.tt _, .lit _ _ _ rfl (by decide)⟩
  · refine List.pairwise_pair.mpr fun β => ?_
    simp [Sdd.eval]

theorem exNorm0_below : exLib.Below (.split 1 (.leaf 0 1) (.leaf 2 2)) exNorm0 := by
  refine .dec _ _ _ _ (by decide +kernel) ?_ ?_ ?_
  · simp only [List.mem_cons, List.not_mem_nil, or_false, forall_eq_or_imp, forall_eq]
    exact ⟨.lit _ _ _ rfl (by decide), .lit _ _ _ rfl (by decide)⟩
  · simp only [List.mem_cons, List.not_mem_nil, or_false, forall_eq_or_imp, forall_eq]
    exact ⟨.ff _, .lit _ _ _ rfl (by decide)⟩
  · refine List.pairwise_pair.mpr fun β => ?_
    simp [Sdd.eval]

theorem exTop_below : exLib.Below exLib.root exTop := by
  refine .dec _ _ _ _ (by decide +kernel) ?_ ?_ ?_
  · simp only [List.mem_cons, List.not_mem_nil, or_false, forall_eq_or_imp, forall_eq]
    exact ⟨exDisj_below, exNorm0_below⟩
  · simp only [List.mem_cons, List.not_mem_nil, or_false, forall_eq_or_imp, forall_eq]
    exact ⟨.lit _ _ _ rfl (by decide), .ff _⟩
  · refine List.pairwise_pair.mpr fun β => ?_
    cases h1 : β 1 <;> cases h2 : β 2 <;> simp [exDisj, exNorm0, Sdd.eval, Sdd.evalAny, h1, h2]

/-- The hypotheses are met: `(1 or 2) and 3` has 3 models. -/
theorem smooth_example : depthFirst exLib true false (countFunc fun _ _ => (1 : ℚ)) exTop = .ok 3 ∧ modelSum (fun _ _ => (1 : ℚ)) exPV.vars exTop = 3 := by
  decide +kernel

/-- FINDING: counting `1 or 2` over three variables: without `smooth_to_root` the result is 3, with it 24; there are 6 models. -/
theorem smooth_to_root_counterexample : depthFirst exLib true false (countFunc fun _ _ => (1 : ℚ)) exDisj = .ok 3 ∧
    depthFirst exLib true true (countFunc fun _ _ => (1 : ℚ)) exDisj = .ok 24 ∧ modelSum (fun _ _ => (1 : ℚ)) exPV.vars exDisj = 6 := by
  decide +kernel

/-- FINDING: the callback of `walk` cannot be used with `smooth_to_root`. -/
theorem smooth_to_root_walk_counterexample : depthFirst exLib true true (walkCallback (wmcSemi fun _ => some (1 / 2 : ℚ)).walker) exDisj = .error .attributeError := by
  decide +kernel

example : amcSmooth exLib true (wmcSemi fun _ => some (1 / 2 : ℚ)) exTop = .ok (modelSum (fun _ b => if b then 1 / 2 else 1 - 1 / 2) exLib.root.vars exTop) :=
  amc_smooth exLib_ok _ _ exTop_below (fun _ _ => rfl) true

example : depthFirst exLib true true (countFunc fun _ _ => (1 : ℚ)) .tt = .error .attributeError := by decide +kernel

end Pywmi
