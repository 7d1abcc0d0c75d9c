import Verif.Props.AdaptiveOracle

set_option linter.unusedSectionVars false
set_option linter.unusedSimpArgs false

/-!
# C67: the stopping criterion of adaptive rejection
-/

namespace Pywmi

section
variable {K : Type} [Field K] [LinearOrder K] [IsStrictOrderedRing K]

/-- SPEC: the nodes that were split, with their depths below a root at depth `k`. -/
def ATree.inner : ATree K → ℕ → List (ACell K × ℕ)
  | .leaf _, _ => []
  | .node c _ l r, k => (c, k) :: (l.inner (k + 1) ++ r.inner (k + 1))

/-- SPEC: the leaves with their depths. -/
def ATree.outer : ATree K → ℕ → List (ACell K × ℕ)
  | .leaf c, k => [(c, k)]
  | .node _ _ l r, k => l.outer (k + 1) ++ r.outer (k + 1)

/-- SPEC: the number of splits on a longest path. -/
def ATree.height : ATree K → ℕ
  | .leaf _ => 0
  | .node _ _ l r => max l.height r.height + 1

/-- SPEC: the part of the samples of a cell that the support accepts. -/
def ACell.ratio (c : ACell K) (n : ℕ) : ℚ := (countTrue c.labels : ℚ) / n

theorem buildTree_decisions {B : ABuilder K} {rs : List String} {V : ℚ} :
    ∀ (fuel : ℕ) {dom : Domain} {bs : ABounds} {vol : ℚ} {depth : ℕ} {s : B.rng.State} {stk : List ASplit} {T : ATree K} {s' : B.rng.State}
      {stk' : List ASplit}, buildTree B rs (some V) fuel dom bs (some vol) depth s stk = .ok (T, s', stk') →
      (∀ x ∈ T.inner depth, B.stop (x.1.ratio B.count) (x.1.volume / V) x.2 = false) ∧
      (∀ x ∈ T.outer depth, x.1.empty = false → B.stop (x.1.ratio B.count) (x.1.volume / V) x.2 = true) ∧
      (∀ x ∈ T.outer depth, x.1.empty = true → B.stop (x.1.ratio B.count) (x.1.volume / V) x.2 = false ∧ countTrue x.1.labels = 0) ∧
      (∀ x ∈ T.inner depth ++ T.outer depth, x.1.volume = vol * 2 ^ depth / 2 ^ x.2) := by
  intro fuel
  induction fuel with
  | zero => intro dom bs vol depth s stk T s' stk' h; simp [buildTree] at h
  | succ fuel ih =>
    intro dom bs vol depth s stk T s' stk' h
    have hv0 : vol = vol * 2 ^ depth / 2 ^ depth := by field_simp
    rw [buildTree] at h
    split at h
    · simp at h
    · split at h
      · simp at h
      · split at h
        · simp at h
        · dsimp only at h
          split at h
          · simp at h
          · split at h
            · rename_i hst
              cases h
              refine ⟨by simp [ATree.inner], ?_, ?_, ?_⟩
              · simp only [ATree.outer, List.mem_singleton, forall_eq]
                exact fun _ => hst
              · simp [ATree.outer]
              · simp [ATree.outer, ATree.inner]
            · rename_i hst
              have hst := Bool.eq_false_iff.mpr hst
              split at h
              · simp at h
              · rename_i asked hask
                cases h
                refine ⟨by simp [ATree.inner], by simp [ATree.outer], ?_, ?_⟩
                · simp only [ATree.outer, List.mem_singleton, forall_eq]
                  refine fun _ => ⟨hst, ?_⟩
                  by_contra h0
                  rw [if_pos (Nat.pos_of_ne_zero h0)] at hask
                  cases hask
                · simp [ATree.outer, ATree.inner]
              · split at h
                · simp at h
                · split at h
                  · simp at h
                  · rename_i l s2 stk1 hl
                    split at h
                    · simp at h
                    · split at h
                      · simp at h
                      · rename_i r s3 stk3 hr
                        cases h
                        obtain ⟨l1, l2, l3, l4⟩ := ih hl
                        obtain ⟨r1, r2, r3, r4⟩ := ih hr
                        have hv1 : vol / 2 * 2 ^ (depth + 1) = vol * 2 ^ depth := by rw [pow_succ]; ring
                        refine ⟨?_, ?_, ?_, ?_⟩
                        · intro x hx
                          simp only [ATree.inner, List.mem_cons, List.mem_append] at hx
                          rcases hx with rfl | hx | hx
                          · exact hst
                          · exact l1 x hx
                          · exact r1 x hx
                        · intro x hx
                          simp only [ATree.outer, List.mem_append] at hx
                          exact hx.elim (l2 x) (r2 x)
                        · intro x hx
                          simp only [ATree.outer, List.mem_append] at hx
                          exact hx.elim (l3 x) (r3 x)
                        · intro x hx
                          simp only [ATree.inner, ATree.outer, List.mem_append, List.mem_cons] at hx
                          rw [hv1] at l4 r4
                          simp only [List.mem_append] at l4 r4
                          rcases hx with (rfl | hx | hx) | hx | hx
                          · exact hv0
                          · exact l4 x (.inl hx)
                          · exact r4 x (.inl hx)
                          · exact l4 x (.inr hx)
                          · exact r4 x (.inr hx)

theorem ATree.height_le {d : ℕ} : ∀ (T : ATree K) (k : ℕ), k ≤ d → (∀ x ∈ T.inner k, x.2 < d) → k + T.height ≤ d
  | .leaf _, k, hk, _ => by simpa [ATree.height] using hk
  | .node c sp l r, k, _, h => by
    have hk : k < d := h (c, k) (by simp [ATree.inner])
    have h1 := ATree.height_le l (k + 1) hk fun x hx => h x (by simp [ATree.inner, hx])
    have h2 := ATree.height_le r (k + 1) hk fun x hx => h x (by simp [ATree.inner, hx])
    simp only [ATree.height]
    omega

theorem ATree.leaves_height : ∀ T : ATree K, T.leaves.length ≤ 2 ^ T.height
  | .leaf _ => by simp [ATree.leaves, ATree.height]
  | .node _ _ l r => by
    have h1 := ATree.leaves_height l
    have h2 := ATree.leaves_height r
    have h3 := Nat.pow_le_pow_right (n := 2) (by omega) (le_max_left l.height r.height)
    have h4 := Nat.pow_le_pow_right (n := 2) (by omega) (le_max_right l.height r.height)
    simp only [ATree.leaves, ATree.height, List.length_append, pow_succ]
    omega

theorem buildRoot_decisions {B : ABuilder K} {rs : List String} {bs : ABounds} (hB : BuilderOk B rs bs) {fuel : ℕ} {s : B.rng.State}
    {T : ATree K} {V : Option ℚ} {s' : B.rng.State} (h : buildRoot B fuel s = .ok (T, V, s')) :
      (∀ x ∈ T.inner 0, B.stop (x.1.ratio B.count) (1 / 2 ^ x.2) x.2 = false) ∧
      (∀ x ∈ T.outer 0, x.1.empty = false → B.stop (x.1.ratio B.count) (1 / 2 ^ x.2) x.2 = true) ∧
      (∀ x ∈ T.outer 0, x.1.empty = true → B.stop (x.1.ratio B.count) (1 / 2 ^ x.2) x.2 = false ∧ countTrue x.1.labels = 0) := by
  have hV := cellVolume_pos hB.wide
  simp only [buildRoot, hB.reals, hB.bounds, boundsVolume_eq hB.some] at h
  split at h
  · cases h
  · rename_i h'
    cases h
    obtain ⟨h1, h2, h3, h4⟩ := buildTree_decisions fuel h'
    have key : ∀ x ∈ T.inner 0 ++ T.outer 0, x.1.volume / cellVolume bs = 1 / 2 ^ x.2 := fun x hx => by
      rw [h4 x hx]
      field_simp
    simp only [List.mem_append] at key
    exact ⟨fun x hx => key x (.inl hx) ▸ h1 x hx, fun x hx => key x (.inr hx) ▸ h2 x hx, fun x hx => key x (.inr hx) ▸ h3 x hx⟩

/-- C67: with the criterion that `make_stop_criterion(max_ratio, min_volume, max_depth)` makes, a cell was split only if its depth is
below `max_depth`, its part of the volume of the box above `min_volume` and its part of accepted samples below `max_ratio`; a
leaf meets one of the three limits or has no accepted sample and was declared empty.  So the tree has at most `max_depth` levels of splits and
two to the `max_depth` leaves. -/
theorem tree_stops {B : ABuilder K} {rs : List String} {bs : ABounds} (hB : BuilderOk B rs bs) {ratio minVol : Option ℚ} {maxDepth : Option ℕ}
    (hstop : B.stop = stopCriterion ratio minVol maxDepth) {fuel : ℕ} {s : B.rng.State}
    {T : ATree K} {V : Option ℚ} {s' : B.rng.State} (h : buildRoot B fuel s = .ok (T, V, s')) :
    (∀ c k, (c, k) ∈ T.inner 0 →
      (∀ d, maxDepth = some d → k < d) ∧ (∀ m, minVol = some m → m < 1 / 2 ^ k) ∧ ∀ r, ratio = some r → c.ratio B.count < r) ∧
    (∀ c k, (c, k) ∈ T.outer 0 → (c.empty = true ∧ countTrue c.labels = 0) ∨
      (∃ d, maxDepth = some d ∧ d ≤ k) ∨ (∃ m, minVol = some m ∧ 1 / 2 ^ k ≤ m) ∨ ∃ r, ratio = some r ∧ r ≤ c.ratio B.count) ∧
    ∀ d, maxDepth = some d → T.height ≤ d ∧ T.leaves.length ≤ 2 ^ d := by
  obtain ⟨h1, h2, h3⟩ := buildRoot_decisions hB h
  have hin : ∀ c k, (c, k) ∈ T.inner 0 →
      (∀ d, maxDepth = some d → k < d) ∧ (∀ m, minVol = some m → m < 1 / 2 ^ k) ∧ ∀ r, ratio = some r → c.ratio B.count < r := by
    intro c k hck
    have := h1 _ hck
    rw [hstop] at this
    simp only [stopCriterion, Bool.or_eq_false_iff] at this
    obtain ⟨⟨a1, a2⟩, a3⟩ := this
    refine ⟨fun d hd => ?_, fun m hm => ?_, fun r hr => ?_⟩
    · subst hd; simpa using a3
    · subst hm; simpa using a2
    · subst hr; simpa using a1
  refine ⟨hin, fun c k hck => ?_, fun d hd => ?_⟩
  · cases he : c.empty with
    | true => exact .inl ⟨rfl, (h3 _ hck he).2⟩
    | false =>
      have := h2 _ hck he
      rw [hstop] at this
      simp only [stopCriterion, Bool.or_eq_true] at this
      refine .inr ?_
      rcases this with (a | a) | a
      · refine .inr (.inr ?_)
        cases ratio with
        | none => simp at a
        | some r => exact ⟨r, rfl, by simpa using a⟩
      · refine .inr (.inl ?_)
        cases minVol with
        | none => simp at a
        | some r => exact ⟨r, rfl, by simpa using a⟩
      · refine .inl ?_
        cases maxDepth with
        | none => simp at a
        | some r => exact ⟨r, rfl, by simpa using a⟩
  · have h5 := ATree.height_le (d := d) T 0 (Nat.zero_le _) fun x hx => (hin x.1 x.2 hx).1 d hd
    rw [Nat.zero_add] at h5
    exact ⟨h5, (ATree.leaves_height T).trans (Nat.pow_le_pow_right (by omega) h5)⟩

/-- C67: the builder returns when there is a limit on the depth, or a positive limit on the volume: volumes are halved. -/
theorem tree_terminates {B : ABuilder K} {rs : List String} {bs : ABounds} (hB : BuilderOk B rs bs) {ratio minVol : Option ℚ} {maxDepth : Option ℕ}
    (hstop : B.stop = stopCriterion ratio minVol maxDepth) (hlim : maxDepth ≠ none ∨ ∃ m, minVol = some m ∧ 0 < m) :
    ∃ fuel, ∀ fuel' ≥ fuel, ∀ s : B.rng.State, ∃ T V s', buildRoot B fuel' s = .ok (T, V, s') := by
  have : ∃ d : ℕ, ∀ (r : ℚ) (k : ℕ), d ≤ k → B.stop r (1 / 2 ^ k) k = true := by
    rw [hstop]
    rcases hlim with h | ⟨m, rfl, hm⟩
    · obtain ⟨d, rfl⟩ := Option.ne_none_iff_exists'.mp h
      exact ⟨d, fun r k hk => by simp [stopCriterion, hk]⟩
    · obtain ⟨d, hd⟩ := exists_pow_lt_of_lt_one hm (show (1 / 2 : ℚ) < 1 by norm_num)
      refine ⟨d, fun r k hk => ?_⟩
      have h1 : (1 / 2 : ℚ) ^ k ≤ (1 / 2) ^ d := pow_le_pow_of_le_one (by norm_num) (by norm_num) hk
      have h2 : (1 / 2 ^ k : ℚ) ≤ m := by rw [← one_div_pow]; exact h1.trans hd.le
      simp only [stopCriterion, Bool.or_eq_true, decide_eq_true_eq]
      exact .inl (.inr h2)
  obtain ⟨d, hd⟩ := this
  refine ⟨d + 1, fun fuel' hf s => ?_⟩
  obtain ⟨T, s', _, h, _⟩ := buildRoot_halving hB hd (fuel := fuel') hf s
  exact ⟨T, _, s', h⟩

end

/-- EXAMPLE: the default criterion. -/
def defaultBuilder (solve : List Formula → Bool) : ABuilder ℚ := { unitBuilder solve with stop := stopCriterion (some (1/2)) none (some 6) }

theorem defaultBuilder_ok (solve : List Formula → Bool) : BuilderOk (defaultBuilder solve) ["x"] [((0, true), (1, true))] where
  rng := cycleRng_ok
  pow := ratPow_ok
  box := unitDomain_box
  wt := (unitBuilder_ok solve).wt
  syms := (unitBuilder_ok solve).syms
  count := show 0 < 1 by decide
  reals := by rfl
  bounds := by rfl
  wide := by simp [Wide]
  some := by simp

/-- The hypotheses are met: with the default criterion a tree is built and has at most 64 leaves. -/
example (solve : List Formula → Bool) (s : ℕ) : ∃ fuel T V s', buildRoot (defaultBuilder solve) fuel s = .ok (T, V, s') ∧ T.height ≤ 6 ∧
    T.leaves.length ≤ 64 := by
  obtain ⟨fuel, h⟩ := tree_terminates (ratio := some (1/2)) (minVol := none) (maxDepth := some 6) (defaultBuilder_ok solve) rfl (.inl (by simp))
  obtain ⟨T, V, s', h'⟩ := h fuel le_rfl s
  obtain ⟨-, -, h3⟩ := tree_stops (ratio := some (1/2)) (minVol := none) (maxDepth := some 6) (defaultBuilder_ok solve) rfl h'
  exact ⟨fuel, T, V, s', h', h3 6 rfl⟩

end Pywmi
