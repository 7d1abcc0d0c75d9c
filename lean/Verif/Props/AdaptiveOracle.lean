import Verif.Props.Adaptive

set_option linter.unusedSectionVars false
set_option linter.unusedSimpArgs false

/-!
# C37, C38, C62, C63: what adaptive rejection asks its oracle, its probabilities, its scores and its total volume
-/

namespace Pywmi
open Formula Prog

section
variable {K : Type} [Field K] [LinearOrder K] [IsStrictOrderedRing K]

/-! ### C37 -/

/-- SPEC: the solver is right about satisfiability. -/
def SolveOk (K : Type) [Field K] [LinearOrder K] (solve : List Formula → Bool) : Prop :=
  ∀ fs, solve fs = true ↔ ∃ σ : Env K, ∀ f ∈ fs, truth σ f = true

/-- SPEC: a number is on a side of a split. -/
def onSide (p : ASplit) (x : K) : Prop := if p.2 then x ≤ (p.1.2 : K) else (p.1.2 : K) < x

theorem inCell_lower {bs : ABounds} (h : Wide bs) {sp : ℕ × ℚ} (hs : halves bs sp) (xs : List K) :
    (inCell (lowerBounds bs sp) xs ↔ inCell bs xs ∧ onSide (sp, true) (xs.getD sp.1 0)) ∧
    (inCell (upperBounds bs sp) xs ↔ inCell bs xs ∧ onSide (sp, false) (xs.getD sp.1 0)) := by
  obtain ⟨k1, k2⟩ := inCell_split h hs xs
  obtain ⟨b0, hb0, _⟩ := hs
  have l1 : inCell (lowerBounds bs sp) xs → xs.getD sp.1 0 ≤ (sp.2 : K) := fun hl => by
    have := (hl.2 sp.1 (b0.1, (sp.2, true)) (by simp [lowerBounds, List.getElem?_mapIdx, hb0])).2
    simpa using this
  have u1 : inCell (upperBounds bs sp) xs → (sp.2 : K) < xs.getD sp.1 0 := fun hl => by
    have := (hl.2 sp.1 ((sp.2, false), b0.2) (by simp [upperBounds, List.getElem?_mapIdx, hb0])).1
    simpa using this
  simp only [onSide, if_true, Bool.false_eq_true, if_false]
  refine ⟨⟨fun hl => ⟨k1.mpr (.inl hl), l1 hl⟩, fun ⟨hc, hx⟩ => ?_⟩, ⟨fun hu => ⟨k1.mpr (.inr hu), u1 hu⟩, fun ⟨hc, hx⟩ => ?_⟩⟩
  · exact (k1.mp hc).resolve_right fun hu => absurd (u1 hu) (not_lt.mpr hx)
  · exact (k1.mp hc).resolve_left fun hl => absurd (l1 hl) (not_le.mpr hx)

theorem path_subset {T : ATree K} : ∀ {path stale p st c}, (p, st, c) ∈ T.cells path stale → ∀ q ∈ path, q ∈ p := by
  induction T with
  | leaf c =>
    intro path stale p st c hc
    simp only [ATree.cells, List.mem_singleton, Prod.mk.injEq] at hc
    obtain ⟨rfl, _, _⟩ := hc
    exact fun q hq => hq
  | node c sp l r il ir =>
    intro path stale p st c hc q hq
    rcases List.mem_cons.mp hc with hc | hc
    · simp only [Prod.mk.injEq] at hc
      obtain ⟨rfl, _, _⟩ := hc
      exact hq
    · rcases List.mem_append.mp hc with hc | hc
      · exact il hc q (List.mem_cons_of_mem _ hq)
      · exact ir hc q (List.mem_cons_of_mem _ hq)

/-- The bounds of a node are the box cut by the splits on its path. -/
theorem Grown.pathBounds {B : ABuilder K} {rs : List String} {bs vol stk T stk'} (h : Grown B rs bs vol stk T stk') :
    Wide bs → ∀ path stale p st c, (p, st, c) ∈ T.cells path stale → ∀ xs : List K,
      (inCell c.bounds xs → inCell bs xs ∧ ∀ q ∈ p, q ∈ path ∨ onSide q (xs.getD q.1.1 0)) ∧
      (inCell bs xs → (∀ q ∈ p, onSide q (xs.getD q.1.1 0)) → inCell c.bounds xs) := by
  induction h with
  | stop hs =>
    intro _ path stale p st c hc xs
    simp only [ATree.cells, List.mem_singleton, Prod.mk.injEq] at hc
    obtain ⟨rfl, rfl, rfl⟩ := hc
    rw [hs.bounds]
    exact ⟨fun h => ⟨h, fun q hq => .inl hq⟩, fun h _ => h⟩
  | empty hs =>
    intro _ path stale p st c hc xs
    simp only [ATree.cells, List.mem_singleton, Prod.mk.injEq] at hc
    obtain ⟨rfl, rfl, rfl⟩ := hc
    rw [hs.bounds]
    exact ⟨fun h => ⟨h, fun q hq => .inl hq⟩, fun h _ => h⟩
  | @node bs vol stk c0 sp l r x stk1 stk2 hs _ _ _ hh g1 g2 ih1 ih2 =>
    intro hw path stale p st c hc xs
    obtain ⟨w1, w2⟩ := wide_halves hw hh
    obtain ⟨i1, i2⟩ := inCell_lower hw hh xs
    rcases List.mem_cons.mp hc with hc | hc
    · simp only [Prod.mk.injEq] at hc
      obtain ⟨rfl, rfl, rfl⟩ := hc
      rw [hs.bounds]
      exact ⟨fun h => ⟨h, fun q hq => .inl hq⟩, fun h _ => h⟩
    · rcases List.mem_append.mp hc with hc | hc
      · obtain ⟨a1, a2⟩ := ih1 w1 _ _ p st c hc xs
        refine ⟨fun h => ?_, fun h hp => a2 (i1.mpr ⟨h, hp (sp, true) (path_subset hc _ (by simp))⟩) hp⟩
        obtain ⟨b1, b2⟩ := a1 h
        obtain ⟨c1, c2⟩ := i1.mp b1
        refine ⟨c1, fun q hq => ?_⟩
        rcases b2 q hq with h | h
        · rcases List.mem_cons.mp h with rfl | h
          · exact .inr c2
          · exact .inl h
        · exact .inr h
      · obtain ⟨a1, a2⟩ := ih2 w2 _ _ p st c hc xs
        refine ⟨fun h => ?_, fun h hp => a2 (i2.mpr ⟨h, hp (sp, false) (path_subset hc _ (by simp))⟩) hp⟩
        obtain ⟨b1, b2⟩ := a1 h
        obtain ⟨c1, c2⟩ := i2.mp b1
        refine ⟨c1, fun q hq => ?_⟩
        rcases b2 q hq with h | h
        · rcases List.mem_cons.mp h with rfl | h
          · exact .inr c2
          · exact .inl h
        · exact .inr h

theorem Grown.asked {B : ABuilder K} {rs : List String} {bs vol stk T stk'} (h : Grown B rs bs vol stk T stk') :
    ∀ path stale, path.Sublist stk → (stale = false → stk = path) → (stale = true → ∃ sp, (sp, true) ∈ stk ∧ (sp, false) ∈ stk) →
      ∀ p st c, (p, st, c) ∈ T.cells path stale → (c.empty = true → ∃ q, c.asked = some q) ∧ ∀ q, c.asked = some q →
        p.Sublist q ∧ (st = false → q = p) ∧ (st = true → ∃ sp, (sp, true) ∈ q ∧ (sp, false) ∈ q) ∧
        askOracle B rs q = .ok (!c.empty) := by
  induction h with
  | stop _ _ he ha =>
    intro path stale h1 h2 h3 p st c hc
    simp only [ATree.cells, List.mem_singleton, Prod.mk.injEq] at hc
    obtain ⟨rfl, rfl, rfl⟩ := hc
    refine ⟨fun h => absurd h (by simp [he]), fun q hq => absurd hq (by simp [ha])⟩
  | empty _ _ he ha _ hk =>
    intro path stale h1 h2 h3 p st c hc
    simp only [ATree.cells, List.mem_singleton, Prod.mk.injEq] at hc
    obtain ⟨rfl, rfl, rfl⟩ := hc
    refine ⟨fun _ => ⟨_, ha⟩, fun q hq => ?_⟩
    rw [ha] at hq
    cases hq
    exact ⟨h1, h2, h3, by rw [he]; exact hk⟩
  | @node bs vol stk c0 sp l r x stk1 stk2 _ _ he ha hh g1 g2 ih1 ih2 =>
    intro path stale h1 h2 h3 p st c hc
    rcases List.mem_cons.mp hc with hc | hc
    · simp only [Prod.mk.injEq] at hc
      obtain ⟨rfl, rfl, rfl⟩ := hc
      refine ⟨fun h => absurd h (by simp [he]), fun q hq => ?_⟩
      rcases ha with ha | ⟨ha, hk⟩
      · rw [ha] at hq; cases hq
      · rw [ha] at hq
        cases hq
        exact ⟨h1, h2, h3, by rw [he]; exact hk⟩
    · rcases List.mem_append.mp hc with hc | hc
      · exact ih1 _ _ (List.Sublist.cons_cons _ h1) (fun h => by rw [h2 h]) (fun h => by
          obtain ⟨s, a, b⟩ := h3 h
          exact ⟨s, List.mem_cons_of_mem _ a, List.mem_cons_of_mem _ b⟩) p st c hc
      · obtain ⟨ext, hext, hl⟩ := g1.stack
        have hstk : (l.isNode = false → stk1 = stk) ∧ stk.Sublist stk1 ∧ (l.isNode = true → (sp, true) ∈ stk1) := by
          cases ext with
          | nil =>
            simp only [List.nil_append, List.cons.injEq] at hext
            have := hl.mp rfl
            refine ⟨fun _ => hext.2, by rw [hext.2], fun h => by rw [this] at h; cases h⟩
          | cons y e =>
            simp only [List.cons_append, List.cons.injEq] at hext
            refine ⟨fun h => ?_, ?_, fun _ => by rw [hext.2]; simp⟩
            · have := hl.mpr h; cases this
            · rw [hext.2]
              exact (List.sublist_cons_self _ _).trans (List.sublist_append_right _ _)
        obtain ⟨s1, s2, s3⟩ := hstk
        refine ih2 _ _ (List.Sublist.cons_cons _ (h1.trans s2)) (fun h => ?_) (fun h => ?_) p st c hc
        · obtain ⟨h, h'⟩ := Bool.or_eq_false_iff.mp h
          rw [s1 h', h2 h]
        · rcases Bool.or_eq_true_iff.mp h with h | h
          · obtain ⟨s, a, b⟩ := h3 h
            exact ⟨s, List.mem_cons_of_mem _ (s2.subset a), List.mem_cons_of_mem _ (s2.subset b)⟩
          · exact ⟨sp, List.mem_cons_of_mem _ (s3 h), by simp⟩

/-- **C37** (partial: the full claim is `∀ q, c.asked = some q → q = p` for every node; it fails for nodes whose path takes the side
`>` of a split whose side `<=` was split again, see `stale_declared_empty`): the stack always contains the splits of the path, in
order, and for all other nodes it is exactly the path. -/
theorem asked_path_partial {B : ABuilder K} {rs : List String} {bs : ABounds} (hB : BuilderOk B rs bs) {fuel : ℕ} {s : B.rng.State}
    {T : ATree K} {V : Option ℚ} {s' : B.rng.State} (h : buildRoot B fuel s = .ok (T, V, s'))
    {p : List ASplit} {stale : Bool} {c : ACell K} (hc : (p, stale, c) ∈ T.cells [] false) {q : List ASplit} (hq : c.asked = some q) :
    p.Sublist q ∧ (stale = false → q = p) := by
  obtain ⟨_, stk', g⟩ := buildRoot_grown hB h
  obtain ⟨a, b, _⟩ := (g.asked [] false (by simp) (by simp) (by simp) p stale c hc).2 q hq
  exact ⟨a, b⟩

/-- **C37, negation**: for every tree and support, a node whose path takes the side `>` of a split whose side `<=` was split again is
asked about with contradictory constraints: the stack is not the path, and a correct solver always answers that there is no
point, so the cell is declared empty. -/
theorem stale_declared_empty {B : ABuilder K} {rs : List String} {bs : ABounds} (hB : BuilderOk B rs bs) (hS : SolveOk K B.solve)
    {fuel : ℕ} {s : B.rng.State} {T : ATree K} {V : Option ℚ} {s' : B.rng.State} (h : buildRoot B fuel s = .ok (T, V, s'))
    {p : List ASplit} {c : ACell K} (hc : (p, true, c) ∈ T.cells [] false) {q : List ASplit} (hq : c.asked = some q) :
    c.empty = true := by
  obtain ⟨_, stk', g⟩ := buildRoot_grown hB h
  obtain ⟨_, _, b, k⟩ := (g.asked [] false (by simp) (by simp) (by simp) p true c hc).2 q hq
  obtain ⟨sp, m1, m2⟩ := b rfl
  cases he : c.empty with
  | true => rfl
  | false =>
    exfalso
    simp only [askOracle] at k
    cases hm : mapE (splitAssertion rs) q with
    | error e => rw [hm] at k; cases k
    | ok fs =>
      rw [hm] at k
      simp only [he, Bool.not_false, Except.ok.injEq] at k
      obtain ⟨σ, hσ⟩ := (hS _).mp k
      have hall : ∀ a ∈ q, ∃ f ∈ fs, splitAssertion rs a = .ok f := by
        intro a ha
        obtain ⟨i, hi, rfl⟩ := List.mem_iff_getElem.mp ha
        have hf := mapE_inv hm
        have hl := hf.length_eq
        exact ⟨fs[i]'(hl ▸ hi), List.getElem_mem _, (List.forall₂_iff_get.mp hf).2 i hi (hl ▸ hi)⟩
      obtain ⟨f1, hf1, e1⟩ := hall _ m1
      obtain ⟨f2, hf2, e2⟩ := hall _ m2
      simp only [splitAssertion] at e1 e2
      split at e1
      · cases e1
      · rename_i v hv
        simp only [hv, if_true, Bool.false_eq_true, if_false, Except.ok.injEq] at e1 e2
        subst e1; subst e2
        have t1 := hσ _ (List.mem_cons_of_mem _ hf1)
        have t2 := hσ _ (List.mem_cons_of_mem _ hf2)
        have u1 : σ.r v ≤ (sp.2 : K) := by simp only [truth, value] at t1; exact of_decide_eq_true t1
        have u2 : (sp.2 : K) < σ.r v := by simp only [truth, value] at t2; exact of_decide_eq_true t2
        exact absurd u1 (not_le.mpr u2)

/-- **C37** (partial, as `asked_path_partial`): with a correct solver, a cell that is declared empty contains no point of the
support, provided its path does not take the side `>` of a split whose side `<=` was split again. -/
theorem empty_cell_partial {B : ABuilder K} {rs : List String} {bs : ABounds} (hB : BuilderOk B rs bs) (hS : SolveOk K B.solve)
    {fuel : ℕ} {s : B.rng.State} {T : ATree K} {V : Option ℚ} {s' : B.rng.State} (h : buildRoot B fuel s = .ok (T, V, s'))
    {p : List ASplit} {c : ACell K} (hc : (p, false, c) ∈ T.cells [] false) (he : c.empty = true)
    (σ : Env K) (hσ : inCell c.bounds (rs.map σ.r)) : truth σ B.support = false := by
  obtain ⟨_, stk', g⟩ := buildRoot_grown hB h
  obtain ⟨h1, h2⟩ := g.asked [] false (by simp) (by simp) (by simp) p false c hc
  obtain ⟨q, hq⟩ := h1 he
  obtain ⟨_, e, _, k⟩ := h2 q hq
  have := e rfl
  subst this
  have hpath := (((g.pathBounds hB.wide [] false q false c hc (rs.map σ.r)).1 hσ).2)
  cases ht : truth σ B.support with
  | false => rfl
  | true =>
    exfalso
    simp only [askOracle] at k
    cases hm : mapE (splitAssertion rs) q with
    | error e => rw [hm] at k; cases k
    | ok fs =>
      rw [hm] at k
      simp only [he, Bool.not_true, Except.ok.injEq] at k
      have : B.solve (B.support :: fs) = true := (hS _).mpr ⟨σ, ?_⟩
      · rw [k] at this; cases this
      · intro f hf
        rcases List.mem_cons.mp hf with rfl | hf
        · exact ht
        · obtain ⟨i, hi, rfl⟩ := List.mem_iff_getElem.mp hf
          have hF := mapE_inv hm
          have hl := hF.length_eq
          have e1 := (List.forall₂_iff_get.mp hF).2 i (hl ▸ hi) hi
          simp only [List.get_eq_getElem] at e1
          generalize fs[i] = f at e1 ⊢
          have hs := (hpath (q[i]'(hl ▸ hi)) (List.getElem_mem _)).resolve_left (by simp)
          generalize q[i]'(hl ▸ hi) = a at e1 hs
          simp only [splitAssertion] at e1
          split at e1
          · cases e1
          · rename_i v hv
            have hx : (rs.map σ.r).getD a.1.1 0 = σ.r v := by
              simp [List.getD_eq_getElem?_getD, List.getElem?_map, hv]
            rw [hx] at hs
            simp only [onSide] at hs
            split_ifs at e1 hs with hb
            · cases e1; simp only [truth, value]; exact decide_eq_true hs
            · cases e1; simp only [truth, value]; exact decide_eq_true hs

/-! ### C38 -/

/-- **C38, negation**: without weight (or with weight 1) the probability of every query is 1, whatever the query. -/
theorem probability_ignores_query {B : ABuilder K} {rs : List String} {bs : ABounds} (hB : BuilderOk B rs bs) {fuel : ℕ} {s0 : B.rng.State}
    {T : ATree K} {V : Option ℚ} {s : B.rng.State} (h : buildRoot B fuel s0 = .ok (T, V, s)) {weight : Option Formula}
    (hw : weight = none ∨ weight = some (.realC 1)) (query : Formula) (n : ℕ) :
    (∃ T' s', adaptiveProbability B rs (cellVolume bs) weight query n T s = .ok (1, T', s')) ∨
    adaptiveProbability B rs (cellVolume bs) weight query n T s = .error .zeroDivision := by
  obtain ⟨_, stk', g⟩ := buildRoot_grown hB h
  have hlen : bs.length = rs.length := (builderBounds_spec hB.reals hB.bounds).length_eq.symm
  have hV := (cellVolume_pos hB.wide).ne'
  obtain ⟨v, T', s', e1, e2, _, e4, _, _⟩ := treeVolume_spec hB hV (some n) g hlen hB.wide none s
  obtain ⟨v', T'', s'', f1, _, _, f4, _, f6⟩ := treeVolume_spec hB hV none e2 hlen hB.wide (some query) s'
  obtain ⟨rfl, rfl⟩ := f6 rfl
  have hvv : v' = v := by
    have hVK : ((cellVolume bs : ℚ) : K) ≠ 0 := by exact_mod_cast hV
    exact_mod_cast mul_right_cancel₀ hVK (f4.trans e4.symm)
  have hp : properWeight weight = none := by rcases hw with rfl | rfl <;> simp [properWeight]
  simp only [adaptiveProbability, e1, hp, f1, hvv]
  split_ifs with h0
  · exact .inr rfl
  · refine .inl ⟨T'', s'', ?_⟩
    simp [div_self h0]

/-- **C38** (partial: only for a weight other than 1, see `probability_ignores_query`): the probability is the estimate of the
weighted volume of support and query over the estimate of the weighted volume of the support, on the same samples. -/
theorem probability_partial {B : ABuilder K} {rs : List String} {bs : ABounds} (hB : BuilderOk B rs bs) {fuel : ℕ} {s0 : B.rng.State}
    {T : ATree K} {V : Option ℚ} {s : B.rng.State} (h : buildRoot B fuel s0 = .ok (T, V, s)) {w : Formula} (hw1 : w ≠ .realC 1)
    (hw : wt .real w = true) (hsw : ∀ p ∈ syms w, p.1 ∈ B.domain.vars) {query : Formula} (hq : wt .bool query = true)
    (hsq : ∀ p ∈ syms query, p.1 ∈ B.domain.vars) (n : ℕ) :
    ∃ T' s', SameCells T T' ∧ (∀ c ∈ T'.leaves, c.empty = false → n ≤ c.samples.length) ∧
      adaptiveProbability B rs (cellVolume bs) (some w) query n T s =
        if treeEstimate B (some w) (.boolC true) T' = 0 then .error .zeroDivision
        else .ok (treeEstimate B (some w) query T' / treeEstimate B (some w) (.boolC true) T', T', s') := by
  obtain ⟨_, stk', g⟩ := buildRoot_grown hB h
  have hlen : bs.length = rs.length := (builderBounds_spec hB.reals hB.bounds).length_eq.symm
  have hV := (cellVolume_pos hB.wide).ne'
  have hVK : ((cellVolume bs : ℚ) : K) ≠ 0 := by exact_mod_cast hV
  obtain ⟨v, T', s', e1, e2, e3, e4, e5, _⟩ := treeVolume_spec hB hV (some n) g hlen hB.wide none s
  obtain ⟨a, a1, a2⟩ := treeWeighted_spec hB hV hw hsw (query := some query) (by rintro q ⟨⟩; exact ⟨hq, hsq⟩) e2
  obtain ⟨b, b1, b2⟩ := treeWeighted_spec hB hV hw hsw (query := none) (by simp) e2
  refine ⟨T', s', e3, e5 n rfl, ?_⟩
  simp only [queryCond] at a2 b2
  have hp : properWeight (some w) = some w := by simp [properWeight, hw1]
  simp only [adaptiveProbability, e1, hp, a1, b1, ← a2, ← b2, mul_eq_zero, hVK, or_false]
  split_ifs with h0
  · rfl
  · rw [mul_div_mul_right _ _ hVK]

/-! ### C63 -/

/-- The product of the widths over the dictionary of bounds. -/
theorem cellVolume_box {D : Domain} (hD : BoxOk D) {rs : List String} {bs : ABounds} (hr : D.realVars = .ok rs)
    (hb : builderBounds D = .ok bs) : cellVolume bs = boxVolume D 1 := by
  have hf := builderBounds_spec hr hb
  have hrs : rs = D.vars.filter fun v => D.varTypes.lookup v = some .real := by
    have := hD.wf.realVars
    rw [hr] at this
    exact Except.ok.inj this
  let width : String → ℚ := fun v => match D.varDomains.lookup v with
    | some b => b.2.getD 0 - b.1.getD 0
    | none => 0
  have h1 : cellVolume bs = (rs.map width).prod := by
    have : bs.map (fun b => b.2.1 - b.1.1) = rs.map width := by
      clear hrs hb hr
      induction hf with
      | nil => rfl
      | @cons v b rs bs h _ ih =>
        rw [List.map_cons, List.map_cons, ih]
        simp [width, h]
    rw [cellVolume, this]
  have h2 : D.varDomains.map (fun b => b.2.2.getD 0 - b.2.1.getD 0) = (D.varDomains.map (·.1)).map width := by
    rw [List.map_map]
    refine List.map_congr_left fun p hp => ?_
    simp [width, lookup_mem_nodup hD.wf.domNodup (show (p.1, p.2) ∈ D.varDomains from hp)]
  rw [boxVolume, mul_one, h1, h2]
  refine (List.Perm.map _ ?_).prod_eq
  refine (List.perm_ext_iff_of_nodup (hrs ▸ hD.wf.nodup.filter _) hD.wf.domNodup).mpr fun v => ?_
  rw [hD.wf.mem_real, hrs]

/-- **C63** (partial: Boolean variables are not counted): for a valid support and no weight, `compute_volume` is the volume of the
box of the real variables, for every outcome of the generator, so it is the volume of the domain only when there are no
Boolean variables. -/
theorem volume_of_valid_partial {B : ABuilder K} {rs : List String} {bs : ABounds} (hB : BuilderOk B rs bs)
    (hvalid : ∀ σ : Env K, truth σ B.support = true) {fuel : ℕ} {s0 : B.rng.State}
    {T : ATree K} {V : Option ℚ} {s : B.rng.State} (h : buildRoot B fuel s0 = .ok (T, V, s)) (n : ℕ) :
    ∃ T' s', adaptiveVolume B rs (cellVolume bs) none n T s = .ok ((boxVolume B.domain 1 : ℚ), T', s') := by
  obtain ⟨_, stk', g⟩ := buildRoot_grown hB h
  have hlen : bs.length = rs.length := (builderBounds_spec hB.reals hB.bounds).length_eq.symm
  have hV := (cellVolume_pos hB.wide).ne'
  obtain ⟨v, T', s', e1, e2, e3, e4, e5, _⟩ := treeVolume_spec hB hV (some n) g hlen hB.wide none s
  obtain ⟨_, p3⟩ := e2.cellVol rfl
  have hfull : ∀ {bs vol stk T stk'}, Grown B rs bs vol stk T stk' → ∀ c ∈ T.leaves, leafEstimate B none (.boolC true) c = (c.volume : K) := by
    intro bs vol stk T stk' g
    induction g with
    | @stop bs vol stk c hs _ he _ =>
      intro c' hc'
      simp only [ATree.leaves, List.mem_singleton] at hc'
      subst hc'
      have hc : (c'.samples.length : K) ≠ 0 := by
        have := hs.count
        have := hB.count
        exact_mod_cast (by omega : c'.samples.length ≠ 0)
      have : c'.labels = List.replicate c'.samples.length true := by
        rw [hs.labels]
        simp only [hvalid, List.map_const']
      rw [leafEstimate_plain hs he, this]
      simp [countTrue, div_self hc]
    | @empty bs vol stk c hs _ _ _ h0 _ =>
      exfalso
      rw [hs.labels, countTrue_map] at h0
      simp only [hvalid, List.filter_true] at h0
      have := hs.count
      have := hB.count
      omega
    | node _ _ _ _ _ _ _ ih1 ih2 =>
      intro c hc
      rcases List.mem_append.mp hc with hc | hc
      · exact ih1 c hc
      · exact ih2 c hc
  refine ⟨T', s', ?_⟩
  simp only [adaptiveVolume, e1, properWeight, ← cellVolume_box hB.box hB.reals hB.bounds]
  congr 3
  have : (v : K) * ((cellVolume bs : ℚ) : K) = ((cellVolume bs : ℚ) : K) := by
    rw [e4, treeEstimate, List.map_congr_left (hfull e2), ← p3]
    generalize T'.leaves = L
    induction L with
    | nil => simp
    | cons a L ih => simp [ih]
  exact_mod_cast this

/-! ### C62 -/

/-- SPEC: the counts of a split on a variable: accepted and rejected samples on the side `<=`, then on the side `>`. -/
def splitCounts (D : Domain) (support : Formula) (v : String) (x : ℚ) (samples : List (List K)) : ℕ × ℕ × ℕ × ℕ :=
  let side : List K → Bool := fun row => truth (rowEnv D.vars row) (.le (.sym v .real) (.realC x))
  let acc : List K → Bool := fun row => truth (rowEnv D.vars row) support
  ((samples.filter fun row => side row && acc row).length, (samples.filter fun row => side row && !acc row).length,
    (samples.filter fun row => !side row && acc row).length, (samples.filter fun row => !side row && !acc row).length)

theorem countTrue_zip {α : Type} (rows : List α) (p q : α → Bool) :
    countTrue ((rows.map p).zipWith (· && ·) (rows.map q)) = (rows.filter fun r => p r && q r).length := by
  induction rows with
  | nil => rfl
  | cons a rows ih =>
    simp only [countTrue, List.map_cons, List.zipWith_cons_cons, List.filter_cons, id] at ih ⊢
    split_ifs
    · rw [List.length_cons, List.length_cons, ih]
    · exact ih

/-- **C62** (partial: only when the real variables come first in the domain, see `gain_wrong_column`): the information gain of a split
on the `i`-th real variable counts the samples on the two sides of that split. -/
theorem gainCounts_partial {D : Domain} {support : Formula} {i : ℕ} {v : String}
    (hcol : D.vars.idxOf v = i) (x : ℚ) (samples : List (List K)) :
    gainCounts samples (samples.map fun row => truth (rowEnv D.vars row) support) i x = splitCounts D support v x samples := by
  have hside : ∀ row : List K, truth (rowEnv D.vars row) (.le (.sym v .real) (.realC x)) = decide (row.getD i 0 ≤ (x : K)) := by
    intro row; simp [truth, value, rowEnv, hcol]
  have htot : ∀ (p q : List K → Bool), (samples.filter q).length - (samples.filter fun r => p r && q r).length =
      (samples.filter fun r => !p r && q r).length := by
    intro p q
    have : (samples.filter q).length = (samples.filter fun r => p r && q r).length + (samples.filter fun r => !p r && q r).length := by
      induction samples with
      | nil => rfl
      | cons a l ih =>
        simp only [List.filter_cons]
        cases p a <;> cases q a <;> simp [ih] <;> omega
    omega
  have hneg : samples.length - (samples.filter fun row => truth (rowEnv D.vars row) support).length =
      (samples.filter fun row => !truth (rowEnv D.vars row) support).length := by
    have := htot (fun row => truth (rowEnv D.vars row) support) (fun _ => true)
    simpa using this
  simp only [gainCounts, splitCounts, hside, List.map_map, Function.comp_def, countTrue_zip, countTrue_map, List.length_map, hneg,
    Prod.mk.injEq, true_and]
  exact ⟨htot _ _, htot _ _⟩

end

/-! ### Concrete cases -/

/-- One real variable. -/
def unitDomain : Domain := ⟨["x"], [("x", .real)], [("x", some 0, some 1)]⟩

theorem unitDomain_box : BoxOk unitDomain where
  wf := by refine ⟨by decide, by decide, fun v => ?_, by decide, fun v => ?_⟩ <;> simp [unitDomain]
  box v b h := by
    simp only [unitDomain, List.lookup] at h
    split at h
    · simp only [Option.some.injEq] at h
      exact ⟨_, _, h.symm, by norm_num⟩
    · cases h

/-- The support `x ≤ 1/8 or 3/4 < x`. -/
def twoEnds : Formula := .or [.le (.sym "x" .real) (.realC (1/8)), .lt (.realC (3/4)) (.sym "x" .real)]

/-- One sample per node, depth at most two. -/
def unitBuilder (solve : List Formula → Bool) : ABuilder ℚ :=
  ⟨cycleRng, ratPow, unitDomain, twoEnds, solve, fun _ _ d => decide (2 ≤ d), fun _ _ _ _ => 0, 1⟩

/-- The hypotheses of the theorems are met. -/
theorem unitBuilder_ok (solve : List Formula → Bool) : BuilderOk (unitBuilder solve) ["x"] [((0, true), (1, true))] where
  rng := cycleRng_ok
  pow := ratPow_ok
  box := unitDomain_box
  wt := by rfl
  syms := show ∀ p ∈ syms twoEnds, p.1 ∈ unitDomain.vars by decide +kernel
  count := show 0 < 1 by decide
  reals := by rfl
  bounds := by rfl
  wide := by simp [Wide]
  some := by simp

/-- A correct solver exists. -/
theorem solveOk_exists : ∃ solve, SolveOk ℚ solve := by
  classical
  exact ⟨fun fs => decide (∃ σ : Env ℚ, ∀ f ∈ fs, truth σ f = true), fun fs => by simp⟩

/-- The tree is built, with a depth of at most two. -/
example (solve : List Formula → Bool) (s : ℕ) : ∃ T s' stk', buildRoot (unitBuilder solve) 3 s =
    .ok (T, some (cellVolume [((0, true), (1, true))]), s') ∧
    Grown (unitBuilder solve) ["x"] [((0, true), (1, true))] (cellVolume [((0, true), (1, true))]) [] T stk' :=
  buildRoot_ok (unitBuilder_ok solve) (d := 2) (fun _ _ k h => by simpa [unitBuilder] using h) (by norm_num) s

section
variable {K : Type} [Field K] [LinearOrder K]

theorem buildTree_leaf {B : ABuilder K} {rs : List String} {V vol : ℚ} {fuel : ℕ} {dom : Domain} {bs : ABounds} {depth : ℕ}
    {s : B.rng.State} {stk : List ASplit} {rows s1 labels} (e1 : uniform B.rng dom B.count none s = .ok (rows, s1))
    (e2 : evalMask B.pypow B.domain B.support rows = .ok labels) (hc : B.count ≠ 0) (hV : V ≠ 0)
    (hst : ∀ r v, B.stop r v depth = true) :
    buildTree B rs (some V) (fuel + 1) dom bs (some vol) depth s stk = .ok (.leaf ⟨rows, labels, vol, bs, false, none⟩, s1, stk) := by
  simp only [buildTree, e1, e2, if_neg hc, if_neg hV, hst, if_true]

theorem buildTree_empty {B : ABuilder K} {rs : List String} {V vol : ℚ} {fuel : ℕ} {dom : Domain} {bs : ABounds} {depth : ℕ}
    {s : B.rng.State} {stk : List ASplit} {rows s1 labels} (e1 : uniform B.rng dom B.count none s = .ok (rows, s1))
    (e2 : evalMask B.pypow B.domain B.support rows = .ok labels) (hc : B.count ≠ 0) (hV : V ≠ 0)
    (hst : ∀ r v, B.stop r v depth = false) (h0 : countTrue labels = 0) (hk : askOracle B rs stk = .ok false) :
    buildTree B rs (some V) (fuel + 1) dom bs (some vol) depth s stk = .ok (.leaf ⟨rows, labels, vol, bs, true, some stk⟩, s1, stk) := by
  simp only [buildTree, e1, e2, if_neg hc, if_neg hV, hst, if_true, h0, hk, Bool.false_eq_true, if_false, gt_iff_lt, lt_self_iff_false]

theorem buildTree_split {B : ABuilder K} {rs : List String} {V vol : ℚ} {fuel : ℕ} {dom : Domain} {bs : ABounds} {depth : ℕ}
    {s : B.rng.State} {stk : List ASplit} {rows s1 labels} (e1 : uniform B.rng dom B.count none s = .ok (rows, s1))
    (e2 : evalMask B.pypow B.domain B.support rows = .ok labels) (hc : B.count ≠ 0) (hV : V ≠ 0)
    (hst : ∀ r v, B.stop r v depth = false) (h0 : 0 < countTrue labels) {sp q}
    (hb : bestSplit (fun i v lb ub => if countTrue labels < B.count then B.score rows labels i v
                    else ((ub - lb : ℚ) : K)) bs 0 none = some (sp, q)) {l s2 x stk1}
    (hl : buildTree B rs (some V) fuel (cellDomain B.domain rs (lowerBounds bs sp)) (lowerBounds bs sp) (some (vol / 2)) (depth + 1) s1
                      ((sp, true) :: stk) = .ok (l, s2, x :: stk1)) {r s3 stk2}
    (hr : buildTree B rs (some V) fuel (cellDomain B.domain rs (upperBounds bs sp)) (upperBounds bs sp) (some (vol / 2)) (depth + 1) s2
                      ((sp, false) :: stk1) = .ok (r, s3, stk2)) :
    buildTree B rs (some V) (fuel + 1) dom bs (some vol) depth s stk =
      .ok (.node ⟨rows, labels, vol, bs, false, none⟩ sp l r, s3, stk2) := by
  have h0' : countTrue labels > 0 := h0
  simp only [buildTree, e1, e2, if_neg hc, if_neg hV, hst, if_true, if_pos h0', Bool.false_eq_true, if_false, hb, hl, popSplit, hr]

end

theorem unit_mask (solve : List Formula → Bool) (x : ℚ) {b : Bool} (h : truth (rowEnv ["x"] [x]) twoEnds = b) :
    evalMask (unitBuilder solve).pypow (unitBuilder solve).domain (unitBuilder solve).support [[x]] = .ok [b] := by
  rw [evalMask_ok (unitBuilder_ok solve).pow (unitBuilder_ok solve).box.wf (unitBuilder_ok solve).wt (unitBuilder_ok solve).syms]
  simp only [List.map_cons, List.map_nil]
  rw [← h]
  rfl

theorem unit_uniform (l u : ℚ) (a b : Bool) (s : ℕ) :
    uniform cycleRng (cellDomain unitDomain ["x"] [((l, a), (u, b))]) 1 none s = .ok ([[l + ((s % 4 : ℕ) : ℚ) / 4 * (u - l)]], s + 1) := by
  rfl

/-- **C37, negation**: a run with a correct solver in which the cell `(1/2, 1]` is declared empty although its point `9/10` satisfies
the support. -/
theorem empty_cell_wrong {solve : List Formula → Bool} (hS : SolveOk ℚ solve) :
    ∃ T V s', buildRoot (unitBuilder solve) 3 (0 : ℕ) = .ok (T, V, s') ∧
      ∃ c ∈ T.leaves, c.empty = true ∧ inCell c.bounds [(9/10 : ℚ)] ∧ truth (rowEnv ["x"] [(9/10 : ℚ)]) twoEnds = true := by
  have hk : askOracle (unitBuilder solve) ["x"] [((0, 1/2), false), ((0, 1/2), true)] = .ok false := by
    have : askOracle (unitBuilder solve) ["x"] [((0, 1/2), false), ((0, 1/2), true)] =
        .ok (solve [twoEnds, .lt (.realC (1/2)) (.sym "x" .real), .le (.sym "x" .real) (.realC (1/2))]) := rfl
    rw [this]
    congr 1
    cases hs : solve [twoEnds, .lt (.realC (1/2)) (.sym "x" .real), .le (.sym "x" .real) (.realC (1/2))] with
    | false => rfl
    | true =>
      obtain ⟨σ, hσ⟩ := (hS _).mp hs
      have h1 := hσ (.lt (.realC (1/2)) (.sym "x" .real)) (by simp)
      have h2 := hσ (.le (.sym "x" .real) (.realC (1/2))) (by simp)
      simp only [truth, value] at h1 h2
      have h1 := of_decide_eq_true h1
      have h2 := of_decide_eq_true h2
      exact absurd h2 (not_le.mpr h1)
  have hcount : (unitBuilder solve).count ≠ 0 := one_ne_zero
  have l1 := buildTree_leaf (B := unitBuilder solve) (rs := ["x"]) (V := 1) (vol := 1/2/2) (fuel := 0) (bs := [((0, true), (1/4, true))]) (depth := 2)
    (dom := cellDomain unitDomain ["x"] [((0, true), (1/4, true))]) (s := (2 : ℕ)) (stk := [((0, 1/4), true), ((0, 1/2), true)])
    (unit_uniform _ _ _ _ _) (unit_mask solve _ (b := true) (by decide +kernel)) hcount one_ne_zero (fun _ _ => rfl)
  have l2 := buildTree_leaf (B := unitBuilder solve) (rs := ["x"]) (V := 1) (vol := 1/2/2) (fuel := 0) (bs := [((1/4, false), (1/2, true))]) (depth := 2)
    (dom := cellDomain unitDomain ["x"] [((1/4, false), (1/2, true))]) (s := (3 : ℕ)) (stk := [((0, 1/4), false), ((0, 1/2), true)])
    (unit_uniform _ _ _ _ _) (unit_mask solve _ (b := false) (by decide +kernel)) hcount one_ne_zero (fun _ _ => rfl)
  have n1 := buildTree_split (B := unitBuilder solve) (rs := ["x"]) (V := 1) (vol := 1/2) (fuel := 1) (bs := [((0, true), (1/2, true))]) (depth := 1)
    (dom := cellDomain unitDomain ["x"] [((0, true), (1/2, true))]) (s := (1 : ℕ)) (stk := [((0, 1/2), true)])
    (unit_uniform _ _ _ _ _) (unit_mask solve _ (b := true) (by decide +kernel)) hcount one_ne_zero (fun _ _ => rfl) (by decide)
    (sp := (0, 1/4)) (q := 1/2)
    (show bestSplit (fun _ _ lb ub => if countTrue [true] < 1 then 0 else ((ub - lb : ℚ) : ℚ)) [((0, true), (1/2, true))] 0 none = some ((0, 1/4), 1/2)
      by decide +kernel) l1 l2
  have l3 := buildTree_empty (B := unitBuilder solve) (rs := ["x"]) (V := 1) (vol := 1/2) (fuel := 1) (bs := [((1/2, false), (1, true))]) (depth := 1)
    (dom := cellDomain unitDomain ["x"] [((1/2, false), (1, true))]) (s := (4 : ℕ)) (stk := [((0, 1/2), false), ((0, 1/2), true)])
    (unit_uniform _ _ _ _ _) (unit_mask solve _ (b := false) (by decide +kernel)) hcount one_ne_zero (fun _ _ => rfl) (by decide) hk
  have n0 := buildTree_split (B := unitBuilder solve) (rs := ["x"]) (V := 1) (vol := 1) (fuel := 2) (bs := [((0, true), (1, true))]) (depth := 0)
    (dom := cellDomain unitDomain ["x"] [((0, true), (1, true))]) (s := (0 : ℕ)) (stk := [])
    (unit_uniform _ _ _ _ _) (unit_mask solve _ (b := true) (by decide +kernel)) hcount one_ne_zero (fun _ _ => rfl) (by decide)
    (sp := (0, 1/2)) (q := 1)
    (show bestSplit (fun _ _ lb ub => if countTrue [true] < 1 then 0 else ((ub - lb : ℚ) : ℚ)) [((0, true), (1, true))] 0 none = some ((0, 1/2), 1)
      by decide +kernel) n1 l3
  have hroot : ∀ {T s stk}, buildTree (unitBuilder solve) ["x"] (some 1) 3 (cellDomain unitDomain ["x"] [((0, true), (1, true))])
      [((0, true), (1, true))] (some 1) 0 (0 : ℕ) [] = .ok (T, s, stk) → buildRoot (unitBuilder solve) 3 (0 : ℕ) = .ok (T, some 1, s) := by
    intro T s stk h
    have hv : boundsVolume [((0, true), (1, true))] = some 1 := by decide +kernel
    have hd : (unitBuilder solve).domain = cellDomain unitDomain ["x"] [((0, true), (1, true))] := rfl
    simp only [buildRoot, (unitBuilder_ok solve).reals, (unitBuilder_ok solve).bounds, hv]
    rw [hd, h]
  refine ⟨_, _, _, hroot n0, ?_⟩
  · refine ⟨_, by simp only [ATree.leaves]; exact List.mem_append_right _ (List.mem_singleton.mpr rfl), rfl, ?_, by decide +kernel⟩
    refine ⟨rfl, fun i b hb => ?_⟩
    cases i with
    | zero =>
      simp only [List.getElem?_cons_zero, Option.some.injEq] at hb
      subst hb
      simp [inSide]
      norm_num
    | succ i => simp at hb

/-- **C62, negation**: with a Boolean variable before the real one, the information gain of a split on the real variable counts
the sides of the Boolean column. -/
theorem gain_wrong_column : gainCounts (K := ℚ) [[1, 1/4], [0, 3/4]] [true, false] 0 (1/2) ≠
    splitCounts (K := ℚ) ⟨["a", "x"], [("a", .bool), ("x", .real)], [("x", some 0, some 1)]⟩ (.sym "a" .bool) "x" (1/2)
      [[1, 1/4], [0, 3/4]] := by decide +kernel

/-- A builder over the concrete domain with two Booleans, for the support `true`. -/
def fullBuilder : ABuilder ℚ :=
  ⟨cycleRng, ratPow, sampleDomain, .boolC true, fun _ => true, fun _ _ d => decide (1 ≤ d), fun _ _ _ _ => 0, 2⟩

theorem fullBuilder_ok : BuilderOk fullBuilder ["x", "y"] [((0, true), (10, true)), ((-5, true), (1/2, true))] where
  rng := cycleRng_ok
  pow := ratPow_ok
  box := sampleDomain_box
  wt := by rfl
  syms := by simp [fullBuilder, syms]
  count := by decide
  reals := by rfl
  bounds := by rfl
  wide := by
    intro b hb
    simp only [List.mem_cons, List.not_mem_nil, or_false] at hb
    rcases hb with rfl | rfl <;> norm_num
  some := by simp

/-- **C63, negation**: for the support `true` over two Booleans and a box of volume 55, the reported volume is 55 although the volume
of the domain is 220; whatever the generator yields and however many samples are asked for. -/
theorem volume_without_booleans (s0 n : ℕ) : sampleDomain.getVolume = .ok (some 220) ∧ ∃ T V s T' s',
    buildRoot fullBuilder 2 s0 = .ok (T, V, s) ∧
    adaptiveVolume fullBuilder ["x", "y"] (cellVolume [((0, true), (10, true)), ((-5, true), (1/2, true))]) none n T s = .ok (55, T', s') := by
  refine ⟨by decide +kernel, ?_⟩
  obtain ⟨T, s', stk', h, _⟩ := buildRoot_ok fullBuilder_ok (d := 1) (fun _ _ k h => by simpa [fullBuilder] using h) (fuel := 2) (by norm_num) s0
  obtain ⟨T', s'', h'⟩ := volume_of_valid_partial fullBuilder_ok (fun σ => by simp [fullBuilder, truth]) h n
  refine ⟨T, _, s', T', s'', h, ?_⟩
  have hv : boxVolume fullBuilder.domain 1 = 55 := by decide +kernel
  rw [h', hv]
  rfl

/-- Without real variables the builder raises a TypeError. -/
theorem boolean_domain_raises : (buildRoot { fullBuilder with domain := ⟨["a"], [("a", .bool)], []⟩ } 2 (0 : ℕ)).toOption.isNone = true ∧
    buildRoot { fullBuilder with domain := ⟨["a"], [("a", .bool)], []⟩ } 2 (0 : ℕ) = .error .typeError := by
  constructor <;> rfl

/-- With fewer than ten samples the default number of samples per node is `int(sample_count / 10) = 0` and the builder divides by
zero. -/
theorem few_samples_raise : buildRoot { fullBuilder with count := 9 / 10 } 2 (0 : ℕ) = .error .zeroDivision := by rfl

end Pywmi
