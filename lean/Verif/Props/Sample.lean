import Verif.Sample.Sample
import Verif.Props.Domain
import Verif.Props.Check
import Mathlib.Analysis.SpecialFunctions.Pow.Real

set_option linter.unusedSectionVars false
set_option linter.unusedSimpArgs false

/-!
# C31 – C35: sampling and rejection
-/

namespace Pywmi
open Formula Prog

theorem mapE_ok {α β : Type} {f : α → Except PyErr β} {P : α → β → Prop} {as : List α}
    (h : ∀ a ∈ as, ∃ b, f a = .ok b ∧ P a b) : ∃ bs, mapE f as = .ok bs ∧ List.Forall₂ P as bs := by
  induction as with
  | nil => exact ⟨[], rfl, .nil⟩
  | cons a as ih =>
    obtain ⟨b, hb, hp⟩ := h a (by simp)
    obtain ⟨bs, hbs, hps⟩ := ih fun x hx => h x (by simp [hx])
    exact ⟨b :: bs, by simp [mapE, hb, hbs], .cons hp hps⟩

section
variable {K : Type} [Field K] [LinearOrder K] [IsStrictOrderedRing K]

/-- What numpy promises about the generator. -/
structure RngOk (R : Rng K) : Prop where
  low : ∀ s, 0 ≤ (R.next s).1
  high : ∀ s, (R.next s).1 < 1
  choose : ∀ s n, 0 < n → (R.choose s n).1 < n

/-- SPEC: a well-formed domain in which every real variable has an interval. -/
structure BoxOk (D : Domain) : Prop where
  wf : D.WF
  box : ∀ v b, D.varDomains.lookup v = some b → ∃ l u, b = (some l, some u) ∧ l ≤ u

/-- SPEC: a value is a value of a variable: 0 or 1, or inside the interval. -/
def entryOk (D : Domain) (v : String) (x : K) : Prop :=
  (D.varTypes.lookup v = some .bool → x = 0 ∨ x = 1) ∧
  (D.varTypes.lookup v = some .real → ∀ l u, D.varDomains.lookup v = some (some l, some u) → (l : K) ≤ x ∧ x ≤ (u : K))

/-- SPEC: a row has one value per variable. -/
def rowOk (D : Domain) (row : List K) : Prop := List.Forall₂ (entryOk D) D.vars row

theorem drawRow_spec {R : Rng K} (hR : RngOk R) (m : ℕ) (s : R.State) :
    (drawRow R m s).1.length = m ∧ ∀ x ∈ (drawRow R m s).1, 0 ≤ x ∧ x < 1 := by
  induction m generalizing s with
  | zero => exact ⟨rfl, by simp [drawRow]⟩
  | succ m ih =>
    obtain ⟨h1, h2⟩ := ih (R.next s).2
    refine ⟨by simp [drawRow, h1], ?_⟩
    intro x hx
    rcases List.mem_cons.mp hx with rfl | hx
    · exact ⟨hR.low s, hR.high s⟩
    · exact h2 x hx

theorem drawRows_spec {R : Rng K} (hR : RngOk R) (m n : ℕ) (s : R.State) :
    (drawRows R m n s).1.length = n ∧ ∀ row ∈ (drawRows R m n s).1, row.length = m ∧ ∀ x ∈ row, 0 ≤ x ∧ x < 1 := by
  induction n generalizing s with
  | zero => exact ⟨rfl, by simp [drawRows]⟩
  | succ n ih =>
    obtain ⟨h1, h2⟩ := ih (drawRow R m s).2
    refine ⟨by simp [drawRows, h1], ?_⟩
    intro row hrow
    rcases List.mem_cons.mp hrow with rfl | hrow
    · exact drawRow_spec hR m s
    · exact h2 row hrow

theorem columnMap_spec {D : Domain} (hD : BoxOk D) {v : String} (hv : v ∈ D.vars) :
    ∃ f : K → K, columnMap D v = .ok f ∧ ∀ x, 0 ≤ x → x < 1 → entryOk D v (f x) := by
  obtain ⟨t, ht⟩ := lookup_of_key ((hD.wf.types v).mpr hv)
  cases t with
  | bool =>
    refine ⟨fun r => if r < 1 / 2 then 1 else 0, by simp only [columnMap, dictGet, ht], fun x _ _ => ⟨fun _ => ?_, fun h => ?_⟩⟩
    · by_cases h : x < 1 / 2
      · exact .inr (if_pos h)
      · exact .inl (if_neg h)
    · rw [ht] at h; cases h
  | real =>
    obtain ⟨b, hb⟩ := lookup_of_key ((hD.wf.doms v).mpr (mem_of_dictGet ht))
    obtain ⟨l, u, rfl, hlu⟩ := hD.box v b hb
    refine ⟨fun r => (l : K) + r * ((u : K) - (l : K)), by simp only [columnMap, dictGet, ht, hb], fun x h0 h1 => ⟨fun h => ?_, fun _ l' u' h' => ?_⟩⟩
    · rw [ht] at h; cases h
    · rw [hb] at h'
      simp only [Option.some.injEq, Prod.mk.injEq] at h'
      obtain ⟨rfl, rfl⟩ := h'
      have : (0 : K) ≤ (u : K) - (l : K) := sub_nonneg.mpr (Rat.cast_le.mpr hlu)
      constructor
      · exact le_add_of_nonneg_right (mul_nonneg h0 this)
      · calc (l : K) + x * ((u : K) - (l : K)) ≤ (l : K) + 1 * ((u : K) - (l : K)) := by gcongr
          _ = u := by ring

theorem rowOk_zipWith {D : Domain} {vs : List String} {fs : List (K → K)} {row : List K}
    (hf : List.Forall₂ (fun v f => ∀ x, 0 ≤ x → x < 1 → entryOk D v (f x)) vs fs) (hl : row.length = vs.length)
    (hx : ∀ x ∈ row, 0 ≤ x ∧ x < 1) : List.Forall₂ (entryOk D) vs (List.zipWith (fun f x => f x) fs row) := by
  induction hf generalizing row with
  | nil => exact .nil
  | cons h _ ih =>
    cases row with
    | nil => simp at hl
    | cons x row =>
      exact .cons (h x (hx x (by simp)).1 (hx x (by simp)).2) (ih (by simpa using hl) fun y hy => hx y (by simp [hy]))

/-- SPEC: exactly one variable of the group is 1 in the row, the others are 0. -/
def oneHot (D : Domain) (row : List K) (g : List String) : Prop :=
  ∃ v ∈ g, row[D.vars.idxOf v]? = some 1 ∧ ∀ w ∈ g, w ≠ v → row[D.vars.idxOf w]? = some 0

theorem rowOk_set {D : Domain} {row : List K} (h : rowOk D row) {v : String}
    (hb : D.varTypes.lookup v = some .bool) {x : K} (hx : x = 0 ∨ x = 1) : rowOk D (row.set (D.vars.idxOf v) x) := by
  rw [rowOk, List.forall₂_iff_get] at h ⊢
  obtain ⟨h1, h2⟩ := h
  refine ⟨by simpa using h1, fun i hi hi' => ?_⟩
  simp only [List.get_eq_getElem, List.getElem_set]
  split_ifs with he
  · have : D.vars[i] = v := by simp only [← he, List.getElem_idxOf]
    rw [this]
    exact ⟨fun _ => hx, fun h => by rw [hb] at h; cases h⟩
  · exact h2 i hi (by simpa using hi')

theorem zeros_spec {D : Domain} (g : List String) (hg : ∀ v ∈ g, v ∈ D.vars ∧ D.varTypes.lookup v = some .bool) :
    ∀ row : List K, rowOk D row →
      rowOk D ((g.map D.vars.idxOf).foldl (fun r x => r.set x 0) row) ∧
      (∀ v ∈ g, ((g.map D.vars.idxOf).foldl (fun r x => r.set x 0) row)[D.vars.idxOf v]? = some 0) ∧
      ∀ w ∈ D.vars, w ∉ g → ((g.map D.vars.idxOf).foldl (fun r x => r.set x 0) row)[D.vars.idxOf w]? = row[D.vars.idxOf w]? := by
  induction g using List.reverseRecOn with
  | nil => intro row h; exact ⟨h, by simp, by simp⟩
  | append_singleton g v ih =>
    intro row h
    obtain ⟨h1, h2, h3⟩ := ih (fun w hw => hg w (by simp [hw])) row h
    obtain ⟨hv, hb⟩ := hg v (by simp)
    simp only [List.map_append, List.map_singleton, List.foldl_append, List.foldl_cons, List.foldl_nil]
    set row' := (g.map D.vars.idxOf).foldl (fun r x => r.set x 0) row with hrow'
    have hlen : row'.length = D.vars.length := (List.Forall₂.length_eq h1).symm
    have hiv : D.vars.idxOf v < row'.length := by rw [hlen]; exact List.idxOf_lt_length_iff.mpr hv
    refine ⟨rowOk_set h1 hb (.inl rfl), ?_, ?_⟩
    · intro w hw
      by_cases e : w = v
      · subst e; rw [List.getElem?_set_self hiv]
      · have hw' : w ∈ g := by simpa [e] using hw
        have hwv := (hg w (by simp [hw'])).1
        rw [List.getElem?_set_ne (fun he => e ((List.idxOf_inj hwv).mp he.symm)), h2 w hw']
    · intro w hw hn
      simp only [List.mem_append, List.mem_singleton, not_or] at hn
      rw [List.getElem?_set_ne (fun he => hn.2 ((List.idxOf_inj hw).mp he.symm)), h3 w hw hn.1]

theorem oheGroup_spec {R : Rng K} (hR : RngOk R) {D : Domain} {g : List String} (hne : g ≠ [])
    (hg : ∀ v ∈ g, v ∈ D.vars ∧ D.varTypes.lookup v = some .bool) {row : List K} (h : rowOk D row) (s : R.State) :
    ∃ row' s', oheGroup R row (g.map D.vars.idxOf) s = .ok (row', s') ∧ rowOk D row' ∧ oneHot D row' g ∧
      ∀ w ∈ D.vars, w ∉ g → row'[D.vars.idxOf w]? = row[D.vars.idxOf w]? := by
  obtain ⟨h1, h2, h3⟩ := zeros_spec g hg row h
  have hpos : 0 < (g.map D.vars.idxOf).length := by rw [List.length_map]; exact List.length_pos_iff.mpr hne
  have hc := hR.choose s _ hpos
  have hc' : (R.choose s (g.map D.vars.idxOf).length).1 < g.length := by simpa using hc
  set c := R.choose s (g.map D.vars.idxOf).length with hcdef
  have hget : (g.map D.vars.idxOf).getD c.1 0 = D.vars.idxOf g[c.1] := by
    rw [List.getD_eq_getElem?_getD, List.getElem?_map, List.getElem?_eq_getElem hc']
    rfl
  have hmem : g[c.1] ∈ g := List.getElem_mem hc'
  obtain ⟨hv, hb⟩ := hg _ hmem
  set row0 := (g.map D.vars.idxOf).foldl (fun r x => r.set x 0) row with hrow0
  have hlen : row0.length = D.vars.length := (List.Forall₂.length_eq h1).symm
  have hiv : D.vars.idxOf g[c.1] < row0.length := by rw [hlen]; exact List.idxOf_lt_length_iff.mpr hv
  refine ⟨row0.set (D.vars.idxOf g[c.1]) 1, c.2, ?_, rowOk_set h1 hb (.inr rfl), ⟨g[c.1], hmem, ?_, ?_⟩, ?_⟩
  · have : g.map D.vars.idxOf ≠ [] := by simpa using hne
    simp only [oheGroup, if_neg this, ← hcdef, hget, ← hrow0]
  · rw [List.getElem?_set_self hiv]
  · intro w hw hne'
    rw [List.getElem?_set_ne (fun he => hne' ((List.idxOf_inj (hg w hw).1).mp he.symm)), h2 w hw]
  · intro w hw hn
    rw [List.getElem?_set_ne (fun he => hn (by rw [(List.idxOf_inj hw).mp he.symm]; exact hmem)), h3 w hw hn]

/-- SPEC: one-hot groups: non-empty, of Boolean variables of the domain, without overlaps. -/
structure GroupsOk (D : Domain) (groups : List (List String)) : Prop where
  nonempty : ∀ g ∈ groups, g ≠ []
  bool : ∀ g ∈ groups, ∀ v ∈ g, v ∈ D.vars ∧ D.varTypes.lookup v = some .bool
  disjoint : groups.Pairwise fun g g' => ∀ v ∈ g, v ∉ g'

theorem oheRow_spec {R : Rng K} (hR : RngOk R) {D : Domain} {groups : List (List String)} (hg : GroupsOk D groups) :
    ∀ (row : List K) (s : R.State), rowOk D row →
    ∃ row' s', oheRow R (groups.map fun g => g.map D.vars.idxOf) row s = .ok (row', s') ∧ rowOk D row' ∧
      (∀ g ∈ groups, oneHot D row' g) ∧
      ∀ w ∈ D.vars, (∀ g ∈ groups, w ∉ g) → row'[D.vars.idxOf w]? = row[D.vars.idxOf w]? := by
  induction groups with
  | nil => intro row s h; exact ⟨row, s, rfl, h, by simp, by simp⟩
  | cons g gs ih =>
    intro row s h
    have hdis := List.pairwise_cons.mp hg.disjoint
    obtain ⟨r1, s1, a1, a2, a3, a4⟩ := oheGroup_spec hR (hg.nonempty g (by simp)) (hg.bool g (by simp)) h s
    obtain ⟨r2, s2, b1, b2, b3, b4⟩ := ih ⟨fun g' h' => hg.nonempty g' (by simp [h']),
      fun g' h' => hg.bool g' (by simp [h']), hdis.2⟩ r1 s1 a2
    refine ⟨r2, s2, by simp only [List.map_cons, oheRow, a1, b1], b2, ?_, ?_⟩
    · intro g' hg'
      rcases List.mem_cons.mp hg' with rfl | hg'
      · obtain ⟨v, hv, e1, e2⟩ := a3
        have keep : ∀ w ∈ g', r2[D.vars.idxOf w]? = r1[D.vars.idxOf w]? := fun w hw =>
          b4 w (hg.bool g' (by simp) w hw).1 fun g'' hg'' => hdis.1 g'' hg'' w hw
        exact ⟨v, hv, by rw [keep v hv, e1], fun w hw hne => by rw [keep w hw, e2 w hw hne]⟩
      · exact b3 g' hg'
    · intro w hw hn
      rw [b4 w hw fun g' h' => hn g' (by simp [h']), a4 w hw (hn g (by simp))]

theorem oheRows_spec {R : Rng K} (hR : RngOk R) {D : Domain} {groups : List (List String)} (hg : GroupsOk D groups)
    (rows : List (List K)) : ∀ s : R.State, (∀ row ∈ rows, rowOk D row) →
    ∃ rows' s', oheRows R (groups.map fun g => g.map D.vars.idxOf) rows s = .ok (rows', s') ∧ rows'.length = rows.length ∧
      ∀ row ∈ rows', rowOk D row ∧ ∀ g ∈ groups, oneHot D row g := by
  induction rows with
  | nil => intro s _; exact ⟨[], s, rfl, rfl, by simp⟩
  | cons row rows ih =>
    intro s h
    obtain ⟨r1, s1, a1, a2, a3, -⟩ := oheRow_spec hR hg row s (h row (by simp))
    obtain ⟨rs, s2, b1, b2, b3⟩ := ih s1 fun r hr => h r (by simp [hr])
    refine ⟨r1 :: rs, s2, by simp only [oheRows, a1, b1], by simp [b2], ?_⟩
    intro r hr
    rcases List.mem_cons.mp hr with rfl | hr
    · exact ⟨a2, a3⟩
    · exact b3 r hr

/-- **C31**: `uniform` returns the requested number of rows, each with one value per variable, 0 or 1 for Booleans and
inside the interval for reals; with one-hot groups, exactly one variable of each group is 1.  For every outcome of the
generator. -/
theorem uniform_correct {R : Rng K} (hR : RngOk R) {D : Domain} (hD : BoxOk D) (n : ℕ) (s : R.State) :
    (∃ rows s', uniform R D n none s = .ok (rows, s') ∧ rows.length = n ∧ ∀ row ∈ rows, rowOk D row) ∧
    ∀ groups, GroupsOk D groups → ∃ rows s', uniform R D n (some groups) s = .ok (rows, s') ∧ rows.length = n ∧
      ∀ row ∈ rows, rowOk D row ∧ ∀ g ∈ groups, oneHot D row g := by
  obtain ⟨fs, hf, hfs⟩ := mapE_ok (f := columnMap (K := K) D) (as := D.vars) fun v hv => columnMap_spec hD hv
  obtain ⟨l1, l2⟩ := drawRows_spec hR D.vars.length n s
  have hrows : ∀ row ∈ (drawRows R D.vars.length n s).1.map (fun row => List.zipWith (fun f x => f x) fs row), rowOk D row := by
    intro row hrow
    obtain ⟨r, hr, rfl⟩ := List.mem_map.mp hrow
    exact rowOk_zipWith hfs (l2 r hr).1 (l2 r hr).2
  constructor
  · exact ⟨_, (drawRows R D.vars.length n s).2, by simp only [uniform, hf], by simp [l1], hrows⟩
  · intro groups hg
    have hidx : mapE (oheIndex D) groups = .ok (groups.map fun g => g.map D.vars.idxOf) := by
      have hone : ∀ g : List String, (∀ v ∈ g, v ∈ D.vars) → oheIndex D g = .ok (g.map D.vars.idxOf) := by
        intro g hg
        unfold oheIndex
        induction g with
        | nil => rfl
        | cons v g ih => simp [mapE, hg v (by simp), ih fun w hw => hg w (by simp [hw])]
      have hall : ∀ gs : List (List String), (∀ g ∈ gs, ∀ v ∈ g, v ∈ D.vars) →
          mapE (oheIndex D) gs = .ok (gs.map fun g => g.map D.vars.idxOf) := by
        intro gs hgs
        induction gs with
        | nil => rfl
        | cons g gs ih => simp [mapE, hone g (hgs g (by simp)), ih fun g' h' => hgs g' (by simp [h'])]
      exact hall groups fun g hg' v hv => (hg.bool g hg' v hv).1
    obtain ⟨rows', s', e1, e2, e3⟩ := oheRows_spec hR hg _ (drawRows R D.vars.length n s).2 hrows
    exact ⟨rows', s', by simp only [uniform, hf, hidx, e1], by rw [e2]; simp [l1], e3⟩

/-! ### C32 -/

theorem wsAdvance_spec {V : Type} (rest : List (K × V)) : ∀ (x w : K) (v : V), (∀ p ∈ rest, 0 ≤ p.1) → 0 ≤ w → 0 ≤ x →
    x ≤ w + (rest.map (·.1)).sum →
    ∃ k x' w' v' rest', wsAdvance x w v rest = .ok (x', w', v', rest') ∧ 0 ≤ x' ∧ x' ≤ w' ∧
      w' + (rest'.map (·.1)).sum - x' = w + (rest.map (·.1)).sum - x ∧ (0 < x → 0 < x') ∧
      ((w, v) :: rest).drop k = (w', v') :: rest' ∧ (x = 0 → k = 0) := by
  induction rest with
  | nil =>
    intro x w v _ _ hx hs
    simp only [List.map_nil, List.sum_nil, add_zero] at hs
    exact ⟨0, x, w, v, [], by simp [wsAdvance, not_lt.mpr hs], hx, hs, rfl, id, rfl, fun _ => rfl⟩
  | cons p rest ih =>
    obtain ⟨w1, v1⟩ := p
    intro x w v hr hw hx hs
    by_cases h : x > w
    · obtain ⟨k, x', w', v', rest', e1, e2, e3, e4, e5, e6, -⟩ := ih (x - w) w1 v1 (fun q hq => hr q (by simp [hq]))
        (hr (w1, v1) (by simp)) (sub_nonneg.mpr h.le) (by
          simp only [List.map_cons, List.sum_cons] at hs
          linarith)
      refine ⟨k + 1, x', w', v', rest', by simp only [wsAdvance, if_pos h, e1], e2, e3, ?_, fun _ => e5 (sub_pos.mpr h), ?_, ?_⟩
      · rw [e4]; simp only [List.map_cons, List.sum_cons]; ring
      · simpa using e6
      · intro h0; subst h0; exact absurd h (not_lt.mpr hw)
    · exact ⟨0, x, w, v, _, by simp only [wsAdvance, if_neg h], hx, not_lt.mp h, rfl, id, rfl, fun _ => rfl⟩

/-- What is known about `root`, the `1/n`-th power. -/
def RootOk (root : ℕ → K → K) : Prop := ∀ n u, 0 ≤ u → u < 1 → 0 ≤ root (n + 1) u ∧ root (n + 1) u < 1

theorem wsLoop_spec {V : Type} {R : Rng K} (hR : RngOk R) {root : ℕ → K → K} (hroot : RootOk root)
    {weights : List K} {values : List V} (hw : ∀ w ∈ weights, 0 ≤ w) : ∀ (n : ℕ) (total w w0 : K) (v : V) (rest : List (K × V))
      (s : R.State) (i : ℕ), (weights.zip values).drop i = (w0, v) :: rest → 0 ≤ w → w ≤ w0 → 
      total = w + (rest.map (·.1)).sum → (total = 0 → w0 = 0 → ∀ p ∈ rest, p.1 = 0) →
    ∃ vs s' is, wsLoop R root n total w v rest s = .ok (vs, s') ∧ is.length = n ∧ List.Pairwise (· ≤ ·) (i :: is) ∧
      List.Forall₂ (fun j v => values[j]? = some v) is vs ∧
      ((0 < total ∨ 0 < w0) → ∀ j ∈ is, ∃ q, weights[j]? = some q ∧ 0 < q) := by
  intro n
  induction n with
  | zero =>
    intro total w w0 v rest s i _ _ _ _ _
    exact ⟨[], s, [], rfl, rfl, by simp, .nil, by simp⟩
  | succ n ih =>
    intro total w w0 v rest s i hdrop hw0 hww htot hz
    have hroot' := hroot n (R.next s).1 (hR.low s) (hR.high s)
    have hrest : ∀ p ∈ rest, 0 ≤ p.1 := by
      intro p hp
      have : p ∈ weights.zip values := List.mem_of_mem_drop (by rw [hdrop]; simp [hp])
      exact hw _ (List.of_mem_zip this).1
    have hsum : 0 ≤ (rest.map (·.1)).sum := List.sum_nonneg (by
      intro q hq
      obtain ⟨p, hp, rfl⟩ := List.mem_map.mp hq
      exact hrest p hp)
    have htot0 : 0 ≤ total := by rw [htot]; exact add_nonneg hw0 hsum
    set x := total * (1 - root (n + 1) (R.next s).1) with hx
    have hx0 : 0 ≤ x := mul_nonneg htot0 (by linarith [hroot'.2])
    have hxt : x ≤ total := by
      calc x ≤ total * 1 := mul_le_mul_of_nonneg_left (by linarith [hroot'.1]) htot0
        _ = total := mul_one _
    obtain ⟨k, x', w', v', rest', e1, e2, e3, e4, e5, e6, e7⟩ := wsAdvance_spec rest x w v hrest hw0 hx0 (by rw [← htot]; exact hxt)
    -- the entry we moved to
    have hd : ∃ w0', (weights.zip values).drop (i + k) = (w0', v') :: rest' ∧ w' ≤ w0' ∧ (0 < w' → 0 < w0') ∧ (k = 0 → w0' = w0) := by
      cases k with
      | zero =>
        simp only [List.drop_zero, List.cons.injEq, Prod.mk.injEq] at e6
        obtain ⟨⟨rfl, rfl⟩, rfl⟩ := e6
        exact ⟨w0, hdrop, hww, fun h => lt_of_lt_of_le h hww, fun _ => rfl⟩
      | succ k =>
        simp only [List.drop_succ_cons] at e6
        refine ⟨w', ?_, le_refl _, id, by simp⟩
        rw [← List.drop_drop, hdrop, List.drop_succ_cons, e6]
    obtain ⟨w0', d1, d2, d3, d4⟩ := hd
    have hval : values[i + k]? = some v' ∧ weights[i + k]? = some w0' := by
      have : (weights.zip values)[i + k]? = some (w0', v') := by
        have h := congrArg (fun l => l[0]?) d1
        simpa [List.getElem?_drop] using h
      rw [List.getElem?_zip_eq_some] at this
      exact ⟨this.2, this.1⟩
    obtain ⟨vs, s', is, f1, f2, f3, f4, f5⟩ := ih (total - x) (w' - x') w0' v' rest' (R.next s).2 (i + k) d1
      (sub_nonneg.mpr e3) (by linarith) (by rw [htot]; linarith) (by
        intro ht0 hw00 p hp
        by_cases htp : 0 < total
        · have hxp : 0 < x := mul_pos htp (by linarith [hroot'.2])
          have := d3 (lt_of_lt_of_le (e5 hxp) e3)
          rw [hw00] at this; exact absurd this (lt_irrefl _)
        · have htz : total = 0 := le_antisymm (not_lt.mp htp) htot0
          have hxz : x = 0 := by rw [hx, htz, zero_mul]
          have hk := e7 hxz
          subst hk
          simp only [List.drop_zero, List.cons.injEq] at e6
          rw [← e6.2] at hp
          exact hz htz (by rw [← d4 rfl]; exact hw00) p hp)
    refine ⟨v' :: vs, s', (i + k) :: is, ?_, by simp [f2], ?_, .cons hval.1 f4, ?_⟩
    · simp only [wsLoop, ← hx, e1, f1]
    · refine List.pairwise_cons.mpr ⟨?_, f3⟩
      intro j hj
      rcases List.mem_cons.mp hj with rfl | hj
      · omega
      · have := (List.pairwise_cons.mp f3).1 j hj; omega
    · intro hpos
      have hw0p : 0 < w0' := by
        by_cases htp : 0 < total
        · have hxp : 0 < x := mul_pos htp (by linarith [hroot'.2])
          exact d3 (lt_of_lt_of_le (e5 hxp) e3)
        · have htz : total = 0 := le_antisymm (not_lt.mp htp) htot0
          have hk := e7 (by rw [hx, htz, zero_mul])
          rw [d4 hk]
          exact hpos.resolve_left htp
      intro j hj
      rcases List.mem_cons.mp hj with rfl | hj
      · exact ⟨w0', hval.2, hw0p⟩
      · exact f5 (.inr hw0p) j hj

/-- **C32**: `weighted_sample` on non-negative weights yields exactly `n` values of the list, at non-decreasing
positions, without ever indexing past the end; if the weights have a positive sum, all positions have a positive weight.
For every outcome of the generator. -/
theorem weightedSample_correct {V : Type} {R : Rng K} (hR : RngOk R) {root : ℕ → K → K} (hroot : RootOk root)
    {weights : List K} {values : List V} (hw : ∀ w ∈ weights, 0 ≤ w) (hne : weights ≠ [])
    (hlen : weights.length = values.length) (n : ℕ) (s : R.State) :
    ∃ vs s' , ∃ is : List ℕ, weightedSample R root weights values n s = .ok (vs, s') ∧ vs.length = n ∧ is.length = n ∧
      List.Pairwise (· ≤ ·) is ∧ List.Forall₂ (fun j v => values[j]? = some v) is vs ∧
      (0 < weights.sum → ∀ j ∈ is, ∃ q, weights[j]? = some q ∧ 0 < q) := by
  match weights, values, hlen, hne with
  | w :: ws, v :: vals, hlen, _ =>
    have hfst : (ws.zip vals).map (·.1) = ws := by
      rw [← List.unzip_fst, List.unzip_zip (by simpa using hlen)]
    have hfold : (w :: ws).foldl (· + ·) 0 = w + ws.sum := by rw [foldl_add, zero_add, List.sum_cons]
    have hsum0 : 0 ≤ ws.sum := List.sum_nonneg fun q hq => hw q (by simp [hq])
    obtain ⟨vs, s', is, f1, f2, f3, f4, f5⟩ := wsLoop_spec hR hroot (weights := w :: ws) (values := v :: vals) hw n
      (w + ws.sum) w w v (ws.zip vals) s 0 rfl (hw w (by simp)) (le_refl _) (by rw [hfst]) (by
        intro ht _ p hp
        have hp1 : p.1 ∈ ws := (List.of_mem_zip (a := p.1) (b := p.2) hp).1
        have hle : p.1 ≤ ws.sum := List.single_le_sum (fun q hq => hw q (by simp [hq])) _ hp1
        have := hw w (by simp)
        exact le_antisymm (by linarith) (hw p.1 (by simp [hp1])))
    refine ⟨vs, s', is, ?_, by rw [← f4.length_eq, f2], f2, (List.pairwise_cons.mp f3).2, f4, fun hp => f5 (.inl (by simpa using hp))⟩
    simp only [weightedSample, List.zip_cons_cons, hfold, f1]


/-! ### C33 -/

theorem maskRows_map {α : Type} (rows : List α) (p : α → Bool) : maskRows rows (rows.map p) = rows.filter p := by
  induction rows with
  | nil => rfl
  | cons a rows ih =>
    simp only [List.map_cons, maskRows, List.filter_cons, ih]

theorem evalMask_ok {pypow : K → K → Except PyErr K} (hpow : PowOk pypow) {D : Domain} (hD : D.WF) {f : Formula}
    (hwt : wt .bool f = true) (hs : ∀ p ∈ syms f, p.1 ∈ D.vars) (rows : List (List K)) :
    evalMask pypow D f rows = .ok (rows.map fun row => truth (rowEnv D.vars row) f) := by
  simp only [evalMask, evaluate_table_correct hpow hD.nodup hwt hs, denRows]

theorem evalNums_ok {pypow : K → K → Except PyErr K} (hpow : PowOk pypow) {D : Domain} (hD : D.WF) {f : Formula}
    (hwt : wt .real f = true) (hs : ∀ p ∈ syms f, p.1 ∈ D.vars) (rows : List (List K)) :
    evalNums pypow D f rows = .ok (rows.map fun row => value (rowEnv D.vars row) f) := by
  simp only [evalNums, evaluate_table_correct hpow hD.nodup hwt hs, denRows]

/-- SPEC: a row of the domain that satisfies the support. -/
def feasible (D : Domain) (support : Formula) (row : List K) : Prop :=
  rowOk D row ∧ truth (rowEnv D.vars row) support = true

theorem drawPositive_spec {R : Rng K} (hR : RngOk R) {pypow : K → K → Except PyErr K} (hpow : PowOk pypow) {D : Domain}
    (hD : BoxOk D) {support : Formula} (hwt : wt .bool support = true) (hs : ∀ p ∈ syms support, p.1 ∈ D.vars) (n : ℕ)
    (s : R.State) : ∃ rows s', drawPositive R pypow D support n s = .ok (rows, s') ∧ rows.length ≤ n ∧
      (∀ row ∈ rows, feasible D support row) ∧
      ((∀ row, rowOk (K := K) D row → truth (rowEnv D.vars row) support = true) → rows.length = n) := by
  obtain ⟨⟨rows, s', e1, e2, e3⟩, -⟩ := uniform_correct hR hD n s
  refine ⟨rows.filter fun row => truth (rowEnv D.vars row) support, s', ?_, ?_, ?_, ?_⟩
  · simp only [drawPositive, e1, evalMask_ok hpow hD.wf hwt hs, maskRows_map]
  · rw [← e2]; exact List.length_filter_le _ _
  · intro row hrow
    obtain ⟨h1, h2⟩ := List.mem_filter.mp hrow
    exact ⟨e3 row h1, h2⟩
  · intro h
    rw [List.filter_eq_self.mpr fun row hrow => h row (e3 row hrow), e2]

theorem nextCount_pos {pool pos count maxS : ℕ} (h1 : pos < pool) (h2 : count < maxS) (h3 : pos ≤ count) :
    0 < nextCount pool pos count maxS := by
  have hm : (max ((pos : ℚ) / count) (1 / 1000)) ≤ 1 := by
    refine max_le ?_ (by norm_num)
    by_cases hc : count = 0
    · simp [hc]
    · rw [div_le_one (by positivity)]; exact_mod_cast h3
  have hm0 : (0 : ℚ) < max ((pos : ℚ) / count) (1 / 1000) := lt_of_lt_of_le (by norm_num) (le_max_right _ _)
  have hp : (1 : ℚ) ≤ ((pool - pos : ℕ) : ℚ) := by exact_mod_cast (show 1 ≤ pool - pos by omega)
  have h4 : (1 : ℚ) ≤ ((pool - pos : ℕ) : ℚ) / max ((pos : ℚ) / count) (1 / 1000) := by
    rw [le_div_iff₀ hm0]; linarith
  simp only [nextCount]
  refine lt_min (Nat.floor_pos.mpr (by linarith)) (by omega)

theorem nextCount_le {pool pos count maxS : ℕ} : nextCount pool pos count maxS ≤ maxS - count := min_le_right _ _

theorem positiveLoop_spec {R : Rng K} (hR : RngOk R) {pypow : K → K → Except PyErr K} (hpow : PowOk pypow) {D : Domain}
    (hD : BoxOk D) {support : Formula} (hwt : wt .bool support = true) (hs : ∀ p ∈ syms support, p.1 ∈ D.vars)
    (pool maxS : ℕ) : ∀ (fuel : ℕ) (pos : List (List K)) (count : ℕ) (sd : R.State), maxS - count < fuel →
      pos.length ≤ count → (∀ row ∈ pos, feasible D support row) →
    positiveLoop R pypow D support pool maxS fuel pos count sd = .error .samplingError ∨
    ∃ out count' sd', positiveLoop R pypow D support pool maxS fuel pos count sd = .ok (out, count', sd') ∧
      pool ≤ out.length ∧ out.length ≤ count' ∧ count ≤ count' ∧ count' ≤ max count maxS ∧ pos <+: out ∧
      ∀ row ∈ out, feasible D support row := by
  intro fuel
  induction fuel with
  | zero => intro pos count sd h; omega
  | succ fuel ih =>
    intro pos count sd hf hlen hpos
    simp only [positiveLoop]
    split_ifs with h1 h2
    · exact .inl rfl
    · have hn := nextCount_pos h1 (by omega : count < maxS) hlen
      have hn' := nextCount_le (pool := pool) (pos := pos.length) (count := count) (maxS := maxS)
      obtain ⟨new, sd', e1, e2, e3, -⟩ := drawPositive_spec hR hpow hD hwt hs (nextCount pool pos.length count maxS) sd
      simp only [e1]
      rcases ih (pos ++ new) (count + nextCount pool pos.length count maxS) sd' (by omega) (by
        rw [List.length_append]; omega) (by
        intro row hrow
        rcases List.mem_append.mp hrow with h | h
        · exact hpos row h
        · exact e3 row h) with h | ⟨out, c, s2, f1, f2, f3, f4, f5, f6, f7⟩
      · exact .inl h
      · exact .inr ⟨out, c, s2, f1, f2, f3, by omega, by
          rcases le_max_iff.mp f5 with h | h <;> exact le_max_iff.mpr (by omega), (List.prefix_append _ _).trans f6, f7⟩
    · exact .inr ⟨pos, count, sd, rfl, by omega, hlen, le_refl _, le_max_left _ _, List.prefix_refl _, hpos⟩

/-- **C33** (partial): `positive` with a positive required count always terminates: it raises SamplingError, or returns
only feasible rows, having drawn at most `max(sample_count, max_samples)` samples.  The number of rows is the required
one when there is a weight, but the *pool size* when there is none; and the later batches are drawn from the default
generator (`positive_wrong_count`, `positive_other_generator`). -/
theorem positive_partial {R : Rng K} (hR : RngOk R) {root : ℕ → K → K} (hroot : RootOk root)
    {pypow : K → K → Except PyErr K} (hpow : PowOk pypow) {D : Domain}
    (hD : BoxOk D) {support : Formula} (hwt : wt .bool support = true) (hs : ∀ p ∈ syms support, p.1 ∈ D.vars)
    {weight : Option Formula} (hw : ∀ w, weight = some w → wt .real w = true ∧ (∀ p ∈ syms w, p.1 ∈ D.vars) ∧
      ∀ row : List K, feasible D support row → 0 ≤ value (rowEnv D.vars row) w)
    {required pool0 count0 max0 pool count maxS : ℕ} (hreq : 0 < required)
    (hpool : pool = if pool0 ≠ 0 then pool0 else if weight = none then required else required * 10)
    (hcount : count = if count0 ≠ 0 then count0 else pool * 2)
    (hmax : maxS = if max0 ≠ 0 then max0 else count * 10) (s sd : R.State) :
    positive R root pypow required D support weight pool0 count0 max0 s sd = .error .samplingError ∨
    ∃ out ratio drawn s' sd', positive R root pypow required D support weight pool0 count0 max0 s sd =
        .ok (out, ratio, drawn, s', sd') ∧
      (∀ row ∈ out, feasible D support row) ∧
      out.length = (if weight = none then pool else required) ∧
      count ≤ drawn ∧ drawn ≤ max count maxS ∧ 0 < ratio ∧ ratio ≤ 1 ∧
      (∀ w, weight = some w → (∀ row : List K, feasible D support row → 0 < value (rowEnv D.vars row) w) →
        ∀ row ∈ out, 0 < value (rowEnv D.vars row) w) := by
  have hpool' : orDefault pool0 (if weight.isNone then required else required * 10) = pool := by
    rw [hpool, orDefault]
    cases weight <;> by_cases h : pool0 = 0 <;> simp [h]
  have hcount' : orDefault count0 (pool * 2) = count := by
    rw [hcount, orDefault]; by_cases h : count0 = 0 <;> simp [h]
  have hmax' : orDefault max0 (count * 10) = maxS := by
    rw [hmax, orDefault]; by_cases h : max0 = 0 <;> simp [h]
  have hpool0 : 0 < pool := by rw [hpool]; split_ifs <;> omega
  have hcount0 : 0 < count := by rw [hcount]; split_ifs <;> omega
  obtain ⟨pos, s1, e1, e2, e3, -⟩ := drawPositive_spec hR hpow hD hwt hs count s
  simp only [positive, hpool', hcount', hmax', e1]
  rcases positiveLoop_spec hR hpow hD hwt hs pool maxS (maxS - count + 1) pos count sd (by omega) e2 e3 with
    h | ⟨out, c, sd', f1, f2, f3, f4, f5, f6, f7⟩
  · rw [h]; exact .inl rfl
  · rw [f1]
    have hc0 : c ≠ 0 := by omega
    have hcq : (0 : ℚ) < c := by exact_mod_cast Nat.pos_of_ne_zero hc0
    have htake : (if out.length > pool then out.take pool else out) = out.take pool := by
      split_ifs with h
      · rfl
      · rw [List.take_of_length_le (by omega)]
    have hr0 : (0 : ℚ) < (out.length : ℚ) / c := div_pos (by exact_mod_cast (show 0 < out.length by omega)) hcq
    have hr1 : (out.length : ℚ) / c ≤ 1 := (div_le_one hcq).mpr (by exact_mod_cast f3)
    have hfe : ∀ row ∈ out.take pool, feasible D support row := fun row h => f7 row (List.mem_of_mem_take h)
    have hl : (out.take pool).length = pool := by rw [List.length_take]; omega
    cases weight with
    | none =>
      refine .inr ⟨out.take pool, (out.length : ℚ) / c, c, s1, sd', ?_, hfe, by simpa using f2, f4, f5, hr0, hr1, by simp⟩
      simp only [hc0, if_false, htake]
    | some w =>
      obtain ⟨w1, w2, w3⟩ := hw w rfl
      obtain ⟨vs, s2, is, g1, g2, g3, -, g5, -⟩ := weightedSample_correct hR hroot
        (weights := (out.take pool).map fun row => value (rowEnv D.vars row) w) (values := out.take pool)
        (by
          intro x hx
          obtain ⟨row, hrow, rfl⟩ := List.mem_map.mp hx
          exact w3 row (hfe row hrow))
        (by
          intro h
          rw [List.map_eq_nil_iff] at h
          rw [h] at hl; simp at hl; omega)
        (by simp) required s1
      have hfv : ∀ row ∈ vs, feasible D support row := by
        intro row hrow
        obtain ⟨j, -, hj⟩ := forall₂_mem_right g5 row hrow
        exact hfe row (List.mem_of_getElem? hj)
      refine .inr ⟨vs, (out.length : ℚ) / c, c, s2, sd', ?_, hfv, by simpa using g2, f4, f5, hr0, hr1, ?_⟩
      · simp only [hc0, if_false, htake, evalNums_ok hpow hD.wf w1 w2, g1]
      · rintro w' ⟨⟩ hpos row hrow
        exact hpos row (hfv row hrow)

/-- When every sample is feasible and the limit is not below the pool size, `positive` succeeds. -/
theorem positive_certain {R : Rng K} (hR : RngOk R) {root : ℕ → K → K} (hroot : RootOk root)
    {pypow : K → K → Except PyErr K} (hpow : PowOk pypow) {D : Domain}
    (hD : BoxOk D) {support : Formula} (hwt : wt .bool support = true) (hs : ∀ p ∈ syms support, p.1 ∈ D.vars)
    (hall : ∀ row, rowOk (K := K) D row → truth (rowEnv D.vars row) support = true)
    {required pool0 count0 max0 pool count maxS : ℕ} (hreq : 0 < required)
    (hpool : pool = if pool0 ≠ 0 then pool0 else required)
    (hcount : count = if count0 ≠ 0 then count0 else pool * 2)
    (hmax : maxS = if max0 ≠ 0 then max0 else count * 10) (hle : pool ≤ maxS) (s sd : R.State) :
    ∃ out ratio drawn s' sd', positive R root pypow required D support none pool0 count0 max0 s sd =
        .ok (out, ratio, drawn, s', sd') ∧ out.length = pool := by
  rcases positive_partial hR hroot hpow hD hwt hs (weight := none) (by simp) hreq (by simpa using hpool) hcount hmax s sd with
    h | ⟨out, ratio, c, s', sd', h, -, hl, -⟩
  · exfalso
    have hpool' : orDefault pool0 (if (none : Option Formula).isNone then required else required * 10) = pool := by
      rw [hpool, orDefault]
      by_cases h : pool0 = 0 <;> simp [h]
    have hcount' : orDefault count0 (pool * 2) = count := by
      rw [hcount, orDefault]; by_cases h : count0 = 0 <;> simp [h]
    have hmax' : orDefault max0 (count * 10) = maxS := by
      rw [hmax, orDefault]; by_cases h : max0 = 0 <;> simp [h]
    have hpool0 : 0 < pool := by rw [hpool]; split_ifs <;> omega
    have hcount0 : 0 < count := by rw [hcount]; split_ifs <;> omega
    obtain ⟨pos, s1, e1, -, -, e4⟩ := drawPositive_spec hR hpow hD hwt hs count s
    have e4 := e4 hall
    have hloop : ∃ r, positiveLoop R pypow D support pool maxS (maxS - count + 1) pos count sd = .ok r := by
      simp only [positiveLoop, e4]
      split_ifs with h1 h2
      · omega
      · obtain ⟨new, sd', f1, -, -, f4⟩ := drawPositive_spec hR hpow hD hwt hs (nextCount pool count count maxS) sd
        have f4 := f4 hall
        have hn : pool - count ≤ nextCount pool count count maxS := by
          have h1' : ((count : ℚ) / count) = 1 := div_self (by exact_mod_cast (by omega : count ≠ 0))
          simp only [nextCount, h1']
          refine le_min (Nat.le_floor ?_) (by omega)
          rw [max_eq_left (by norm_num), div_one]
          have : (0 : ℚ) ≤ ((pool - count : ℕ) : ℚ) := by positivity
          linarith
        simp only [f1]
        obtain ⟨k, hk⟩ : ∃ k, maxS - count = k + 1 := ⟨maxS - count - 1, by omega⟩
        rw [hk]
        refine ⟨(pos ++ new, count + nextCount pool count count maxS, sd'), ?_⟩
        simp only [positiveLoop, List.length_append, e4, f4]
        rw [if_neg (by omega)]
      · exact ⟨_, rfl⟩
    obtain ⟨⟨o, c, d⟩, hr⟩ := hloop
    simp only [positive, hpool', hcount', hmax', e1, hr] at h
    split_ifs at h
    simp at h
  · exact ⟨out, ratio, c, s', sd', h, by simpa using hl⟩

/-! ### C34 -/

theorem volumeLoop_box (bs : List (String × Bounds)) : ∀ acc : ℚ, (∀ b ∈ bs, ∃ l u, b.2 = (some l, some u)) →
    Domain.volumeLoop acc bs = some (acc * (bs.map fun b => b.2.2.getD 0 - b.2.1.getD 0).prod) := by
  induction bs with
  | nil => intro acc _; simp [Domain.volumeLoop]
  | cons b bs ih =>
    obtain ⟨v, b⟩ := b
    intro acc h
    obtain ⟨l, u, hb⟩ := h (v, b) (by simp)
    obtain rfl : b = (some l, some u) := hb
    rw [Domain.volumeLoop, ih _ fun b hb => h b (by simp [hb])]
    simp [mul_assoc]

/-- SPEC: the volume of the box times the number of ways to choose the Booleans. -/
def boxVolume (D : Domain) (choices : ℚ) : ℚ := (D.varDomains.map fun b => b.2.2.getD 0 - b.2.1.getD 0).prod * choices

theorem boundVolume_correct {D : Domain} (hD : BoxOk D) :
    boundVolume D none = .ok (some (boxVolume D (2 ^ (D.vars.filter fun v => D.varTypes.lookup v = some .bool).length))) ∧
    ∀ groups, (∀ l u v, (v, some l, some u) ∈ D.varDomains → l ≠ u) →
      boundVolume D (some groups) = .ok (some (boxVolume D
        (2 ^ (D.vars.filter fun v => D.varTypes.lookup v = some .bool ∧ v ∉ groups.flatten).length *
          (groups.map fun g => (g.length : ℚ)).prod))) := by
  have hbox : ∀ b ∈ D.varDomains, ∃ l u, b.2 = (some l, some u) ∧ l ≤ u := by
    rintro ⟨v, b⟩ hb
    exact hD.box v b (lookup_mem_nodup hD.wf.domNodup hb)
  have hbox' : ∀ b ∈ D.varDomains, ∃ l u, b.2 = (some l, some u) := fun b hb =>
    let ⟨l, u, h, _⟩ := hbox b hb; ⟨l, u, h⟩
  have hempty : (D.vars.filter fun v => D.varTypes.lookup v = some .real).length = 0 → D.varDomains = [] := by
    intro h0
    cases hd : D.varDomains with
    | nil => rfl
    | cons p ds =>
      exfalso
      have : p.1 ∈ D.vars.filter fun v => decide (D.varTypes.lookup v = some .real) := by
        have hk : p.1 ∈ D.varDomains.map (·.1) := by rw [hd]; simp
        exact (hD.wf.mem_real _).mp hk
      rw [List.length_eq_zero_iff] at h0
      rw [h0] at this; simp at this
  have hbb : D.boundingBoxVolume = .ok (some (if D.varDomains = [] then 0 else
      (D.varDomains.map fun b => b.2.2.getD 0 - b.2.1.getD 0).prod)) := by
    simp only [Domain.boundingBoxVolume, hD.wf.realVars]
    split_ifs with h1 h2 h2
    · rfl
    · exact absurd (hempty h1) h2
    · exfalso
      apply h1
      rw [List.length_eq_zero_iff, List.filter_eq_nil_iff]
      intro v hv h
      have := (hD.wf.mem_real _).mpr (List.mem_filter.mpr ⟨hv, h⟩)
      rw [h2] at this; simp at this
    · rw [volumeLoop_box _ _ hbox', one_mul]
  constructor
  · simp only [boundVolume, hD.wf.realVars, Domain.getVolume, hbb, hD.wf.boolVars, Option.map_some]
    split_ifs with h1 h2
    · exfalso
      have hne : D.vars.filter (fun v => decide (D.varTypes.lookup v = some .real)) ≠ [] := List.length_pos_iff.mp h1
      obtain ⟨v, hv⟩ := List.exists_mem_of_ne_nil _ hne
      have := (hD.wf.mem_real _).mpr hv
      rw [h2] at this; simp at this
    · rfl
    · simp [boxVolume, hempty (by omega)]
  · intro groups hne
    have hfold : ∀ (gs : List (List String)) (n : ℚ), gs.foldl (fun n g => n * (g.length : ℚ)) n =
        n * (gs.map fun g => (g.length : ℚ)).prod := by
      intro gs
      induction gs with
      | nil => simp
      | cons g gs ih => intro n; simp [ih, mul_assoc]
    have hfilter : (D.vars.filter fun v => decide (D.varTypes.lookup v = some .bool)).filter (fun v => decide (v ∉ groups.flatten)) =
        D.vars.filter fun v => decide (D.varTypes.lookup v = some .bool ∧ v ∉ groups.flatten) := by
      rw [List.filter_filter]
      congr 1; funext v; simp [Bool.and_comm]
    simp only [boundVolume, hD.wf.boolVars, hfold, hbb, hfilter]
    by_cases h2 : D.varDomains = []
    · simp [h2, boxVolume]
    · have hp : (D.varDomains.map fun b => b.2.2.getD 0 - b.2.1.getD 0).prod ≠ 0 := by
        rw [Ne, List.prod_eq_zero_iff]
        intro h
        obtain ⟨⟨v, b⟩, hb, h0⟩ := List.mem_map.mp h
        obtain ⟨l, u, hb'⟩ := hbox' _ hb
        obtain rfl : b = (some l, some u) := hb'
        exact hne l u v hb (by simp at h0; linarith)
      simp only [h2, if_false]
      rw [if_pos hp, boxVolume, mul_comm]

/-- SPEC: the weight of a row: the weight function, or 1. -/
def rowWeight (D : Domain) (weight : Option Formula) (row : List K) : K :=
  match weight with
  | none => 1
  | some w => value (rowEnv D.vars row) w

/-- **C34**: on any non-empty table of samples `compute_volume` is the volume of the sampled set over the number of
samples, times the sum of the weights of the samples inside the support. -/
theorem volumeOf_correct {pypow : K → K → Except PyErr K} (hpow : PowOk pypow) {D : Domain} (hD : D.WF)
    {support : Formula} (hwt : wt .bool support = true) (hs : ∀ p ∈ syms support, p.1 ∈ D.vars)
    {weight : Option Formula} (hw : ∀ w, weight = some w → wt .real w = true ∧ (∀ p ∈ syms w, p.1 ∈ D.vars))
    {ohe : Option (List (List String))} {V : ℚ} (hV : boundVolume D ohe = .ok (some V)) {rows : List (List K)} (hr : rows ≠ []) :
    volumeOf pypow D support weight ohe rows = .ok ((V : K) / rows.length *
      ((rows.filter fun row => truth (rowEnv D.vars row) support).map (rowWeight D weight)).sum) := by
  have hlen : rows.length ≠ 0 := by simpa using hr
  have hct : countTrue (rows.map fun row => truth (rowEnv D.vars row) support) =
      (rows.filter fun row => truth (rowEnv D.vars row) support).length := by
    rw [countTrue, List.filter_map, List.length_map]; rfl
  simp only [volumeOf, evalMask_ok hpow hD hwt hs, hV, maskRows_map, hct, List.length_map, if_neg hlen]
  cases weight with
  | none =>
    have : rowWeight (K := K) D none = fun _ => 1 := rfl
    simp only [this, List.map_const', List.sum_replicate, nsmul_eq_mul, mul_one]
    congr 1; ring
  | some w =>
    obtain ⟨w1, w2⟩ := hw w rfl
    simp only [evalNums_ok hpow hD w1 w2, foldl_add, zero_add]
    have : rowWeight (K := K) D (some w) = fun row => value (rowEnv D.vars row) w := rfl
    rw [this]
    split_ifs with h
    · rw [List.length_eq_zero_iff] at h
      simp [h]
    · have hn : ((rows.filter fun row => truth (rowEnv D.vars row) support).length : K) ≠ 0 := by exact_mod_cast h
      congr 1
      field_simp

/-- The estimate is non-negative for non-negative weights. -/
theorem volumeOf_nonneg {pypow : K → K → Except PyErr K} (hpow : PowOk pypow) {D : Domain} (hD : D.WF)
    {support : Formula} (hwt : wt .bool support = true) (hs : ∀ p ∈ syms support, p.1 ∈ D.vars)
    {weight : Option Formula} (hw : ∀ w, weight = some w → wt .real w = true ∧ (∀ p ∈ syms w, p.1 ∈ D.vars))
    {ohe : Option (List (List String))} {V : ℚ} (hV : boundVolume D ohe = .ok (some V)) (hV0 : 0 ≤ V)
    {rows : List (List K)} (hr : rows ≠ [])
    (hpos : ∀ row ∈ rows, truth (rowEnv D.vars row) support = true → 0 ≤ rowWeight D weight row) :
    ∃ v, volumeOf pypow D support weight ohe rows = .ok v ∧ 0 ≤ v ∧
      ((∀ row ∈ rows, truth (rowEnv D.vars row) support = false) → v = 0) := by
  refine ⟨_, volumeOf_correct hpow hD hwt hs hw hV hr, ?_, ?_⟩
  · refine mul_nonneg (div_nonneg (by exact_mod_cast hV0) (Nat.cast_nonneg _)) (List.sum_nonneg ?_)
    intro x hx
    obtain ⟨row, hrow, rfl⟩ := List.mem_map.mp hx
    obtain ⟨h1, h2⟩ := List.mem_filter.mp hrow
    exact hpos row h1 h2
  · intro h
    rw [List.filter_eq_nil_iff.mpr (by simpa using h)]
    simp

/-- The estimate is additive over supports that no sample satisfies together. -/
theorem volumeOf_additive {pypow : K → K → Except PyErr K} (hpow : PowOk pypow) {D : Domain} (hD : D.WF)
    {f g : Formula} (hf : wt .bool f = true) (hfs : ∀ p ∈ syms f, p.1 ∈ D.vars) (hg : wt .bool g = true)
    (hgs : ∀ p ∈ syms g, p.1 ∈ D.vars)
    {weight : Option Formula} (hw : ∀ w, weight = some w → wt .real w = true ∧ (∀ p ∈ syms w, p.1 ∈ D.vars))
    {ohe : Option (List (List String))} {V : ℚ} (hV : boundVolume D ohe = .ok (some V)) {rows : List (List K)} (hr : rows ≠ [])
    (hdis : ∀ row ∈ rows, truth (rowEnv D.vars row) f = true → truth (rowEnv D.vars row) g = false) :
    ∃ a b, volumeOf pypow D f weight ohe rows = .ok a ∧ volumeOf pypow D g weight ohe rows = .ok b ∧
      volumeOf pypow D (.or [f, g]) weight ohe rows = .ok (a + b) := by
  refine ⟨_, _, volumeOf_correct hpow hD hf hfs hw hV hr, volumeOf_correct hpow hD hg hgs hw hV hr, ?_⟩
  rw [volumeOf_correct hpow hD (by simp [wt, wtAll, hf, hg]) (by
    intro p hp
    simp only [syms, symsList, List.append_nil, List.mem_append] at hp
    exact hp.elim (hfs p) (hgs p)) hw hV hr, ← mul_add]
  congr 2
  clear hr
  induction rows with
  | nil => simp
  | cons row rows ih =>
    have ih := ih fun r h => hdis r (by simp [h])
    have h0 := hdis row (by simp)
    have ht : truth (rowEnv D.vars row) (.or [f, g]) = (truth (rowEnv D.vars row) f || truth (rowEnv D.vars row) g) := by
      simp [truth, truthAny]
    simp only [List.filter_cons, ht]
    cases h1 : truth (rowEnv D.vars row) f with
    | true => simp only [h0 h1, Bool.or_false, if_true, List.map_cons, List.sum_cons, ih]; simp; ring
    | false =>
      cases h2 : truth (rowEnv D.vars row) g with
      | true => simp only [Bool.or_true, if_true, List.map_cons, List.sum_cons, ih]; simp; ring
      | false => simpa using ih

/-! ### C35 -/

/-- SPEC: the accepted samples, and the share of their weight that satisfies a query. -/
def share (D : Domain) (weight : Option Formula) (pos : List (List K)) (q : Formula) : K :=
  ((pos.filter fun row => truth (rowEnv D.vars row) q).map (rowWeight D weight)).sum / (pos.map (rowWeight D weight)).sum

theorem maskRows_and {α : Type} (rows : List α) (m : List Bool) (h : m.length = rows.length) :
    m.zipWith (· && ·) (rows.map fun _ => true) = m := by
  induction rows generalizing m with
  | nil => cases m with
    | nil => rfl
    | cons => simp at h
  | cons a rows ih => cases m with
    | nil => simp at h
    | cons b m =>
      rw [List.map_cons, List.zipWith_cons_cons, ih m (by simpa using h), Bool.and_true]

theorem maskRows_map2 {α β : Type} (rows : List α) (f : α → β) (p : α → Bool) :
    maskRows (rows.map f) (rows.map p) = (rows.filter p).map f := by
  induction rows with
  | nil => rfl
  | cons a rows ih =>
    simp only [List.map_cons, maskRows, List.filter_cons, ih]
    split_ifs <;> rfl

theorem queryLoop_correct {pypow : K → K → Except PyErr K} (hpow : PowOk pypow) {D : Domain} (hD : D.WF)
    (weight : Option Formula) (pos : List (List K)) {total : K} (htot : total = (pos.map (rowWeight D weight)).sum)
    (qs : List Formula) (hq : ∀ q ∈ qs, wt .bool q = true ∧ ∀ p ∈ syms q, p.1 ∈ D.vars) :
    queryLoop pypow D pos (weight.map fun w => pos.map fun row => value (rowEnv D.vars row) w) total qs =
      .ok (qs.map fun q => if 0 < (pos.map (rowWeight D weight)).sum then some (share D weight pos q) else none) := by
  induction qs with
  | nil => rfl
  | cons q qs ih =>
    have ih := ih fun r h => hq r (by simp [h])
    obtain ⟨h1, h2⟩ := hq q (by simp)
    have hqt : queryTotal (weight.map fun w => pos.map fun row => value (rowEnv D.vars row) w)
        (pos.map fun row => truth (rowEnv D.vars row) q) =
        ((pos.filter fun row => truth (rowEnv D.vars row) q).map (rowWeight D weight)).sum := by
      cases weight with
      | none =>
        have : rowWeight (K := K) D none = fun _ => 1 := rfl
        simp only [Option.map_none, queryTotal, this, List.map_const', List.sum_replicate, nsmul_eq_mul, mul_one]
        rw [countTrue, List.filter_map, List.length_map]; rfl
      | some w => simp only [Option.map_some, queryTotal, foldl_add, zero_add, maskRows_map2]; rfl
    simp only [queryLoop, evalMask_ok hpow hD h1 h2, ih, List.map_cons, maskRows_and _ _ (List.length_map _), hqt]
    by_cases h : 0 < (pos.map (rowWeight D weight)).sum
    · simp only [htot, gt_iff_lt, h, if_true]; rfl
    · simp only [htot, gt_iff_lt, h, if_false]

/-- **C35**: `compute_probabilities` answers every query by its share of the accepted weight, and None to all when the
accepted weight is not positive. -/
theorem probabilitiesOf_correct {pypow : K → K → Except PyErr K} (hpow : PowOk pypow) {D : Domain} (hD : D.WF)
    {support : Formula} (hwt : wt .bool support = true) (hs : ∀ p ∈ syms support, p.1 ∈ D.vars)
    {weight : Option Formula} (hw : ∀ w, weight = some w → wt .real w = true ∧ (∀ p ∈ syms w, p.1 ∈ D.vars))
    {qs : List Formula} (hq : ∀ q ∈ qs, wt .bool q = true ∧ ∀ p ∈ syms q, p.1 ∈ D.vars) (rows : List (List K)) :
    probabilitiesOf pypow D support weight qs rows =
      .ok (qs.map fun q =>
        if 0 < ((rows.filter fun row => truth (rowEnv D.vars row) support).map (rowWeight D weight)).sum then
          some (share D weight (rows.filter fun row => truth (rowEnv D.vars row) support) q) else none) := by
  simp only [probabilitiesOf, evalMask_ok hpow hD hwt hs, maskRows_map]
  cases weight with
  | none =>
    refine queryLoop_correct hpow hD none _ ?_ qs hq
    have : rowWeight (K := K) D none = fun _ => 1 := rfl
    simp [this]
  | some w =>
    obtain ⟨w1, w2⟩ := hw w rfl
    simp only [evalNums_ok hpow hD w1 w2]
    exact queryLoop_correct hpow hD (some w) _ (by rw [foldl_add, zero_add]; rfl) qs hq

/-- The laws of the shares, for non-negative weights with positive sum: between 0 and 1, 1 for a query all accepted
samples satisfy, complementary, monotone, and modular. -/
theorem share_laws {D : Domain} {weight : Option Formula} {pos : List (List K)}
    (hpos : ∀ row ∈ pos, 0 ≤ rowWeight D weight row) (htot : 0 < (pos.map (rowWeight D weight)).sum) :
    (∀ q, 0 ≤ share D weight pos q ∧ share D weight pos q ≤ 1) ∧
    share D weight pos (.boolC true) = 1 ∧
    (∀ q, share D weight pos q + share D weight pos (.not q) = 1) ∧
    (∀ q r, (∀ row ∈ pos, truth (rowEnv D.vars row) q = true → truth (rowEnv D.vars row) r = true) →
      share D weight pos q ≤ share D weight pos r) ∧
    (∀ q r, share D weight pos (.or [q, r]) + share D weight pos (.and [q, r]) = share D weight pos q + share D weight pos r) := by
  have hmono : ∀ q r, (∀ row ∈ pos, truth (rowEnv D.vars row) q = true → truth (rowEnv D.vars row) r = true) →
      ((pos.filter fun row => truth (rowEnv D.vars row) q).map (rowWeight D weight)).sum ≤
      ((pos.filter fun row => truth (rowEnv D.vars row) r).map (rowWeight D weight)).sum := by
    intro q r h
    clear htot
    induction pos with
    | nil => simp
    | cons row pos ih =>
      have ih := ih (fun x hx => hpos x (by simp [hx])) fun x hx => h x (by simp [hx])
      have h0 := h row (by simp)
      have hp := hpos row (by simp)
      simp only [List.filter_cons]
      cases h1 : truth (rowEnv D.vars row) q with
      | true => rw [h0 h1]; simpa using ih
      | false => cases h2 : truth (rowEnv D.vars row) r with
        | true => simp only [if_true, List.map_cons, List.sum_cons]; simp; linarith
        | false => simpa using ih
  have htrue : ((pos.filter fun row => truth (rowEnv D.vars row) (.boolC true)).map (rowWeight D weight)).sum =
      (pos.map (rowWeight D weight)).sum := by
    rw [List.filter_eq_self.mpr fun row _ => by simp [truth]]
  have hsplit : ∀ q, ((pos.filter fun row => truth (rowEnv D.vars row) q).map (rowWeight D weight)).sum +
      ((pos.filter fun row => truth (rowEnv D.vars row) (.not q)).map (rowWeight D weight)).sum =
      (pos.map (rowWeight D weight)).sum := by
    intro q
    clear hpos htot hmono htrue
    induction pos with
    | nil => simp
    | cons row pos ih =>
      simp only [truth, List.filter_cons, List.map_cons, List.sum_cons, ← ih]
      cases h1 : truth (rowEnv D.vars row) q with
      | true => simp; ring
      | false => simp; ring
  have hmod : ∀ q r, ((pos.filter fun row => truth (rowEnv D.vars row) (.or [q, r])).map (rowWeight D weight)).sum +
      ((pos.filter fun row => truth (rowEnv D.vars row) (.and [q, r])).map (rowWeight D weight)).sum =
      ((pos.filter fun row => truth (rowEnv D.vars row) q).map (rowWeight D weight)).sum +
      ((pos.filter fun row => truth (rowEnv D.vars row) r).map (rowWeight D weight)).sum := by
    intro q r
    clear hpos htot hmono htrue hsplit
    induction pos with
    | nil => simp
    | cons row pos ih =>
      have e1 : truth (rowEnv D.vars row) (.or [q, r]) = (truth (rowEnv D.vars row) q || truth (rowEnv D.vars row) r) := by
        simp [truth, truthAny]
      have e2 : truth (rowEnv D.vars row) (.and [q, r]) = (truth (rowEnv D.vars row) q && truth (rowEnv D.vars row) r) := by
        simp [truth, truthAll]
      simp only [List.filter_cons, e1, e2]
      cases h1 : truth (rowEnv D.vars row) q <;> cases h2 : truth (rowEnv D.vars row) r <;> simp <;> linarith [ih]
  refine ⟨fun q => ⟨?_, ?_⟩, ?_, fun q => ?_, fun q r h => ?_, fun q r => ?_⟩
  · refine div_nonneg (List.sum_nonneg ?_) htot.le
    intro x hx
    obtain ⟨row, hrow, rfl⟩ := List.mem_map.mp hx
    exact hpos row (List.mem_filter.mp hrow).1
  · rw [share, div_le_one htot, ← htrue]
    exact hmono q (.boolC true) fun row _ _ => by simp [truth]
  · rw [share, htrue, div_self htot.ne']
  · rw [share, share, ← add_div, hsplit, div_self htot.ne']
  · exact div_le_div_of_nonneg_right (hmono q r h) htot.le
  · simp only [share, ← add_div, hmod]

end

/-! ### Concrete cases -/

/-- A generator of rationals that cycles through quarters. -/
def cycleRng : Rng ℚ where
  State := ℕ
  next s := (((s % 4 : ℕ) : ℚ) / 4, s + 1)
  choose s n := (s % n, s + 1)

theorem cycleRng_ok : RngOk cycleRng where
  low s := by simp only [cycleRng]; positivity
  high s := by
    simp only [cycleRng]
    rw [div_lt_one (by norm_num)]
    exact_mod_cast Nat.mod_lt s (by norm_num)
  choose s n h := Nat.mod_lt s h

/-- A "root" that satisfies the law: the identity. -/
theorem idRoot_ok : RootOk (K := ℚ) fun _ u => u := fun _ _ h0 h1 => ⟨h0, h1⟩

/-- The real root satisfies the law. -/
theorem realRoot_ok : RootOk (K := ℝ) fun n u => u ^ (1 / (n : ℝ)) := by
  intro n u h0 h1
  refine ⟨Real.rpow_nonneg h0 _, ?_⟩
  exact Real.rpow_lt_one h0 h1 (by positivity)

theorem sampleDomain_box : BoxOk sampleDomain where
  wf := sampleDomain_wf
  box v b h := by
    simp only [sampleDomain, List.lookup] at h
    split at h
    · simp only [Option.some.injEq] at h
      exact ⟨_, _, h.symm, by norm_num⟩
    · split at h
      · simp only [Option.some.injEq] at h
        exact ⟨_, _, h.symm, by norm_num⟩
      · cases h

theorem sampleGroups_ok : GroupsOk sampleDomain [["a", "b"]] where
  nonempty := by simp
  bool := by
    intro g hg v hv
    simp only [List.mem_singleton] at hg
    subst hg
    simp only [List.mem_cons, List.not_mem_nil, or_false] at hv
    rcases hv with rfl | rfl <;> exact ⟨by decide, by rfl⟩
  disjoint := by simp

/-- `uniform` on a concrete domain with a one-hot group: two rows. -/
example : (uniform cycleRng sampleDomain 2 (some [["a", "b"]]) (0 : ℕ)).toOption.map (·.1.map (·.take 2)) =
    some [[1, 0], [0, 1]] := by decide +kernel

/-- `weighted_sample` skips the zero weight. -/
example : (weightedSample cycleRng (fun _ u => u) [1, 0, 3] [(10 : ℕ), 20, 30] 3 (1 : ℕ)).toOption.map (·.1) =
    some [30, 30, 30] := by decide +kernel

/-- **C33, negation**: asked for two samples with a pool of five and no weight, `positive` returns five. -/
theorem positive_wrong_count (s sd : ℕ) : ∃ out ratio drawn s' sd',
    positive cycleRng (fun _ u => u) ratPow 2 sampleDomain (.boolC true) none 5 0 0 s sd =
      .ok (out, ratio, drawn, s', sd') ∧ out.length = 5 :=
  positive_certain cycleRng_ok idRoot_ok ratPow_ok sampleDomain_box rfl (by simp [syms]) (fun _ _ => by simp [truth])
    (by norm_num) rfl rfl rfl (by norm_num) s sd

/-- **C33, negation**: the outcome is not determined by the generator passed in: with the same state `0` of that
generator, two states of the default generator give different samples. -/
theorem positive_other_generator : ∃ sd sd' : ℕ,
    (positive cycleRng (fun _ u => u) ratPow 2 sampleDomain (.boolC true) none 0 1 10 (0 : ℕ) sd).toOption.map (·.1) ≠
    (positive cycleRng (fun _ u => u) ratPow 2 sampleDomain (.boolC true) none 0 1 10 (0 : ℕ) sd').toOption.map (·.1) :=
  ⟨0, 1, by decide +kernel⟩

/-- A required count of zero divides by zero. -/
theorem positive_zero : (positive cycleRng (fun _ u => u) ratPow 0 sampleDomain (.boolC true) none 0 0 0 (0 : ℕ) (0 : ℕ)) =
    .error .zeroDivision := by rfl

/-- The bounds of the concrete problem are met: the volume of the box is known. -/
example : ∃ V, boundVolume sampleDomain none = .ok (some V) := ⟨_, (boundVolume_correct sampleDomain_box).1⟩

/-- Concrete probabilities on four samples, two of them accepted with weights 1 and 3. -/
example : probabilitiesOf ratPow sampleDomain (.sym "a" .bool) (some (.sym "x" .real)) [.sym "b" .bool, .boolC true]
    [[1, 0, 1, 0], [1, 1, 3, 0], [0, 1, 2, 0], [0, 0, 2, 0]] = .ok [some (3 / 4), some 1] := by
  rw [probabilitiesOf_correct ratPow_ok sampleDomain_wf (by rfl) (by decide) (by rintro w ⟨⟩; exact ⟨rfl, by decide⟩) (by
    intro q hq
    simp only [List.mem_cons, List.not_mem_nil, or_false] at hq
    rcases hq with rfl | rfl
    · exact ⟨rfl, by decide⟩
    · exact ⟨rfl, by decide⟩)]
  decide +kernel

end Pywmi
