import Verif.Props.Decision
import Verif.Math.Unique
import Verif.Smt.Congr

set_option linter.unusedSectionVars false
set_option linter.unusedSimpArgs false

/-!
# C93: tests with the same boundary are one decision
-/

namespace Pywmi
open Formula Prog Decision

/-! ### Specification -/

/-- SPEC: the two comparisons have the same boundary. -/
def SameBoundary (l1 r1 l2 r2 : Formula) : Prop := ∀ σ : Env ℚ, value σ l1 = value σ r1 ↔ value σ l2 = value σ r2

/-- SPEC: no other variable than this one. -/
def OnlyVar (x : String) (f : Formula) : Prop := ∀ p ∈ syms f, p.1 = x

/-! ### Affine functions with the same zeros -/

theorem affine_update {d : Dict} (hk : ∀ p ∈ d, p.1.length ≤ 1) (hn : KeysNodup d) (ρ : String → ℚ) (x : String) (v : ℚ) :
    polyEval (Function.update ρ x v) d = polyEval ρ d + linCoef d [x] * (v - ρ x) := by
  induction d with
  | nil => simp [polyEval, linCoef]
  | cons p d ih =>
    obtain ⟨k, w⟩ := p
    simp only [KeysNodup, List.map_cons, List.nodup_cons] at hn
    have ih := ih (fun p hp => hk p (by simp [hp])) hn.2
    have hlen := hk (k, w) (by simp)
    rw [polyEval_cons, polyEval_cons, ih, linCoef_cons]
    match k, hlen, hn with
    | [], _, _ => simp [monoEval]; ring
    | [y], _, hn =>
      by_cases h : y = x
      · subst h
        rw [linCoef_not_mem hn.1]
        simp [monoEval]; ring
      · have h' : ¬[x] = [y] := by simpa using Ne.symm h
        rw [if_neg h']
        simp [monoEval, Function.update_of_ne h]; ring

theorem key_sorted {k : Mono} (h : k.length ≤ 1) : k.Pairwise (· ≤ ·) := by
  match k, h with
  | [], _ => exact .nil
  | [_], _ => exact List.pairwise_singleton _ _

/-- What linear inequalities satisfy. -/
structure LinOk (d : Dict) : Prop where
  short : ∀ p ∈ d, p.1.length ≤ 1
  nodup : KeysNodup d
  nonzero : ∀ p ∈ d, p.2 ≠ 0
  ne : d ≠ []

theorem linCoef_mem {d : Dict} (hn : KeysNodup d) {p : Mono × ℚ} (hp : p ∈ d) : linCoef d p.1 = p.2 := by
  unfold linCoef; rw [lookup_of_mem hn (k := p.1) (v := p.2) hp]; rfl

theorem LinOk.mem_iff {d : Dict} (h : LinOk d) (k : Mono) : k ∈ d.map (·.1) ↔ linCoef d k ≠ 0 := by
  constructor
  · intro hm
    obtain ⟨p, hp, rfl⟩ := List.mem_map.mp hm
    rw [linCoef_mem h.nodup hp]; exact h.nonzero p hp
  · intro hc
    by_contra hm
    exact hc (linCoef_not_mem hm)

theorem LinOk.not_zero {d : Dict} (h : LinOk d) : ¬∀ ρ : String → ℚ, polyEval ρ d = 0 := by
  intro hz
  obtain ⟨p, hp⟩ := List.exists_mem_of_ne_nil _ h.ne
  have := lookup_eq_of_eval (fun q hq => key_sorted (h.short q hq)) h.nodup (e := []) (by simp) (by simp [KeysNodup]) (by simpa [polyEval] using hz) p.1
  have h2 := linCoef_mem h.nodup hp
  unfold linCoef at h2
  rw [h2] at this
  exact h.nonzero p hp (by simpa using this)

theorem LinOk.const {d : Dict} (h : LinOk d) (hv : ∀ x, linCoef d [x] = 0) : ∃ v, v ≠ 0 ∧ ∀ ρ : String → ℚ, polyEval ρ d = v := by
  have hk : ∀ p ∈ d, p.1 = [] := by
    intro p hp
    have hlen := h.short p hp
    have hne := (h.mem_iff p.1).mp (List.mem_map.mpr ⟨p, hp, rfl⟩)
    match hp1 : p.1, hlen with
    | [], _ => rfl
    | [x], _ => rw [hp1] at hne; exact absurd (hv x) hne
  obtain ⟨p, hp⟩ := List.exists_mem_of_ne_nil _ h.ne
  refine ⟨p.2, h.nonzero p hp, fun ρ => ?_⟩
  have hn := h.nodup
  match d, hp, hk, hn with
  | [q], hp, hk, _ =>
    have := List.mem_singleton.mp hp
    subst this
    simp [polyEval, hk p hp, monoEval]
  | q1 :: q2 :: d, _, hk, hn =>
    simp [KeysNodup, hk q1 (by simp), hk q2 (by simp)] at hn

theorem LinOk.zero_of_var {d : Dict} (h : LinOk d) {x : String} (hx : linCoef d [x] ≠ 0) (ρ : String → ℚ) :
    polyEval (Function.update ρ x (ρ x - polyEval ρ d / linCoef d [x])) d = 0 := by
  rw [affine_update h.short h.nodup]; field_simp; ring

/-- Affine functions with the same zeros are proportional. -/
theorem LinOk.proportional {d e : Dict} (hd : LinOk d) (he : LinOk e) (hz : ∀ ρ : String → ℚ, polyEval ρ d = 0 ↔ polyEval ρ e = 0) :
    ∃ c : ℚ, c ≠ 0 ∧ ∀ ρ : String → ℚ, polyEval ρ e = c * polyEval ρ d := by
  by_cases hx : ∃ x, linCoef d [x] ≠ 0
  · obtain ⟨x, hx⟩ := hx
    have key : ∀ ρ : String → ℚ, polyEval ρ e = linCoef e [x] / linCoef d [x] * polyEval ρ d := by
      intro ρ
      have h0 := (hz _).mp (hd.zero_of_var hx ρ)
      rw [affine_update he.short he.nodup] at h0
      have : polyEval ρ e = linCoef e [x] * (polyEval ρ d / linCoef d [x]) := by linarith
      rw [this]; ring
    refine ⟨_, fun hc => he.not_zero fun ρ => ?_, key⟩
    rw [key, hc, zero_mul]
  · push Not at hx
    obtain ⟨v, hv, hd'⟩ := hd.const hx
    have hy : ∀ x, linCoef e [x] = 0 := by
      intro x
      by_contra hne
      have := (hz _).mpr (he.zero_of_var hne fun _ => 0)
      rw [hd'] at this
      exact hv this
    obtain ⟨w, hw, he'⟩ := he.const hy
    exact ⟨w / v, div_ne_zero hw hv, fun ρ => by rw [hd', he']; field_simp⟩

/-- The canonical dictionary, up to the order of its entries, is that of every proportional one. -/
theorem LinOk.canon_perm {d e : Dict} (hd : LinOk d) (he : LinOk e) (hz : ∀ ρ : String → ℚ, polyEval ρ d = 0 ↔ polyEval ρ e = 0) :
    (d.map fun p => (p.1, p.2 / leadCoef d)).Perm (e.map fun p => (p.1, p.2 / leadCoef e)) := by
  obtain ⟨c, hc, hp⟩ := hd.proportional he hz
  have hcoef : ∀ k, linCoef e k = c * linCoef d k := by
    intro k
    have h1 := lookup_eq_of_eval (fun q hq => key_sorted (he.short q hq)) he.nodup (e := d.map fun p => (p.1, p.2 * c))
      (by intro q hq; obtain ⟨r, hr, rfl⟩ := List.mem_map.mp hq; exact key_sorted (hd.short r hr)) (hd.nodup.mapVal _)
      (by intro ρ; rw [polyEval_scale, hp]; simp [mul_comm]) k
    have h2 : linCoef (d.map fun p => (p.1, p.2 * c)) k = linCoef d k * c := linCoef_mapVal d (g := fun x => x * c) (by simp) k
    unfold linCoef at h2 ⊢
    rw [h1, h2, mul_comm]
  have hkeys : (d.map (·.1)).Perm (e.map (·.1)) := by
    refine (List.perm_ext_iff_of_nodup hd.nodup he.nodup).mpr fun k => ?_
    rw [hd.mem_iff, he.mem_iff, hcoef]
    simp [hc]
  have hlead : leadCoef e = c * leadCoef d := by
    unfold leadCoef
    rw [← sortedKeys_of_perm hkeys]
    cases sortedKeys d with
    | nil => simp
    | cons k ks => exact hcoef k
  have h0 := leadCoef_ne_zero hd.nodup hd.nonzero hd.ne
  have hnd : ∀ {x : Dict} {a : ℚ}, KeysNodup x → (x.map fun p => (p.1, p.2 / a)).Nodup := by
    intro x a hx
    have := hx.mapVal (fun p => p.2 / a)
    exact List.Nodup.of_map _ this
  refine (List.perm_ext_iff_of_nodup (hnd hd.nodup) (hnd he.nodup)).mpr fun p => ?_
  have hmem : ∀ {x : Dict} {a : ℚ}, LinOk x → (p ∈ x.map (fun p => (p.1, p.2 / a)) ↔ p.1 ∈ x.map (·.1) ∧ p.2 = linCoef x p.1 / a) := by
    intro x a hx
    constructor
    · intro h
      obtain ⟨r, hr, rfl⟩ := List.mem_map.mp h
      exact ⟨List.mem_map.mpr ⟨r, hr, rfl⟩, by rw [linCoef_mem hx.nodup hr]⟩
    · rintro ⟨h1, h2⟩
      obtain ⟨r, hr, h3⟩ := List.mem_map.mp h1
      refine List.mem_map.mpr ⟨r, hr, ?_⟩
      rw [← h3, linCoef_mem hx.nodup hr] at h2
      exact Prod.ext h3 h2.symm
  rw [hmem hd, hmem he, hlead, hcoef, hkeys.mem_iff]
  refine and_congr_right fun _ => ?_
  rw [mul_div_mul_left _ _ hc]

theorem polyEval_perm {d e : Dict} (h : d.Perm e) (ρ : String → ℚ) : polyEval ρ d = polyEval ρ e := (h.map _).sum_eq

/-- The text of an inequality depends on the order of the entries with variables only. -/
theorem linToSmt_perm {d e : Dict} (h : d.Perm e) (hd : KeysNodup d) (hf : (d.filter fun p => p.1 ≠ []) = e.filter fun p => p.1 ≠ []) :
    linToSmt d = linToSmt e := by
  have he : KeysNodup e := (h.map _).nodup_iff.mp hd
  have hl : ∀ k, d.lookup k = e.lookup k := by
    intro k
    cases hx : d.lookup k with
    | some v => exact (lookup_of_mem he (h.mem_iff.mp (mem_of_lookup hx))).symm
    | none =>
      cases hy : e.lookup k with
      | none => rfl
      | some v => rw [lookup_of_mem hd (h.mem_iff.mpr (mem_of_lookup hy))] at hx; cases hx
  unfold linToSmt linCoef
  rw [h.length_eq, hl, hf]

/-! ### C93 -/

theorem linOk_of {l r g : Formula} (hl : linTerm l = true) (hr : linTerm r = true) (hg : g = .le l r ∨ g = .lt l r)
    (hne : ∃ σ : Env ℚ, value σ l ≠ value σ r) : ∃ q c, linFromSmt g = .ok q ∧ LinOk q ∧ 0 < c ∧
      ∀ σ : Env ℚ, polyEval σ.r q = (value σ l - value σ r) * c := by
  obtain ⟨q, hq⟩ := linFromSmt_ok hl hr hg
  obtain ⟨c, hc, he, h1, h2, h3⟩ := linFromSmt_cmp (K := ℚ) (lin_wt hl) (lin_wt hr) hg hq
  refine ⟨q, c, hq, ⟨h1, h2, h3, ?_⟩, hc, by simpa using he⟩
  rintro rfl
  obtain ⟨σ, hσ⟩ := hne
  have := he σ
  simp [polyEval, hc.ne', sub_eq_zero, hσ] at this

theorem isBool_cmp {l r g : Formula} (hg : g = .le l r ∨ g = .lt l r) : isBoolTest g = false := by rcases hg with rfl | rfl <;> rfl

/-- C93: linear comparisons with the same boundary (and sides that are not the same everywhere) get canonical decisions with the same
inequality as a dictionary, whose tests are true at the same points. Missing: the tests are the same formulas only if the variables are
in the same order (`canonical_order_wrong`). -/
theorem canonical_same_partial {l1 r1 g1 l2 r2 g2 : Formula} (hl1 : linTerm l1 = true) (hr1 : linTerm r1 = true) (hg1 : g1 = .le l1 r1 ∨ g1 = .lt l1 r1)
    (hl2 : linTerm l2 = true) (hr2 : linTerm r2 = true) (hg2 : g2 = .le l2 r2 ∨ g2 = .lt l2 r2) (hne : ∃ σ : Env ℚ, value σ l1 ≠ value σ r1)
    (hs : SameBoundary l1 r1 l2 r2) (simp : Formula → Formula) (t1 f1 t2 f2 : ℕ) :
    ∃ d1 d2 q1 q2 a1 b1 a2 b2, toCanonical simp ⟨g1, none, false⟩ t1 f1 = .ok (d1, a1, b1) ∧
      toCanonical simp ⟨g2, none, false⟩ t2 f2 = .ok (d2, a2, b2) ∧ d1.ineq = some q1 ∧ d2.ineq = some q2 ∧ q1.Perm q2 ∧
      (∀ σ : Env ℚ, truth σ d1.test = truth σ d2.test) ∧
      ((q1.filter fun p => p.1 ≠ []) = (q2.filter fun p => p.1 ≠ []) → d1.test = d2.test) := by
  have hne2 : ∃ σ : Env ℚ, value σ l2 ≠ value σ r2 := by
    obtain ⟨σ, h⟩ := hne; exact ⟨σ, fun e => h ((hs σ).mpr e)⟩
  obtain ⟨q1, c1, h1, ok1, p1, e1⟩ := linOk_of hl1 hr1 hg1 hne
  obtain ⟨q2, c2, h2, ok2, p2, e2⟩ := linOk_of hl2 hr2 hg2 hne2
  have hz : ∀ ρ : String → ℚ, polyEval ρ q1 = 0 ↔ polyEval ρ q2 = 0 := by
    intro ρ
    have a := e1 ⟨fun _ => false, ρ⟩
    have b := e2 ⟨fun _ => false, ρ⟩
    simp only at a b
    rw [a, b]
    simp only [mul_eq_zero, p1.ne', p2.ne', or_false, sub_eq_zero]
    exact hs _
  have hperm := ok1.canon_perm ok2 hz
  obtain ⟨f1', hf1, ht1, hc1⟩ := toCanonical_lin (K := ℚ) (simp := simp) (isBool_cmp hg1) h1 ok1.nodup ok1.nonzero ok1.ne t1 f1
  obtain ⟨f2', hf2, ht2, hc2⟩ := toCanonical_lin (K := ℚ) (simp := simp) (isBool_cmp hg2) h2 ok2.nodup ok2.nonzero ok2.ne t2 f2
  refine ⟨_, _, _, _, _, _, _, _, hc1, hc2, rfl, rfl, hperm, fun σ => ?_, fun hf => ?_⟩
  · rw [Bool.eq_iff_iff, ht1, ht2, polyEval_perm hperm]
  · have := linToSmt_perm hperm (ok1.nodup.mapVal _) hf
    rw [hf1, hf2] at this
    exact Except.ok.inj this

theorem value_other {x y : String} {f : Formula} (hl : linTerm f = true) (hx : OnlyVar x f) (hy : y ≠ x) (ρ : String → ℚ) (v : ℚ) :
    value (⟨fun _ => false, Function.update ρ y v⟩ : Env ℚ) f = value ⟨fun _ => false, ρ⟩ f := by
  refine Formula.value_congr (lin_wt hl) fun p hp => ?_
  have := hx p hp
  obtain ⟨n, ty⟩ := p
  simp only at this
  subst this
  cases ty
  · rfl
  · show Function.update ρ y v n = ρ n
    exact Function.update_of_ne (Ne.symm hy) _ _

theorem short_of_key {L : Dict} {k : Mono} (hk : ∀ p ∈ L, p.1 = k) (hn : KeysNodup L) : L.length ≤ 1 := by
  match L, hk, hn with
  | [], _, _ => simp
  | [_], _, _ => simp
  | a :: b :: L, hk, hn => simp [KeysNodup, hk a (by simp), hk b (by simp)] at hn

theorem short_perm {L M : Dict} (h : L.length ≤ 1) (hp : L.Perm M) : L = M := by
  match L, h, hp with
  | [], _, hp => exact hp.nil_eq
  | [a], _, hp => exact (List.perm_singleton.mp hp.symm).symm

/-- C93: with a single variable the decisions are the same. -/
theorem canonical_one_variable {x : String} {l1 r1 g1 l2 r2 g2 : Formula} (hl1 : linTerm l1 = true) (hr1 : linTerm r1 = true)
    (hg1 : g1 = .le l1 r1 ∨ g1 = .lt l1 r1) (hl2 : linTerm l2 = true) (hr2 : linTerm r2 = true) (hg2 : g2 = .le l2 r2 ∨ g2 = .lt l2 r2)
    (hne : ∃ σ : Env ℚ, value σ l1 ≠ value σ r1) (hs : SameBoundary l1 r1 l2 r2) (hx : OnlyVar x l1 ∧ OnlyVar x r1) (simp : Formula → Formula) (t1 f1 t2 f2 : ℕ) :
    ∃ d1 d2 a1 b1 a2 b2, toCanonical simp ⟨g1, none, false⟩ t1 f1 = .ok (d1, a1, b1) ∧
      toCanonical simp ⟨g2, none, false⟩ t2 f2 = .ok (d2, a2, b2) ∧ d1.test = d2.test := by
  obtain ⟨d1, d2, q1, q2, a1, b1, a2, b2, h1, h2, i1, i2, hp, -, ht⟩ := canonical_same_partial hl1 hr1 hg1 hl2 hr2 hg2 hne hs simp t1 f1 t2 f2
  refine ⟨d1, d2, a1, b1, a2, b2, h1, h2, ht ?_⟩
  obtain ⟨q, c, hq, ok, hc, he⟩ := linOk_of hl1 hr1 hg1 hne
  obtain ⟨f', -, -, hc'⟩ := toCanonical_lin (K := ℚ) (simp := simp) (isBool_cmp hg1) hq ok.nodup ok.nonzero ok.ne t1 f1
  rw [h1, Except.ok.injEq, Prod.mk.injEq] at hc'
  obtain ⟨rfl, -⟩ := hc'
  simp only [Option.some.injEq] at i1
  subst i1
  have hnd := ok.nodup.mapVal (fun p => p.2 / leadCoef q)
  have hkey : ∀ p ∈ (q.map fun p => (p.1, p.2 / leadCoef q)).filter (fun p => p.1 ≠ []), p.1 = [x] := by
    intro p hp
    obtain ⟨hp, hp0⟩ := List.mem_filter.mp hp
    obtain ⟨r, hr, rfl⟩ := List.mem_map.mp hp
    have hlen := ok.short r hr
    simp only [ne_eq, decide_not, Bool.not_eq_true', decide_eq_false_iff_not] at hp0
    match hr1' : r.1, hlen with
    | [], _ => exact absurd hr1' hp0
    | [y], _ =>
      by_contra hyx
      have hyx : y ≠ x := by simpa using hyx
      have hcoef := (ok.mem_iff [y]).mp (List.mem_map.mpr ⟨r, hr, hr1'⟩)
      have a := affine_update ok.short ok.nodup (fun _ => 0) y 1
      have e1 := he ⟨fun _ => false, Function.update (fun _ => 0) y 1⟩
      have e2 := he ⟨fun _ => false, fun _ => 0⟩
      rw [value_other hl1 hx.1 hyx, value_other hr1 hx.2 hyx] at e1
      simp only at e1 e2
      rw [a, e2] at e1
      simp at e1
      exact hcoef e1
  exact short_perm (short_of_key hkey (hnd.filter _)) (hp.filter _)

/-- C93 is wrong for two variables: `x + y < 1` and `y + x < 1` are true at the same points, but their canonical decisions are different,
so diagrams test both. -/
theorem canonical_order_wrong : (∀ σ : Env ℚ, truth σ (.lt (.plus [.sym "x" .real, .sym "y" .real]) (.realC 1)) =
      truth σ (.lt (.plus [.sym "y" .real, .sym "x" .real]) (.realC 1))) ∧
    (∃ d1 d2, toCanonical id ⟨.lt (.plus [.sym "x" .real, .sym "y" .real]) (.realC 1), none, false⟩ 1 2 = .ok (d1, 2, 1) ∧
      toCanonical id ⟨.lt (.plus [.sym "y" .real, .sym "x" .real]) (.realC 1), none, false⟩ 1 2 = .ok (d2, 2, 1) ∧ d1.test ≠ d2.test) := by
  refine ⟨fun σ => ?_,
    ⟨.lt (.plus [.times [.sym "x" .real, .realC (-1)], .times [.sym "y" .real, .realC (-1)]]) (.realC (-1)), some [(["x"], -1), (["y"], -1), ([], 1)], true⟩,
    ⟨.lt (.plus [.times [.sym "y" .real, .realC (-1)], .times [.sym "x" .real, .realC (-1)]]) (.realC (-1)), some [(["y"], -1), (["x"], -1), ([], 1)], true⟩,
    by decide +kernel, by decide +kernel, ?_⟩
  · simp [truth, value, valueSum, add_comm]
  · decide +kernel

/-- The hypotheses are met: `2x <= 3` and `-6 < -4x`. -/
example : ∃ d1 d2 a1 b1 a2 b2, toCanonical id ⟨.le (.times [.sym "x" .real, .realC 2]) (.realC 3), none, false⟩ 1 2 = .ok (d1, a1, b1) ∧
      toCanonical id ⟨.lt (.realC (-6)) (.times [.sym "x" .real, .realC (-4)]), none, false⟩ 3 4 = .ok (d2, a2, b2) ∧ d1.test = d2.test := by
  refine canonical_one_variable (x := "x") (by decide) (by decide) (.inl rfl) (by decide) (by decide) (.inr rfl)
    ⟨⟨fun _ => false, fun _ => 0⟩, by simp [value, valueProd]⟩ ?_ ⟨by simp [OnlyVar, syms, symsList], by simp [OnlyVar, syms, symsList]⟩ id 1 2 3 4
  intro σ
  simp only [value, valueProd]
  constructor <;> intro h <;> push_cast at h ⊢ <;> linarith

end Pywmi
