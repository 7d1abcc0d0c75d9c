import Verif.Props.Diagram

set_option linter.unusedSectionVars false
set_option linter.unusedSimpArgs false

/-!
# C96: transforming the leaves of a diagram changes nothing else
-/

namespace Pywmi
open Formula MeasureTheory

section
variable {E : Type} [DecidableEq E] {X : XCtx E} {ev : E → (String → ℝ) → ℝ} {Γ : String → Ty}

/-- Values read off the leaf of a path. -/
theorem LeafSpec.value {Rel : (Formula → Bool) → E → E → Prop} {P : Formula → Prop} {O : Prop} {p q : Pool E} {n r : ℕ} {T T' : XTree E}
    (hT : Den p n T) (hT' : Den q r T') (hs : LeafSpec Rel P O q.tests T T') {w : E → (String → ℝ) → ℝ}
    (h : ∀ c e e', Rel c e e' → ev e' = w e) {σ : Env ℝ} {v : ℝ} (hv : ValAt w p σ n v) : ValAt ev q σ r v := by
  rw [hT.val_iff] at hv
  rw [hT'.val_iff, hv]
  unfold XTree.eval
  rw [h _ _ _ (hs.rel _)]

/-- C96: in every pool that can come up, `transform_leaves` with a function on expressions returns the diagram that, for every
assignment, has the value of the function's result on the leaf the given diagram reaches.  The result is ordered even when the
given diagram is not, and the given diagram and all others keep their values. -/
theorem transform_leaves_partial (hX : XLaw X ev) {p : Pool E} (hp : Reachable X Γ p) {n : ℕ} (hn : (p.node n).isSome) (hf : Fresh p n) (g : E → E) :
    ∃ r q, transformLeaves X (mapLeaf g) n p = (.ok r, q) ∧ (∀ σ v, ValAt (fun e => ev (g e)) p σ n v → ValAt ev q σ r v) ∧ Ordered q r ∧
      (∀ m σ v, ValAt ev p σ m v → ValAt ev q σ m v) := by
  have hi := hp.inv hX
  obtain ⟨T, hT⟩ := hi.core.den hn
  obtain ⟨r, q, h1, hq, he, T', hT', hs⟩ := (transformMap_run hX.simp hX.back hi.toInvP hT g).returns hf
  refine ⟨r, q, h1, fun σ v hv => hs.value hT hT' (fun c e e' h => ?_) hv, hT'.ordered_iff.mpr (hs.ord trivial), fun m σ v hv => ?_⟩
  · rw [show e' = g e from h]
  · exact kept_val hi.core he.toExt hv.isSome hv

/-- C96: `to_binary` returns an ordered 0/1 diagram that is 0 for the assignments whose leaf compares equal to 0, and 1 for all
others. -/
theorem to_binary_partial (hX : XLaw X ev) {p : Pool E} (hp : Reachable X Γ p) {n : ℕ} (hn : (p.node n).isSome) (hf : Fresh p n) (z : E → Bool) :
    ∃ r q, toBinary X z n p = (.ok r, q) ∧ (∀ σ v, ValAt (fun e _ => if z e then 0 else 1) p σ n v → ValAt ev q σ r v) ∧
      Ordered q r ∧ Binary X q r ∧ (∀ m σ v, ValAt ev p σ m v → ValAt ev q σ m v) := by
  have hi := hp.inv hX
  obtain ⟨T, hT⟩ := hi.core.den hn
  obtain ⟨r, q, h1, hq, he, T', hT', hs⟩ := (toBinary_run hX.simp hX.back hi.toInvP hT z).returns hf
  have ho : T'.Ord q.tests := hs.ord trivial
  refine ⟨r, q, h1, fun σ v hv => hs.value hT hT' (fun c e e' h => ?_) hv, hT'.ordered_iff.mpr ho, hT'.binary_iff.mpr fun e h => ?_,
    fun m σ v hv => kept_val hi.core he.toExt hv.isSome hv⟩
  · rw [show e' = _ from h]
    funext ρ
    dsimp only
    split
    · exact hX.back.evZero ρ
    · exact hX.back.evOne ρ
  · obtain ⟨c, rfl, -⟩ := ho.reach e h fun _ => true
    rw [show T'.leafAt c = _ from hs.rel c]
    dsimp only
    split
    · exact Or.inl rfl
    · exact Or.inr rfl

/-- C96: when the comparison is right about the leaves it calls zero, `to_binary` is 0 only where the diagram is 0, and it keeps
the values of 0/1 diagrams. -/
theorem to_binary_zero_partial (hX : XLaw X ev) {p : Pool E} (hp : Reachable X Γ p) {n : ℕ} (hn : (p.node n).isSome) (hf : Fresh p n) {z : E → Bool}
    (hz : ∀ e, z e = true → ∀ ρ, ev e ρ = 0) :
    ∃ r q, toBinary X z n p = (.ok r, q) ∧
      (∀ σ v, ValAt ev p σ n v → ValAt ev q σ r 1 ∨ (v = 0 ∧ ValAt ev q σ r 0)) ∧
      (z X.back.alg.zero = true → Binary X p n → ∀ σ v, ValAt ev p σ n v → ValAt ev q σ r v) := by
  have hi := hp.inv hX
  obtain ⟨T, hT⟩ := hi.core.den hn
  obtain ⟨r, q, h1, h2, -⟩ := to_binary_partial hX hp hn hf z
  refine ⟨r, q, h1, fun σ v hv => ?_, fun h0 hb σ v hv => ?_⟩
  · rw [hT.val_iff] at hv
    have := h2 σ _ (hT.val_iff.mpr rfl)
    unfold XTree.eval at this hv
    by_cases hc : z (T.leafAt (truth σ ·)) = true
    · simp only [hc, if_true] at this
      exact Or.inr ⟨hv.trans (hz _ hc _), this⟩
    · simp only [hc] at this
      exact Or.inl this
  · rw [hT.val_iff] at hv
    have := h2 σ _ (hT.val_iff.mpr rfl)
    unfold XTree.eval at this hv
    rcases hT.binary_iff.mp hb _ (XTree.leafAt_mem (truth σ ·) T) with h | h
    · rw [h] at this
      simp only [h0, if_true] at this
      rw [hv, h, hX.back.evZero]
      exact this
    · have h3 : z X.back.alg.one ≠ true := fun h4 => by
        have := hz _ h4 σ.r
        rw [hX.back.evOne] at this
        exact one_ne_zero this
      rw [h] at this
      simp only [h3] at this
      rw [hv, h, hX.back.evOne]
      exact this

/-- C96, finding: an algebra whose expressions never compare equal to the integer 0, like that of `Polynomial`
(/repo/pywmi/smt_math.py:123-124), makes `to_binary` the constant 1. -/
theorem to_binary_constant (hX : XLaw X ev) {p : Pool E} (hp : Reachable X Γ p) {n : ℕ} (hn : (p.node n).isSome) (hf : Fresh p n) :
    ∃ r q, toBinary X (fun _ => false) n p = (.ok r, q) ∧ ∀ σ, ValAt ev q σ r 1 := by
  obtain ⟨T, hT⟩ := (hp.inv hX).core.den hn
  obtain ⟨r, q, h1, h2, -⟩ := to_binary_partial hX hp hn hf fun _ => false
  refine ⟨r, q, h1, fun σ => ?_⟩
  have := h2 σ _ (hT.val_iff.mpr rfl)
  unfold XTree.eval at this
  simpa using this

/-- EXAMPLE: node 3 is the leaf x. -/
def exLeafX : Pool Dict := runOps [.terminal [(["x"], 1)]] (newPool exCtx)

/-- C96, finding: the comparison looks at the expression, not at its value: a leaf that is no constant gives 1 where it is 0. -/
theorem to_binary_wrong : ∃ (p : Pool Dict) (n r : ℕ) (q : Pool Dict) (σ : Env ℝ), Reachable exCtx exTypes p ∧ Fresh p n ∧
    toBinary exCtx (fun e => decide (e = [])) n p = (.ok r, q) ∧ ValAt exEv p σ n 0 ∧ ValAt exEv q σ r 1 := by
  have h3 : exLeafX.node 3 = some (.leaf [(["x"], 1)]) := by decide +kernel
  have h1 : (toBinary exCtx (fun e => decide (e = [])) 3 exLeafX).1 = .ok 2 := by decide +kernel
  have h2 : (toBinary exCtx (fun e => decide (e = [])) 3 exLeafX).2.node 2 = some (.leaf [([], 1)]) := by decide +kernel
  have h0 : exLeafX.profiles = [] := by decide +kernel
  generalize hr : toBinary exCtx (fun e => decide (e = [])) 3 exLeafX = r at h1 h2
  obtain ⟨r1, q⟩ := r
  have h1 : r1 = .ok 2 := h1
  have h2 : q.node 2 = some (.leaf [([], 1)]) := h2
  subst h1
  refine ⟨exLeafX, 3, 2, q, ⟨fun _ => false, fun _ => 0⟩, .step (.terminal _) .refl trivial, ?_, hr, ?_, ?_⟩
  · intro pr h
    rw [h0] at h
    cases h
  · have := ValAt.leaf (ev := exEv) (σ := ⟨fun _ => false, fun _ => 0⟩) h3
    simpa [exEv, polyEval_cons, monoEval] using this
  · have := ValAt.leaf (ev := exEv) (σ := ⟨fun _ => false, fun _ => 0⟩) h2
    simpa [exEv, polyEval_cons, monoEval] using this

/-- C96, finding: after an inversion that raised, the leaves of the same diagram cannot be transformed any more. -/
theorem to_binary_after_raise : (toBinary exCtx (fun e => decide (e = [])) 5 exDirty).1 = .error .runtimeError := by decide +kernel

theorem exPool_profiles : exPool.profiles = [] := by decide +kernel

theorem exPool_ite : exPool.node 12 = some (.inner ⟨exB, none, true⟩ 7 8) ∧ exPool.node 7 = some (.leaf [([], 2)]) ∧
    exPool.node 8 = some (.leaf [(["x"], 1)]) := by decide +kernel

/-- The hypotheses are met: the leaves of `if b then 2 else x` are squared. -/
theorem transform_leaves_concrete : ∃ r q, transformLeaves exCtx (mapLeaf fun e => exTimes e e) 12 exPool = (.ok r, q) ∧ Ordered q r ∧
    ∀ σ : Env ℝ, ValAt exEv q σ r (if σ.b "b" then 4 else σ.r "x" ^ 2) := by
  have hf : Fresh exPool 12 := by
    intro pr h
    rw [exPool_profiles] at h
    cases h
  obtain ⟨r, q, h1, h2, h3, -⟩ := transform_leaves_partial exLaw exPool_reachable exPool_nodes.2.2.2 hf fun e => exTimes e e
  refine ⟨r, q, h1, h3, fun σ => h2 σ _ ?_⟩
  obtain ⟨n12, n7, n8⟩ := exPool_ite
  split
  · rename_i hb
    have := ValAt.pos (ev := fun e => exEv (exTimes e e)) (σ := σ) n12 (by simpa [exB, truth] using hb) (.leaf n7)
    have h4 : exEv (exTimes [([], 2)] [([], 2)]) σ.r = 4 := by
      rw [show exTimes [([], 2)] [([], 2)] = [([], 4)] by decide +kernel]
      simp [exEv, polyEval_cons, monoEval]
    rwa [h4] at this
  · rename_i hb
    have := ValAt.neg (ev := fun e => exEv (exTimes e e)) (σ := σ) n12 (by simpa [exB, truth] using hb) (.leaf n8)
    have h4 : exEv (exTimes [(["x"], 1)] [(["x"], 1)]) σ.r = σ.r "x" ^ 2 := by
      rw [show exTimes [(["x"], 1)] [(["x"], 1)] = [(["x", "x"], 1)] by decide +kernel]
      simp [exEv, polyEval_cons, monoEval, sq]
    rwa [h4] at this

/-- The hypotheses are met: `x` where `b` is false, else 0. -/
example : ∃ r q, toBinary exCtx (fun e => decide (e = [])) 12 exPool = (.ok r, q) ∧ Ordered q r ∧ Binary exCtx q r := by
  have hf : Fresh exPool 12 := by
    intro pr h
    rw [exPool_profiles] at h
    cases h
  obtain ⟨r, q, h1, -, h2, h3, -⟩ := to_binary_partial exLaw exPool_reachable exPool_nodes.2.2.2 hf fun e => decide (e = [])
  exact ⟨r, q, h1, h2, h3⟩

end
end Pywmi
