import Verif.Props.XaddExamples
import Verif.Xadd.Diagram

set_option linter.unusedSectionVars false
set_option linter.unusedSimpArgs false

/-!
# C83: operators of diagrams
-/

namespace Pywmi
open Formula Prog

section
variable {E : Type} [DecidableEq E] {X : ℕ → XCtx E} {ev : E → (String → ℝ) → ℝ} {Γ : String → Ty}

/-! ### Results stay as they are -/

theorem kept_ordered {Y : XCtx E} {p q : Pool E} (hp : Core Y p) (he : Ext p q) {n : ℕ} (hn : (p.node n).isSome) (h : Ordered p n) : Ordered q n := by
  obtain ⟨T, hT⟩ := hp.den hn
  exact (he.den hT).ordered_iff.mpr ((XTree.Ord.mono he.tests (hT.tests hp)).mpr (hT.ordered_iff.mp h))

theorem kept_binary {Y : XCtx E} {p q : Pool E} (hp : Core Y p) (he : Ext p q) {n : ℕ} (hn : (p.node n).isSome) (h : Binary Y p n) : Binary Y q n := by
  obtain ⟨T, hT⟩ := hp.den hn
  exact (he.den hT).binary_iff.mpr (hT.binary_iff.mp h)

theorem kept_val {Y : XCtx E} {p q : Pool E} (hp : Core Y p) (he : Ext p q) {n : ℕ} (hn : (p.node n).isSome) {σ : Env ℝ} {v : ℝ}
    (h : ValAt ev p σ n v) : ValAt ev q σ n v := by
  obtain ⟨T, hT⟩ := hp.den hn
  rw [(he.den hT).val_iff]
  exact hT.val_iff.mp h

theorem setPool_self {h : Heap E} {i : ℕ} {q : Pool E} : h.setPool i q i = q := if_pos rfl
theorem setPool_ne {h : Heap E} {i j : ℕ} {q : Pool E} (hj : j ≠ i) : h.setPool i q j = h j := if_neg hj

/-! ### What an expression means -/

/-- SPEC: the value of an expression, from the values of its diagrams.  Or and and are maximum and minimum, complement is one minus
the value. -/
noncomputable def DExpr.val (f : Diagram → ℝ) : DExpr → ℝ
  | .diagram d => f d
  | .op .add a b => a.val f + b.val f
  | .op .mul a b => a.val f * b.val f
  | .op .or a b => max (a.val f) (b.val f)
  | .op .and a b => min (a.val f) (b.val f)
  | .opOther _ a => a.val f
  | .sub a b => a.val f - b.val f
  | .inv a => 1 - a.val f

/-- SPEC: expressions over diagrams of pool `i` where `|`, `&` and `~` are used on 0/1 diagrams (flag `true`), without
subtraction. -/
inductive DOk (Y : XCtx E) (p : Pool E) (i : ℕ) : Bool → DExpr → Prop
  | diagram {d : Diagram} : d.pool = i → (p.node d.root).isSome → DOk Y p i false (.diagram d)
  | indicator {d : Diagram} : d.pool = i → (p.node d.root).isSome → Binary Y p d.root → DOk Y p i true (.diagram d)
  | add {a b : DExpr} {x y : Bool} : DOk Y p i x a → DOk Y p i y b → DOk Y p i false (.op .add a b)
  | mul {a b : DExpr} {x y : Bool} : DOk Y p i x a → DOk Y p i y b → DOk Y p i (x && y) (.op .mul a b)
  | or {a b : DExpr} : DOk Y p i true a → DOk Y p i true b → DOk Y p i true (.op .or a b)
  | and {a b : DExpr} : DOk Y p i true a → DOk Y p i true b → DOk Y p i true (.op .and a b)
  | inv {a : DExpr} : DOk Y p i true a → DOk Y p i true (.inv a)

/-- SPEC: the diagrams of an expression have the given values. -/
def DExpr.Leaves (P : Diagram → Prop) : DExpr → Prop
  | .diagram d => P d
  | .op _ a b => a.Leaves P ∧ b.Leaves P
  | .opOther _ a => a.Leaves P
  | .sub a b => a.Leaves P ∧ b.Leaves P
  | .inv a => a.Leaves P

/-- The result of an expression. -/
structure DRes (X : ℕ → XCtx E) (ev : E → (String → ℝ) → ℝ) (Γ : String → Ty) (p : Pool E) (i : ℕ) (b : Bool) (e : DExpr) (h : Heap E) (r : ℕ) (h' : Heap E) : Prop where
  hist : Hist (X i) Γ (h i) (h' i)
  node : ((h' i).node r).isSome
  ordered : e.Leaves (fun d => Ordered p d.root) → Ordered (h' i) r
  binary : b = true → Binary (X i) (h' i) r
  val : ∀ σ f, e.Leaves (fun d => ValAt ev p σ d.root (f d)) → ValAt ev (h' i) σ r (e.val f)
  others : ∀ j, j ≠ i → h' j = h j

theorem onPool_ok {i r : ℕ} {m : XM E ℕ} {h : Heap E} {q : Pool E} (hm : m (h i) = (.ok r, q)) (hr : (q.node r).isSome) :
    onPool i m h = (.ok ⟨i, r⟩, h.setPool i q) := by
  obtain ⟨x, hx⟩ := Option.isSome_iff_exists.mp hr
  unfold onPool
  rw [hm]
  simp only [getNode, hx]

theorem diagramOp_ok {i a b r : ℕ} {op : XOp} {h : Heap E} {q : Pool E} {sh : Option PyErr} (hm : apply (X i) op a b (h i) = (.ok r, q)) (hr : (q.node r).isSome) :
    diagramOp X sh op ⟨i, a⟩ (some ⟨i, b⟩) h = (.ok ⟨i, r⟩, h.setPool i q) := by
  unfold diagramOp
  simp only [ne_eq, not_true, if_false]
  rw [onPool_ok hm hr]

theorem apply_res {i : ℕ} (hX : XLaw (X i) ev) {p : Pool E} (hp : Reachable (X i) Γ p) {op : XOp} {x y z : Bool} {e1 e2 : DExpr} {h h1 h2 : Heap E} {r1 r2 : ℕ}
    (hh : Hist (X i) Γ p (h i)) (k1 : DRes X ev Γ p i x e1 h r1 h1) (k2 : DRes X ev Γ p i y e2 h1 r2 h2)
    (hbin : op = .or ∨ op = .and → x = true ∧ y = true) (hz : z = true → op ≠ .add ∧ x = true ∧ y = true) {sh : Option PyErr} :
    ∃ r h', diagramOp X sh op ⟨i, r1⟩ (some ⟨i, r2⟩) h2 = (.ok ⟨i, r⟩, h') ∧ DRes X ev Γ p i z (.op op e1 e2) h r h' := by
  have hp1 : Reachable (X i) Γ (h1 i) := (hp.trans hh).trans k1.hist
  have hp2 : Reachable (X i) Γ (h2 i) := hp1.trans k2.hist
  have hi1 := hp1.inv hX
  obtain ⟨-, he⟩ := k2.hist.keeps hX hi1
  have n1 := he.isSome k1.node
  have b1 : x = true → Binary (X i) (h2 i) r1 := fun hx => kept_binary hi1.core he k1.node (k1.binary hx)
  obtain ⟨r, q, e1', v⟩ := apply_pointwise hX hp2 n1 k2.node (op := op) fun ho => ⟨b1 (hbin ho).1, k2.binary (hbin ho).2⟩
  obtain ⟨s1, s2⟩ := apply_shape hX hp2 n1 k2.node e1'
  have hstep : Hist (X i) Γ (h2 i) q := by
    have := Hist.step (X := X i) (Γ := Γ) (p := h2 i) (.apply op r1 r2) .refl ⟨n1, k2.node⟩
    simpa only [PoolOp.exec, e1'] using this
  have hrq : (q.node r).isSome := by
    obtain ⟨T1, hT1⟩ := (hp2.inv hX).core.den n1
    obtain ⟨T2, hT2⟩ := (hp2.inv hX).core.den k2.node
    have h3 := (apply_run hX.simp op (hp2.inv hX).toInv0 hT1 hT2).2.2.1
    rw [e1'] at h3
    obtain ⟨T, hT, -⟩ := h3 r rfl
    exact hT.isSome
  refine ⟨r, _, diagramOp_ok e1' hrq, ?_, ?_, fun ho => ?_, fun hz' => ?_, fun σ f hl => ?_, fun j hj => ?_⟩
  · rw [setPool_self]; exact (k1.hist.trans k2.hist).trans hstep
  · rw [setPool_self]; exact hrq
  · rw [setPool_self]; exact s2 (kept_ordered hi1.core he k1.node (k1.ordered ho.1)) (k2.ordered ho.2)
  · rw [setPool_self]; exact s1 (hz hz').1 (b1 (hz hz').2.1) (k2.binary (hz hz').2.2)
  · rw [setPool_self]
    have w1 := kept_val hi1.core he k1.node (k1.val σ f hl.1)
    have w := v σ _ _ w1 (k2.val σ f hl.2)
    rw [opR_bits] at w
    cases op <;> exact w
  · rw [setPool_ne hj, k2.others j hj, k1.others j hj]

/-- C83: an expression over diagrams of one pool returns a diagram of this pool that has, for every assignment, the value of the
expression, also when the operands share nodes; the diagrams used and all other pools are unchanged. -/
theorem diagram_operators_partial {i : ℕ} (hX : XLaw (X i) ev) {p : Pool E} (hp : Reachable (X i) Γ p) {sh : Option PyErr} {b : Bool} {e : DExpr}
    (he : DOk (X i) p i b e) : ∀ {h : Heap E}, Hist (X i) Γ p (h i) → ∃ r h', e.run X sh h = (.ok ⟨i, r⟩, h') ∧ DRes X ev Γ p i b e h r h' := by
  have leaf : ∀ {d : Diagram} {h : Heap E} {b : Bool}, Hist (X i) Γ p (h i) → d.pool = i → (p.node d.root).isSome →
      (b = true → Binary (X i) p d.root) → ∃ r h', (DExpr.diagram d).run X sh h = (.ok ⟨i, r⟩, h') ∧ DRes X ev Γ p i b (.diagram d) h r h' := by
    rintro ⟨_, r⟩ h b hh rfl hn hb
    have hi := hp.inv hX
    obtain ⟨-, he⟩ := hh.keeps hX hi
    exact ⟨r, h, rfl, .refl, he.isSome hn, fun ho => kept_ordered hi.core he hn ho, fun hb' => kept_binary hi.core he hn (hb hb'),
      fun σ f hl => kept_val hi.core he hn hl, fun _ _ => rfl⟩
  have bin : ∀ {op : XOp} {x y z : Bool} {a c : DExpr} {h : Heap E}, Hist (X i) Γ p (h i) →
      (∀ {h : Heap E}, Hist (X i) Γ p (h i) → ∃ r h', a.run X sh h = (.ok ⟨i, r⟩, h') ∧ DRes X ev Γ p i x a h r h') →
      (∀ {h : Heap E}, Hist (X i) Γ p (h i) → ∃ r h', c.run X sh h = (.ok ⟨i, r⟩, h') ∧ DRes X ev Γ p i y c h r h') →
      (op = .or ∨ op = .and → x = true ∧ y = true) → (z = true → op ≠ .add ∧ x = true ∧ y = true) →
      ∃ r h', (DExpr.op op a c).run X sh h = (.ok ⟨i, r⟩, h') ∧ DRes X ev Γ p i z (.op op a c) h r h' := by
    intro op x y z a c h hh ha hc h1 h2
    obtain ⟨r1, g1, e1, k1⟩ := ha hh
    obtain ⟨r2, g2, e2, k2⟩ := hc (hh.trans k1.hist)
    obtain ⟨r, g, e3, k3⟩ := apply_res hX hp (op := op) (z := z) hh k1 k2 h1 h2 (sh := sh)
    exact ⟨r, g, by unfold DExpr.run; rw [e1]; simp only; rw [e2]; simp only; rw [e3], k3⟩
  induction he with
  | diagram h1 h2 => intro h hh; exact leaf hh h1 h2 (by simp)
  | indicator h1 h2 h4 => intro h hh; exact leaf hh h1 h2 fun _ => h4
  | add _ _ ih1 ih2 => intro h hh; exact bin hh ih1 ih2 (by simp) (by simp)
  | mul _ _ ih1 ih2 => intro h hh; exact bin hh ih1 ih2 (by simp) (by simp)
  | or _ _ ih1 ih2 => intro h hh; exact bin hh ih1 ih2 (by simp) (by simp)
  | and _ _ ih1 ih2 => intro h hh; exact bin hh ih1 ih2 (by simp) (by simp)
  | inv _ ih =>
    intro h hh
    obtain ⟨r1, h1, e1, k1⟩ := ih hh
    have hp1 : Reachable (X i) Γ (h1 i) := (hp.trans hh).trans k1.hist
    have hi1 := hp1.inv hX
    obtain ⟨r, q, e2, v, s1, s2⟩ := invert_partial hX hp1 k1.node (k1.binary rfl)
    have hstep : Hist (X i) Γ (h1 i) q := by
      have := Hist.step (X := X i) (Γ := Γ) (p := h1 i) (.invert r1) .refl k1.node
      simpa only [PoolOp.exec, e2] using this
    have hrq : (q.node r).isSome := by
      obtain ⟨T, hT⟩ := hi1.core.den k1.node
      have h3 := (invert_run hX.simp hX.back hi1.toInvP hT).2.2.1
      rw [e2] at h3
      obtain ⟨T', hT', -⟩ := h3 r rfl
      exact hT'.isSome
    refine ⟨r, h1.setPool i q, ?_, ?_, ?_, fun _ => ?_, fun _ => ?_, fun σ f hl => ?_, fun j hj => ?_⟩
    · unfold DExpr.run
      rw [e1]
      exact onPool_ok e2 hrq
    · rw [setPool_self]; exact k1.hist.trans hstep
    · rw [setPool_self]; exact hrq
    · rw [setPool_self]; exact s1
    · rw [setPool_self]; exact s2
    · rw [setPool_self]; exact v σ _ (k1.val σ f hl)
    · rw [setPool_ne hj, k1.others j hj]

/-- C83: operands that are no diagrams give a TypeError, diagrams of two pools a RuntimeError; no pool changes. -/
theorem diagram_operands (sh : Option PyErr) (op : XOp) (a : Diagram) (h : Heap E) :
    diagramOp X sh op a none h = (.error .typeError, h) ∧ diagramSub X sh a none h = (.error .typeError, h) ∧
    ∀ b : Diagram, a.pool ≠ b.pool → diagramOp X sh op a (some b) h = (.error .runtimeError, h) ∧ diagramSub X sh a (some b) h = (.error .runtimeError, h) := by
  refine ⟨rfl, rfl, fun b hb => ?_⟩
  unfold diagramOp diagramSub
  simp only [hb, ne_eq, not_false_eq_true, if_true, and_self]

/-- C83, finding: subtraction never returns.  Every subtraction of diagrams of one pool raises an AssertionError, and uses up an id. -/
theorem diagram_sub_fails (sh : Option PyErr) (a b : Diagram) (hab : a.pool = b.pool) (h : Heap E) :
    ∃ h', diagramSub X sh a (some b) h = (.error .assertionError, h') ∧ (h' a.pool).slots = (h a.pool).slots ++ [none] ∧
      ∀ n, (h' a.pool).node n = (h a.pool).node n := by
  refine ⟨h.setPool b.pool { h b.pool with slots := (h b.pool).slots ++ [none] }, ?_, ?_, fun n => ?_⟩
  · unfold diagramSub
    simp only [hab, ne_eq, not_true, if_false, terminalFNode]
  · rw [hab, setPool_self]
  · rw [hab, setPool_self]
    cases n with
    | zero => rfl
    | succ k =>
      unfold Pool.node
      simp only
      by_cases hk : k < (h b.pool).slots.length
      · rw [List.getElem?_append_left hk]
      · rw [List.getElem?_append_right (by omega)]
        have : (h b.pool).slots[k]? = none := List.getElem?_eq_none_iff.mpr (by omega)
        rw [this]
        by_cases hk' : k - (h b.pool).slots.length = 0
        · rw [hk']; rfl
        · have : ([none] : List (Option (XNode E)))[k - (h b.pool).slots.length]? = none := List.getElem?_eq_none_iff.mpr (by simp; omega)
          rw [this]

/-- C83, finding: an expression with a subtraction never returns. -/
theorem diagram_sub_never (sh : Option PyErr) (a b : DExpr) (h : Heap E) : ∀ d h', (DExpr.sub a b).run X sh h ≠ (.ok d, h') := by
  intro d h' hr
  unfold DExpr.run at hr
  split at hr
  · cases hr
  · split at hr
    · cases hr
    · rename_i _ x g hx _ y g' hy
      by_cases hp : x.pool = y.pool
      · obtain ⟨h2, h3, -⟩ := diagram_sub_fails (X := X) sh x y hp g'
        rw [h3] at hr
        cases hr
      · have := ((diagram_operands (X := X) sh .add x g').2.2 y hp).2
        rw [this] at hr
        cases hr

/-- C83, finding: `Diagram.evaluate` never returns. -/
theorem diagram_evaluate_never (n : ℕ) (p : Pool E) : ∃ e, diagramEvaluate n p = (.error e, p) ∧ ((p.node n).isSome → e = .notImplemented) := by
  unfold diagramEvaluate
  rw [XM.bind_apply]
  unfold getNode
  cases h : p.node n with
  | none => exact ⟨_, rfl, by simp⟩
  | some x => cases x <;> exact ⟨_, rfl, fun _ => rfl⟩

end

/-! ### Concrete cases -/

/-- The hypotheses of the theorem are met: `~(f | f) * f + f * g` for `f` = `a or x <= 3` and `g` = `if b then 2 else x`. -/
example (h : Heap Dict) (hh : h 0 = exPool) :
    ∃ r h', (DExpr.op .add (.op .mul (.inv (.op .or (.diagram ⟨0, 5⟩) (.diagram ⟨0, 5⟩))) (.diagram ⟨0, 5⟩))
      (.op .mul (.diagram ⟨0, 5⟩) (.diagram ⟨0, 12⟩))).run (fun _ => exCtx) none h = (.ok ⟨0, r⟩, h') ∧
      ∀ σ u v, ValAt exEv exPool σ 5 u → ValAt exEv exPool σ 12 v → ValAt exEv (h' 0) σ r ((1 - max u u) * u + u * v) := by
  have h5 : (exPool.node 5).isSome := by rw [exPool_nodes.2.2.1]; rfl
  have k5 : DOk exCtx exPool 0 true (.diagram ⟨0, 5⟩) := .indicator rfl h5 exPool_shape.2.1
  obtain ⟨r, h', h1, h2⟩ := diagram_operators_partial (X := fun _ => exCtx) (i := 0) (ev := exEv) exLaw exPool_reachable (sh := none)
    (.add (.mul (.inv (.or k5 k5)) k5) (.mul k5 (.diagram (d := ⟨0, 12⟩) rfl exPool_nodes.2.2.2))) (h := h) (by rw [hh]; exact .refl)
  refine ⟨r, h', h1, fun σ u v hu hv => ?_⟩
  have := h2.val σ (fun d => if d = ⟨0, 5⟩ then u else v) (by simp [DExpr.Leaves, hu, hv])
  simpa [DExpr.val] using this

/-- Subtraction of two diagrams. -/
example (h : Heap Dict) (_ : h 0 = exPool) : ∃ h', diagramSub (fun _ => exCtx) none ⟨0, 5⟩ (some ⟨0, 12⟩) h = (.error .assertionError, h') := by
  obtain ⟨h', h1, -⟩ := diagram_sub_fails (X := fun _ => exCtx) none ⟨0, 5⟩ ⟨0, 12⟩ rfl h
  exact ⟨h', h1⟩

end Pywmi
