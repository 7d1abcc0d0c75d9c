import Verif.Xadd.Convert
import Verif.Xadd.ResolveRun

set_option linter.unusedSectionVars false
set_option linter.unusedSimpArgs false

/-!
# Conversion of formulas keeps the invariant and the meaning
-/

namespace Pywmi
open Formula

/-! ### What is converted -/

mutual
/-- SPEC: the supported formulas: linear comparisons, Boolean symbols, constants and connectives. -/
def supB : Formula → Bool
  | .and as => !as.isEmpty && supBAll as
  | .or as => !as.isEmpty && supBAll as
  | .implies l r => supB l && supB r
  | .not a => supB a
  | .ite c t e => supB c && (supB t && supB e)
  | .iff l r => supB l && supB r
  | .le l r => linTerm l && linTerm r
  | .lt l r => linTerm l && linTerm r
  | .sym _ .bool => true
  | .boolC _ => true
  | _ => false
/-- SPEC: all are supported. -/
def supBAll : List Formula → Bool
  | [] => true
  | a :: as => supB a && supBAll as
end

mutual
/-- SPEC: the supported weights: polynomials and case distinctions on supported formulas. -/
def supW : Formula → Bool
  | .plus as => !as.isEmpty && supWAll as
  | .times as => !as.isEmpty && supWAll as
  | .minus l r => supW l && supW r
  | .ite c t e => supB c && (supW t && supW e)
  | .pow b (.realC q) => supW b && (decide (q.den = 1) && decide (0 ≤ q.num))
  | .sym _ .real => true
  | .realC _ => true
  | _ => false
/-- SPEC: all are supported. -/
def supWAll : List Formula → Bool
  | [] => true
  | a :: as => supW a && supWAll as
end

theorem supBAll_iff (as : List Formula) : supBAll as = true ↔ ∀ a ∈ as, supB a = true := by
  induction as with
  | nil => simp [supBAll]
  | cons a as ih => simp [supBAll, ih]
theorem supWAll_iff (as : List Formula) : supWAll as = true ↔ ∀ a ∈ as, supW a = true := by
  induction as with
  | nil => simp [supWAll]
  | cons a as ih => simp [supWAll, ih]

theorem supB_wt (f : Formula) : supB f = true → wt .bool f = true := by
  induction f using Formula.induct with
  | and as ih =>
    simp only [supB, wt, Bool.and_eq_true, supBAll_iff, wtAll_iff]
    exact fun h => ⟨h.1, fun a ha => ih a ha (h.2 a ha)⟩
  | or as ih =>
    simp only [supB, wt, Bool.and_eq_true, supBAll_iff, wtAll_iff]
    exact fun h => ⟨h.1, fun a ha => ih a ha (h.2 a ha)⟩
  | implies l r ihl ihr => simp only [supB, wt, Bool.and_eq_true]; exact fun h => ⟨ihl h.1, ihr h.2⟩
  | iff l r ihl ihr => simp only [supB, wt, Bool.and_eq_true]; exact fun h => ⟨ihl h.1, ihr h.2⟩
  | not a ih => simp only [supB, wt]; exact ih
  | ite c t e ihc iht ihe =>
    simp only [supB, wt, Bool.and_eq_true]; exact fun h => ⟨⟨ihc h.1, iht h.2.1⟩, ihe h.2.2⟩
  | le l r _ _ => simp only [supB, wt, Bool.and_eq_true]; exact fun h => ⟨lin_wt h.1, lin_wt h.2⟩
  | lt l r _ _ => simp only [supB, wt, Bool.and_eq_true]; exact fun h => ⟨lin_wt h.1, lin_wt h.2⟩
  | sym n t => cases t <;> simp [supB, wt]
  | boolC b => simp [wt]
  | _ => simp [supB]

theorem supW_wt (f : Formula) : supW f = true → wt .real f = true := by
  induction f using Formula.induct with
  | times as ih =>
    simp only [supW, wt, Bool.and_eq_true, supWAll_iff, wtAll_iff]
    exact fun h => ⟨h.1, fun a ha => ih a ha (h.2 a ha)⟩
  | plus as ih =>
    simp only [supW, wt, Bool.and_eq_true, supWAll_iff, wtAll_iff]
    exact fun h => ⟨h.1, fun a ha => ih a ha (h.2 a ha)⟩
  | minus l r ihl ihr => simp only [supW, wt, Bool.and_eq_true]; exact fun h => ⟨ihl h.1, ihr h.2⟩
  | ite c t e ihc iht ihe =>
    simp only [supW, wt, Bool.and_eq_true]; exact fun h => ⟨⟨supB_wt c h.1, iht h.2.1⟩, ihe h.2.2⟩
  | pow b e ihb _ =>
    cases e with
    | realC q => simp only [supW, wt, Bool.and_eq_true]; exact fun h => ⟨ihb h.1, h.2⟩
    | _ => simp [supW]
  | sym n t => cases t <;> simp [supW, wt]
  | realC q => simp [wt]
  | _ => simp [supW]

/-- The term that the walker returns for an arithmetic term in Boolean mode. -/
def cterm : Formula → Formula
  | .minus l r => .plus [l, .times [r, .realC (-1)]]
  | .pow b _ => cterm b
  | .plus [a] => a
  | .times [a] => a
  | f => f

theorem cterm_spec (f : Formula) (h : linTerm f = true) :
    linTerm (cterm f) = true ∧ (∀ σ : Env ℝ, value σ (cterm f) = value σ f) ∧ ∀ v ∈ syms (cterm f), v ∈ syms f := by
  induction f using Formula.induct with
  | minus l r ihl ihr =>
    simp only [linTerm, Bool.and_eq_true] at h
    refine ⟨?_, fun σ => ?_, fun v hv => ?_⟩
    · simp only [cterm, linTerm, linTermAll, h, List.countP_cons, List.countP_nil, syms]
      by_cases hs : (syms r).isEmpty <;> simp [hs]
    · simp only [cterm, value, valueSum, valueProd]; push_cast; ring
    · simpa [cterm, syms, symsList] using hv
  | pow b e ihb _ =>
    cases e with
    | realC q =>
      simp only [linTerm, Bool.and_eq_true, decide_eq_true_eq] at h
      obtain ⟨h1, rfl⟩ := h
      obtain ⟨i1, i2, i3⟩ := ihb h1
      refine ⟨i1, fun σ => ?_, fun v hv => ?_⟩
      · rw [cterm, i2]; simp [value]
      · simp only [syms, List.append_nil]; exact i3 v hv
    | _ => simp [linTerm] at h
  | plus as ih =>
    match as with
    | [] => simp [linTerm] at h
    | [a] =>
      simp only [linTerm, linTermAll, Bool.and_eq_true] at h
      exact ⟨h.2.1, fun σ => by simp [cterm, value, valueSum], fun v hv => by simpa [cterm, syms, symsList] using hv⟩
    | a :: b :: as => exact ⟨h, fun σ => rfl, fun v hv => hv⟩
  | times as ih =>
    match as with
    | [] => simp [linTerm] at h
    | [a] =>
      simp only [linTerm, linTermAll, Bool.and_eq_true] at h
      exact ⟨h.1.2.1, fun σ => by simp [cterm, value, valueProd], fun v hv => by simpa [cterm, syms, symsList] using hv⟩
    | a :: b :: as => exact ⟨h, fun σ => rfl, fun v hv => hv⟩
  | sym n t => exact ⟨h, fun σ => rfl, fun v hv => hv⟩
  | realC q => exact ⟨h, fun σ => rfl, fun v hv => hv⟩
  | _ => simp [linTerm] at h

mutual
/-- How a pool reads a formula: as it is, with comparisons read by `readTest`. -/
noncomputable def readF (σ : Env ℝ) : Formula → Bool
  | .and as => readAll σ as
  | .or as => readAny σ as
  | .implies l r => !readF σ l || readF σ r
  | .not a => !readF σ a
  | .ite c t e => if readF σ c then readF σ t else readF σ e
  | .iff l r => readF σ l == readF σ r
  | .le l r => readTest σ (.le (cterm l) (cterm r))
  | .lt l r => readTest σ (.le (cterm l) (cterm r))
  | .sym n _ => σ.b n
  | .boolC b => b
  | _ => false
/-- All are read as true. -/
noncomputable def readAll (σ : Env ℝ) : List Formula → Bool
  | [] => true
  | a :: as => readF σ a && readAll σ as
/-- Some is read as true. -/
noncomputable def readAny (σ : Env ℝ) : List Formula → Bool
  | [] => false
  | a :: as => readF σ a || readAny σ as
end

mutual
/-- How a pool reads a weight. -/
noncomputable def readV (σ : Env ℝ) : Formula → ℝ
  | .times as => readProd σ as
  | .plus as => readSum σ as
  | .minus l r => readV σ l - readV σ r
  | .ite c t e => if readF σ c then readV σ t else readV σ e
  | .pow b (.realC q) => readV σ b ^ q.num.toNat
  | .sym n _ => σ.r n
  | .realC q => (q : ℝ)
  | _ => 0
/-- The sum. -/
noncomputable def readSum (σ : Env ℝ) : List Formula → ℝ
  | [] => 0
  | a :: as => readV σ a + readSum σ as
/-- The product. -/
noncomputable def readProd (σ : Env ℝ) : List Formula → ℝ
  | [] => 1
  | a :: as => readV σ a * readProd σ as
end

theorem readF_mkNot (σ : Env ℝ) (a : Formula) : readF σ (mkNot a) = !readF σ a := by
  cases a <;> simp [mkNot, readF]
theorem supB_mkNot {a : Formula} (h : supB a = true) : supB (mkNot a) = true := by
  cases a <;> simp_all [mkNot, supB]
theorem csize_mkNot (a : Formula) : csize (mkNot a) ≤ csize a + 1 := by
  unfold mkNot; split <;> simp only [csize] <;> omega
theorem csize_mem {a : Formula} {as : List Formula} (h : a ∈ as) : csize a < 1 + csizeList as := by
  induction as with
  | nil => cases h
  | cons b as ih =>
    simp only [csizeList]
    rcases List.mem_cons.mp h with rfl | h'
    · omega
    · have := ih h'; omega

/-! ### Diagrams of formulas and weights -/

section
variable {E : Type} [DecidableEq E] {X : XCtx E} {ev : E → (String → ℝ) → ℝ} {Γ : String → Ty}

theorem SymsIn.mono {V W : String × Ty → Prop} {T : XTree E} (h : SymsIn V T) (hvw : ∀ v, V v → W v) : SymsIn W T :=
  fun g hg v hv => hvw v (h g hg v hv)

/-- SPEC: an ordered 0/1 diagram of a Boolean function. -/
structure BTree (X : XCtx E) (L : List Formula) (V : String × Ty → Prop) (c : Env ℝ → Bool) (T : XTree E) : Prop where
  bin : Bin X T
  ord : T.Ord L
  syms : SymsIn V T
  val : ∀ σ : Env ℝ, T.leafAt (truth σ ·) = if c σ then X.back.alg.one else X.back.alg.zero

/-- SPEC: an ordered diagram of a function. -/
structure WTree (ev : E → (String → ℝ) → ℝ) (L : List Formula) (V : String × Ty → Prop) (w : Env ℝ → ℝ) (T : XTree E) : Prop where
  ord : T.Ord L
  syms : SymsIn V T
  val : ∀ σ : Env ℝ, T.eval ev σ = w σ

theorem BTree.weak {L : List Formula} {V W : String × Ty → Prop} {c c' : Env ℝ → Bool} {T : XTree E} (h : BTree X L V c T)
    (hvw : ∀ v, V v → W v) (hc : ∀ σ, c σ = c' σ) : BTree X L W c' T :=
  ⟨h.bin, h.ord, h.syms.mono hvw, fun σ => hc σ ▸ h.val σ⟩
theorem WTree.weak {L : List Formula} {V W : String × Ty → Prop} {c c' : Env ℝ → ℝ} {T : XTree E} (h : WTree ev L V c T)
    (hvw : ∀ v, V v → W v) (hc : ∀ σ, c σ = c' σ) : WTree ev L W c' T :=
  ⟨h.ord, h.syms.mono hvw, fun σ => hc σ ▸ h.val σ⟩
theorem BTree.wtree (hb : BackLaw X.back ev) {L : List Formula} {V : String × Ty → Prop} {c : Env ℝ → Bool} {T : XTree E}
    (h : BTree X L V c T) : WTree ev L V (fun σ => if c σ then 1 else 0) T :=
  ⟨h.ord, h.syms, fun σ => by
    unfold XTree.eval
    rw [h.val]
    split
    · exact hb.evOne _
    · exact hb.evZero _⟩

/-- SPEC: a node with an ordered 0/1 diagram of a Boolean function. -/
def BNode (X : XCtx E) (V : String × Ty → Prop) (c : Env ℝ → Bool) (n : ℕ) (q : Pool E) : Prop := ∃ T, Den q n T ∧ BTree X q.tests V c T
/-- SPEC: a node with an ordered diagram of a function. -/
def WNode (ev : E → (String → ℝ) → ℝ) (V : String × Ty → Prop) (w : Env ℝ → ℝ) (n : ℕ) (q : Pool E) : Prop :=
  ∃ T, Den q n T ∧ WTree ev q.tests V w T

theorem BNode.mono {V : String × Ty → Prop} {c : Env ℝ → Bool} {n : ℕ} {q q' : Pool E} (hq : Core X q) (he : Ext q q')
    (h : BNode X V c n q) : BNode X V c n q' := by
  obtain ⟨T, hT, hb⟩ := h
  exact ⟨T, he.den hT, hb.bin, (XTree.Ord.mono he.tests (hT.tests hq)).mpr hb.ord, hb.syms, hb.val⟩
theorem WNode.mono {V : String × Ty → Prop} {c : Env ℝ → ℝ} {n : ℕ} {q q' : Pool E} (hq : Core X q) (he : Ext q q')
    (h : WNode ev V c n q) : WNode ev V c n q' := by
  obtain ⟨T, hT, hb⟩ := h
  exact ⟨T, he.den hT, (XTree.Ord.mono he.tests (hT.tests hq)).mpr hb.ord, hb.syms, hb.val⟩

/-- SPEC: the result of the walker for a formula in a mode. -/
def WalkOk (X : XCtx E) (ev : E → (String → ℝ) → ℝ) (f : Formula) (m : Bool) (r : XRes) (q : Pool E) : Prop :=
  (m = true → supB f = true → ∃ n, r = .id n ∧ BNode X (· ∈ Formula.syms f) (readF · f) n q) ∧
  (m = true → linTerm f = true → r = .term (cterm f)) ∧
  (m = false → supW f = true → ∃ n, r = .id n ∧ WNode ev (· ∈ Formula.syms f) (readV · f) n q)

theorem WalkOk.mono {f : Formula} {m : Bool} {r : XRes} {q q' : Pool E} (hq : Core X q) (he : Ext q q') (h : WalkOk X ev f m r q) :
    WalkOk X ev f m r q' := by
  refine ⟨fun h1 h2 => ?_, h.2.1, fun h1 h2 => ?_⟩
  · obtain ⟨n, hn, hb⟩ := h.1 h1 h2; exact ⟨n, hn, hb.mono hq he⟩
  · obtain ⟨n, hn, hb⟩ := h.2.2 h1 h2; exact ⟨n, hn, hb.mono hq he⟩

/-- The invariant with the dictionary of the walker. -/
structure Inv3 (X : XCtx E) (Γ : String → Ty) (ev : E → (String → ℝ) → ℝ) (p : Pool E) : Prop extends Inv2 X Γ ev p where
  walk : ∀ f m r, p.walk.lookup (f, m) = some r → WalkOk X ev f m r p

theorem Run.inv2 {α : Type} {m : XM E α} {p : Pool E} {s : Prop} {Q : α → Pool E → Prop} (hp : Inv3 X Γ ev p)
    (h : Run (Inv2 X Γ ev) Fr2 m p s Q) : Run (Inv3 X Γ ev) Ext m p s Q :=
  h.weaken (fun _ hq hpq => ⟨hq, fun f m r hl => (hp.walk f m r (hpq.walkC ▸ hl)).mono hp.core hpq.toExt⟩) fun _ hpq => hpq.toExt

theorem Run.seq3 {α β : Type} {I : Pool E → Prop} {m : XM E α} {f : α → XM E β} {p : Pool E} {s safe : Prop}
    {P : α → Pool E → Prop} {Q : β → Pool E → Prop} (h1 : Run I Ext m p s P) (hs : safe → s)
    (h2 : ∀ a q, I q → Ext p q → P a q → Run I Ext (f a) q safe Q) : Run I Ext (m >>= f) p safe Q :=
  Run.bind (R := Ext) (fun h h' => h.trans h') (h1.imp hs fun _ _ _ _ h => h) h2

/-! ### Steps -/

theorem applyB_run (hs : SimpLaw X.simp) {op : XOp} (hop : op = .and ∨ op = .or) {p : Pool E} (hp : Inv3 X Γ ev p)
    (hne : X.back.alg.zero ≠ X.back.alg.one) {a b : ℕ} {V : String × Ty → Prop} {c d : Env ℝ → Bool} (h1 : BNode X V c a p) (h2 : BNode X V d b p) :
    Run (Inv3 X Γ ev) Ext (apply X op a b) p True
      (fun r q => BNode X V (fun σ => if op = .and then c σ && d σ else c σ || d σ) r q) := by
  obtain ⟨A, hA, bA⟩ := h1
  obtain ⟨B, hB, bB⟩ := h2
  refine (((((apply_run hs op hp.toInv0 hA hB).inv0 hp.toInv1).inv1 hp.toInvP).invI hp.toInv2).inv2 hp).imp (fun _ _ => ⟨bA.bin, bB.bin⟩)
    fun r q hq he ⟨T, hT, ha⟩ => ⟨T, hT, ha.bin (by rcases hop with rfl | rfl <;> simp) bA.bin bB.bin, ?_, ha.symsIn bA.syms bB.syms, fun σ => ?_⟩
  · exact ha.ord ((XTree.Ord.mono he.tests (hA.tests hp.core)).mpr bA.ord) ((XTree.Ord.mono he.tests (hB.tests hp.core)).mpr bB.ord)
  · rw [ha.leaf, bA.val, bB.val]
    rcases hop with rfl | rfl <;> cases c σ <;> cases d σ <;> simp [opE, hne, hne.symm]

theorem applyW_run (hs : SimpLaw X.simp) (hb : BackLaw X.back ev) {op : XOp} (hop : op = .mul ∨ op = .add) {p : Pool E} (hp : Inv3 X Γ ev p)
    {a b : ℕ} {V : String × Ty → Prop} {c d : Env ℝ → ℝ} (h1 : WNode ev V c a p) (h2 : WNode ev V d b p) :
    Run (Inv3 X Γ ev) Ext (apply X op a b) p True (fun r q => WNode ev V (fun σ => opR op (c σ) (d σ)) r q) := by
  obtain ⟨A, hA, bA⟩ := h1
  obtain ⟨B, hB, bB⟩ := h2
  refine ((apply2 hs hop hp.toInv2 hA hB).inv2 hp).imp id fun r q hq he ⟨T, hT, ha⟩ => ⟨T, hT, ?_, ha.symsIn bA.syms bB.syms, fun σ => ?_⟩
  · exact ha.ord ((XTree.Ord.mono he.tests (hA.tests hp.core)).mpr bA.ord) ((XTree.Ord.mono he.tests (hB.tests hp.core)).mpr bB.ord)
  · rw [ha.eval hb hop, bA.val, bB.val]

theorem invertB_run (hs : SimpLaw X.simp) (hb : BackLaw X.back ev) {p : Pool E} (hp : Inv3 X Γ ev p) {a : ℕ} {V : String × Ty → Prop}
    {c : Env ℝ → Bool} (h1 : BNode X V c a p) :
    Run (Inv3 X Γ ev) Ext (invert X a) p True (fun r q => BNode X V (fun σ => !c σ) r q) := by
  obtain ⟨A, hA, bA⟩ := h1
  refine (((invert_run hs hb hp.toInvP hA).invI hp.toInv2).inv2 hp).imp (fun _ => bA.bin) fun r q hq he ⟨T, hT, hi⟩ => ⟨T, hT, ?_, ?_, ?_, fun σ => ?_⟩
  · exact InvSpec.bin hi bA.bin
  · exact hi.ord trivial
  · exact fun g hg => bA.syms g (InvSpec.tests' hi g hg)
  · have h1 := InvSpec.val hi (truth σ ·) (fun _ => 0)
    rw [bA.val] at h1
    have h0 := hb.evZero (fun _ => 0)
    have h2 := hb.evOne (fun _ => 0)
    rcases (hi.rel (truth σ ·)).2 (bA.bin _ (XTree.leafAt_mem _ _)) with h | h <;> rw [h] at h1 ⊢ <;> cases hc : c σ <;> simp [hc, h0, h2] at h1 ⊢

theorem testB_run (hs : SimpLaw X.simp) {p : Pool E} (hp : Inv3 X Γ ev p) {g : Formula} (hg : TestForm g) {V : String × Ty → Prop}
    (hV : ∀ v ∈ Formula.syms g, V v) :
    Run (Inv3 X Γ ev) Ext (boolTest X ⟨g, none, false⟩) p True (fun r q => BNode X V (fun σ => readTest σ g) r q) := by
  unfold boolTest
  refine Run.bindGet ?_
  refine (((internal_test hs hp.core hg (.leaf hp.core.one) (.leaf hp.core.zero)).core2 hp.toInv2).inv2 hp).imp id
    fun r q hq he ⟨T, hT, ht⟩ => ⟨T, hT, ?_, ?_, ht.symsIn hV SymsIn.leaf SymsIn.leaf, fun σ => ?_⟩
  · rcases ht.2 with rfl | rfl | ⟨d, rfl | rfl, -⟩ <;> intro e he <;> simp [XTree.leaves] at he <;> tauto
  · rcases ht.2 with rfl | rfl | ⟨d, rfl | rfl, -⟩ <;> simp [XTree.Ord, XTree.tests]
  · rw [ht.1 σ]; rfl

theorem BNode.one {V : String × Ty → Prop} {p : Pool E} (hp : Core X p) : BNode X V (fun _ => true) p.oneId p :=
  ⟨_, .leaf hp.one, bin_leaf.mpr (Or.inr rfl), trivial, SymsIn.leaf, fun _ => rfl⟩
theorem BNode.zero {V : String × Ty → Prop} {p : Pool E} (hp : Core X p) : BNode X V (fun _ => false) p.zeroId p :=
  ⟨_, .leaf hp.zero, bin_leaf.mpr (Or.inl rfl), trivial, SymsIn.leaf, fun _ => rfl⟩
theorem BNode.wnode (hb : BackLaw X.back ev) {V : String × Ty → Prop} {c : Env ℝ → Bool} {n : ℕ} {q : Pool E} (h : BNode X V c n q) :
    WNode ev V (fun σ => if c σ then 1 else 0) n q := by
  obtain ⟨T, hT, h⟩ := h; exact ⟨T, hT, h.wtree hb⟩
theorem BNode.weak {V W : String × Ty → Prop} {c c' : Env ℝ → Bool} {n : ℕ} {q : Pool E} (h : BNode X V c n q) (hvw : ∀ v, V v → W v)
    (hc : ∀ σ, c σ = c' σ) : BNode X W c' n q := by
  obtain ⟨T, hT, h⟩ := h; exact ⟨T, hT, h.weak hvw hc⟩
theorem WNode.weak {V W : String × Ty → Prop} {c c' : Env ℝ → ℝ} {n : ℕ} {q : Pool E} (h : WNode ev V c n q) (hvw : ∀ v, V v → W v)
    (hc : ∀ σ, c σ = c' σ) : WNode ev W c' n q := by
  obtain ⟨T, hT, h⟩ := h; exact ⟨T, hT, h.weak hvw hc⟩
theorem terminalW_run {p : Pool E} (hp : Inv3 X Γ ev p) {V : String × Ty → Prop} (e : E) :
    Run (Inv3 X Γ ev) Ext (terminal e) p True (fun r q => WNode ev V (fun σ => ev e σ.r) r q) :=
  (((terminal_run hp.core e).core2 hp.toInv2).inv2 hp).imp id fun _ _ _ _ h => ⟨_, .leaf h, trivial, SymsIn.leaf, fun _ => rfl⟩

theorem walkAll_run {I : Pool E → Prop} {rec : Formula → XM E XRes} {Q : Formula → XRes → Pool E → Prop}
    (mono : ∀ a r q q', I q → Ext q q' → Q a r q → Q a r q') : ∀ (as : List Formula) {p : Pool E}, I p →
    (∀ a ∈ as, ∀ q, I q → Ext p q → Run I Ext (rec a) q True (Q a)) →
    Run I Ext (walkAll rec as) p True (fun rs q => List.Forall₂ (fun a r => Q a r q) as rs)
  | [], p, hp, _ => Run.ret Ext.refl hp .nil
  | a :: as, p, hp, h => by
    unfold walkAll
    refine Run.seq3 (h a (by simp) p hp (Ext.refl p)) id ?_
    intro r q hq he hr
    refine Run.seq3 (walkAll_run mono as hq fun b hb q' hq' he' => h b (by simp [hb]) q' hq' (he.trans he')) id ?_
    intro rs q' hq' he' hrs
    exact Run.ret Ext.refl hq' (.cons (mono _ _ _ _ hq he' hr) hrs)

theorem foldB_run (hs : SimpLaw X.simp) (hne : X.back.alg.zero ≠ X.back.alg.one) {op : XOp} (hop : op = .and ∨ op = .or) {V : String × Ty → Prop} :
    ∀ (as : List Formula) (rs : List XRes) {p : Pool E}, Inv3 X Γ ev p →
    List.Forall₂ (fun a r => ∃ n, r = .id n ∧ BNode X V (readF · a) n p) as rs → ∀ {acc : ℕ} {c : Env ℝ → Bool}, BNode X V c acc p →
    Run (Inv3 X Γ ev) Ext (foldApply X op acc rs) p True
      (fun r q => BNode X V (fun σ => if op = .and then c σ && readAll σ as else c σ || readAny σ as) r q)
  | [], rs, p, hp, h, acc, c, hc => by
    cases h
    refine Run.ret Ext.refl hp (hc.weak (fun _ h => h) fun σ => ?_)
    simp [readAll, readAny]
  | a :: as, rs, p, hp, h, acc, c, hc => by
    cases h with
    | cons h1 h2 =>
      obtain ⟨n, rfl, hn⟩ := h1
      unfold foldApply
      refine Run.bindEq (R := Ext) (fun h h' => h.trans h') (q := p) (a := n) rfl (Ext.refl p) ?_
      refine Run.seq3 (applyB_run hs hop hp hne hc hn) id ?_
      intro acc' q hq he hacc
      refine (foldB_run hs hne hop as _ hq (h2.imp fun _ _ ⟨m, hm, hb⟩ => ⟨m, hm, hb.mono hp.core he⟩) hacc).imp id
        fun r q _ _ hr => hr.weak (fun _ h => h) fun σ => ?_
      rcases hop with rfl | rfl <;> simp [readAll, readAny, Bool.and_assoc, Bool.or_assoc]

theorem foldW_run (hs : SimpLaw X.simp) (hb : BackLaw X.back ev) {op : XOp} (hop : op = .mul ∨ op = .add) {V : String × Ty → Prop} :
    ∀ (as : List Formula) (rs : List XRes) {p : Pool E}, Inv3 X Γ ev p →
    List.Forall₂ (fun a r => ∃ n, r = .id n ∧ WNode ev V (readV · a) n p) as rs → ∀ {acc : ℕ} {c : Env ℝ → ℝ}, WNode ev V c acc p →
    Run (Inv3 X Γ ev) Ext (foldApply X op acc rs) p True
      (fun r q => WNode ev V (fun σ => if op = .mul then c σ * readProd σ as else c σ + readSum σ as) r q)
  | [], rs, p, hp, h, acc, c, hc => by
    cases h
    refine Run.ret Ext.refl hp (hc.weak (fun _ h => h) fun σ => ?_)
    simp [readProd, readSum]
  | a :: as, rs, p, hp, h, acc, c, hc => by
    cases h with
    | cons h1 h2 =>
      obtain ⟨n, rfl, hn⟩ := h1
      unfold foldApply
      refine Run.bindEq (R := Ext) (fun h h' => h.trans h') (q := p) (a := n) rfl (Ext.refl p) ?_
      refine Run.seq3 (applyW_run hs hb hop hp hc hn) id ?_
      intro acc' q hq he hacc
      refine (foldW_run hs hb hop as _ hq (h2.imp fun _ _ ⟨m, hm, hb⟩ => ⟨m, hm, hb.mono hp.core he⟩) hacc).imp id
        fun r q _ _ hr => hr.weak (fun _ h => h) fun σ => ?_
      rcases hop with rfl | rfl <;> simp [readProd, readSum, opR, mul_assoc, add_assoc]

theorem powW_run (hs : SimpLaw X.simp) (hb : BackLaw X.back ev) {V : String × Ty → Prop} {b : ℕ} {w : Env ℝ → ℝ} : ∀ (k : ℕ) {acc : ℕ} {c : Env ℝ → ℝ}
    {p : Pool E}, Inv3 X Γ ev p → WNode ev V w b p → WNode ev V c acc p →
    Run (Inv3 X Γ ev) Ext (powApply X b k acc) p True (fun r q => WNode ev V (fun σ => c σ * w σ ^ k) r q)
  | 0, acc, c, p, hp, _, hc => Run.ret Ext.refl hp (hc.weak (fun _ h => h) fun σ => by simp)
  | k + 1, acc, c, p, hp, hw, hc => by
    unfold powApply
    refine Run.seq3 (applyW_run hs hb (Or.inl rfl) hp hc hw) id ?_
    intro acc' q hq he hacc
    exact (powW_run hs hb k hq (hw.mono hp.core he) hacc).imp id fun r q _ _ hr => hr.weak (fun _ h => h) fun σ => by
      simp [opR, pow_succ]; ring

end
end Pywmi
