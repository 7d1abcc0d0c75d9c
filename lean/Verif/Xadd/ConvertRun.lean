import Verif.Xadd.ConvertInv
import Verif.Smt.Sound

set_option linter.unusedSectionVars false
set_option linter.unusedSimpArgs false

/-!
# The walker converts supported formulas and weights
-/

namespace Pywmi
open Formula

theorem supB_not_lin {f : Formula} (h : supB f = true) : linTerm f = false := by
  cases f with
  | sym n t => cases t <;> simp_all [supB, linTerm]
  | _ => simp_all [supB, linTerm]

section
variable {E : Type} [DecidableEq E] {X : XCtx E} {ev : E → (String → ℝ) → ℝ} {Γ : String → Ty}

theorem Inv2.setWalk {p : Pool E} (hp : Inv2 X Γ ev p) (w : List ((Formula × Bool) × XRes)) : Inv2 X Γ ev { p with walk := w } := by
  have hext : Ext p { p with walk := w } := ⟨List.prefix_refl _, List.prefix_refl _, rfl, rfl⟩
  refine ⟨⟨hp.toInv1.congr rfl rfl rfl rfl rfl rfl rfl rfl, fun r' pr hl => ?_⟩, fun key' r' hl => (hp.res _ _ hl).mono hext hp.core⟩
  obtain ⟨T, h1, h2⟩ := hp.prof r' pr hl
  exact ⟨T, hext.den h1, h2.mono hext hp.core⟩

/-- What the walker is asked for in a mode. -/
def Sup (m : Bool) (f : Formula) : Prop :=
  (m = true ∧ (supB f = true ∨ linTerm f = true)) ∨ (m = false ∧ supW f = true)

/-- The recursive calls do what they should on smaller formulas. -/
def RecOk (X : XCtx E) (Γ : String → Ty) (ev : E → (String → ℝ) → ℝ) (N : ℕ) (rec : Bool → Formula → XM E XRes) : Prop :=
  ∀ m f q, csize f < N → Sup m f → Inv3 X Γ ev q → Run (Inv3 X Γ ev) Ext (rec m f) q True (WalkOk X ev f m)

/-- SPEC: the result is a node for the Boolean function. -/
def BRes (X : XCtx E) (V : String × Ty → Prop) (c : Env ℝ → Bool) (r : XRes) (q : Pool E) : Prop := ∃ n, r = .id n ∧ BNode X V c n q
/-- SPEC: the result is a node for the function. -/
def WRes (ev : E → (String → ℝ) → ℝ) (V : String × Ty → Prop) (c : Env ℝ → ℝ) (r : XRes) (q : Pool E) : Prop :=
  ∃ n, r = .id n ∧ WNode ev V c n q

theorem BRes.mono {V : String × Ty → Prop} {c : Env ℝ → Bool} {n : XRes} {q q' : Pool E} (hq : Core X q) (he : Ext q q')
    (h : BRes X V c n q) : BRes X V c n q' := by obtain ⟨k, h1, h2⟩ := h; exact ⟨k, h1, h2.mono hq he⟩
theorem WRes.mono {V : String × Ty → Prop} {c : Env ℝ → ℝ} {n : XRes} {q q' : Pool E} (hq : Core X q) (he : Ext q q')
    (h : WRes ev V c n q) : WRes ev V c n q' := by obtain ⟨k, h1, h2⟩ := h; exact ⟨k, h1, h2.mono hq he⟩
theorem BRes.weak {V W : String × Ty → Prop} {c c' : Env ℝ → Bool} {n : XRes} {q : Pool E} (h : BRes X V c n q) (hvw : ∀ v, V v → W v)
    (hc : ∀ σ, c σ = c' σ) : BRes X W c' n q := by obtain ⟨k, h1, h2⟩ := h; exact ⟨k, h1, h2.weak hvw hc⟩
theorem WRes.weak {V W : String × Ty → Prop} {c c' : Env ℝ → ℝ} {n : XRes} {q : Pool E} (h : WRes ev V c n q) (hvw : ∀ v, V v → W v)
    (hc : ∀ σ, c σ = c' σ) : WRes ev W c' n q := by obtain ⟨k, h1, h2⟩ := h; exact ⟨k, h1, h2.weak hvw hc⟩

variable {N : ℕ} {rec : Bool → Formula → XM E XRes}

theorem RecOk.b (h : RecOk X Γ ev N rec) {f : Formula} {q : Pool E} (hc : csize f < N) (hs : supB f = true) (hq : Inv3 X Γ ev q)
    {V : String × Ty → Prop} (hV : ∀ v ∈ Formula.syms f, V v) :
    Run (Inv3 X Γ ev) Ext (rec true f) q True (BRes X V (readF · f)) :=
  (h true f q hc (Or.inl ⟨rfl, Or.inl hs⟩) hq).imp id fun _ _ _ _ hr => BRes.weak (hr.1 rfl hs) hV fun _ => rfl
theorem RecOk.t (h : RecOk X Γ ev N rec) {f : Formula} {q : Pool E} (hc : csize f < N) (hs : linTerm f = true) (hq : Inv3 X Γ ev q) :
    Run (Inv3 X Γ ev) Ext (rec true f) q True (fun r _ => r = .term (cterm f)) :=
  (h true f q hc (Or.inl ⟨rfl, Or.inr hs⟩) hq).imp id fun _ _ _ _ hr => hr.2.1 rfl hs
theorem RecOk.w (h : RecOk X Γ ev N rec) {f : Formula} {q : Pool E} (hc : csize f < N) (hs : supW f = true) (hq : Inv3 X Γ ev q)
    {V : String × Ty → Prop} (hV : ∀ v ∈ Formula.syms f, V v) :
    Run (Inv3 X Γ ev) Ext (rec false f) q True (WRes ev V (readV · f)) :=
  (h false f q hc (Or.inr ⟨rfl, hs⟩) hq).imp id fun _ _ _ _ hr => WRes.weak (hr.2.2 rfl hs) hV fun _ => rfl

/-- Use the node of a result. -/
theorem Run.useNode {β : Type} {I : Pool E → Prop} {n : ℕ} {f : ℕ → XM E β} {p : Pool E} {safe : Prop} {Q : β → Pool E → Prop}
    (h : Run I Ext (f n) p safe Q) : Run I Ext ((XRes.id n).node >>= f) p safe Q := h

theorem convAnd_run (hs : SimpLaw X.simp) (hne : X.back.alg.zero ≠ X.back.alg.one) (h : RecOk X Γ ev N rec) {p : Pool E} (hp : Inv3 X Γ ev p)
    {as : List Formula} (hc : ∀ a ∈ as, csize a < N) (ha : ∀ a ∈ as, supB a = true) {V : String × Ty → Prop} (hV : ∀ a ∈ as, ∀ v ∈ Formula.syms a, V v) :
    Run (Inv3 X Γ ev) Ext (convAnd X rec true as) p True (BRes X V (readAll · as)) := by
  have e : convAnd X rec true as = (do
    let p ← XM.get
    let rs ← walkAll (rec true) as
    let n ← foldApply X .and p.oneId rs
    pure (.id n)) := if_pos rfl
  rw [e]
  refine Run.bindGet ?_
  refine Run.seq3 (walkAll_run (Q := fun a r q => BRes X V (readF · a) r q) (fun _ _ _ _ hq he hr => hr.mono hq.core he) as hp
    fun a ha' q hq _ => h.b (hc a ha') (ha a ha') hq (hV a ha')) id ?_
  intro rs q hq he hrs
  refine Run.seq3 (foldB_run hs hne (Or.inl rfl) as rs hq hrs ((BNode.one hp.core).mono hp.core he)) id ?_
  intro n q' hq' he' hn
  exact Run.ret Ext.refl hq' ⟨n, rfl, hn.weak (fun _ h => h) fun σ => by simp⟩

theorem convOr_run (hs : SimpLaw X.simp) (hne : X.back.alg.zero ≠ X.back.alg.one) (h : RecOk X Γ ev N rec) {p : Pool E} (hp : Inv3 X Γ ev p)
    {as : List Formula} (hc : ∀ a ∈ as, csize a < N) (ha : ∀ a ∈ as, supB a = true) {V : String × Ty → Prop} (hV : ∀ a ∈ as, ∀ v ∈ Formula.syms a, V v) :
    Run (Inv3 X Γ ev) Ext (convOr X rec true as) p True (BRes X V (readAny · as)) := by
  have e : convOr X rec true as = (do
    let p ← XM.get
    let rs ← walkAll (rec true) as
    let n ← foldApply X .or p.zeroId rs
    pure (.id n)) := if_pos rfl
  rw [e]
  refine Run.bindGet ?_
  refine Run.seq3 (walkAll_run (Q := fun a r q => BRes X V (readF · a) r q) (fun _ _ _ _ hq he hr => hr.mono hq.core he) as hp
    fun a ha' q hq _ => h.b (hc a ha') (ha a ha') hq (hV a ha')) id ?_
  intro rs q hq he hrs
  refine Run.seq3 (foldB_run hs hne (Or.inr rfl) as rs hq hrs ((BNode.zero hp.core).mono hp.core he)) id ?_
  intro n q' hq' he' hn
  exact Run.ret Ext.refl hq' ⟨n, rfl, hn.weak (fun _ h => h) fun σ => by simp⟩

theorem convArith_run (hs : SimpLaw X.simp) (hb : BackLaw X.back ev) (h : RecOk X Γ ev N rec) {p : Pool E} (hp : Inv3 X Γ ev p)
    {op : XOp} (hop : op = .mul ∨ op = .add)
    {as : List Formula} (hc : ∀ a ∈ as, csize a < N) (ha : ∀ a ∈ as, supW a = true) {V : String × Ty → Prop} (hV : ∀ a ∈ as, ∀ v ∈ Formula.syms a, V v) :
    Run (Inv3 X Γ ev) Ext (convArith X rec false op as) p True (WRes ev V (fun σ => if op = .mul then readProd σ as else readSum σ as)) := by
  have e : convArith X rec false op as = (do
    let p ← XM.get
    let rs ← walkAll (rec false) as
    let n ← foldApply X op (if op = .add then p.zeroId else p.oneId) rs
    pure (.id n)) := if_neg (by simp)
  rw [e]
  refine Run.bindGet ?_
  refine Run.seq3 (walkAll_run (Q := fun a r q => WRes ev V (readV · a) r q) (fun _ _ _ _ hq he hr => hr.mono hq.core he) as hp
    fun a ha' q hq _ => h.w (hc a ha') (ha a ha') hq (hV a ha')) id ?_
  intro rs q hq he hrs
  have h0 : WNode ev V (fun _ => if op = .add then (0 : ℝ) else 1) (if op = .add then p.zeroId else p.oneId) q := by
    rcases hop with rfl | rfl
    · exact (((BNode.one hp.core).wnode hb).mono hp.core he).weak (fun _ h => h) fun _ => by simp
    · exact (((BNode.zero hp.core).wnode hb).mono hp.core he).weak (fun _ h => h) fun _ => by simp
  refine Run.seq3 (foldW_run hs hb hop as rs hq hrs h0) id ?_
  intro n q' hq' he' hn
  exact Run.ret Ext.refl hq' ⟨n, rfl, hn.weak (fun _ h => h) fun σ => by rcases hop with rfl | rfl <;> simp⟩

theorem convArith_term {p : Pool E} (hp : Inv3 X Γ ev p) {op : XOp} {as : List Formula} {g : Formula}
    (hg : (if op = .add then mkPlus as else mkTimes as) = .ok g) :
    Run (Inv3 X Γ ev) Ext (convArith X rec true op as) p True (fun r _ => r = .term g) := by
  have e : convArith X rec true op as = XM.lift (match (if op = .add then mkPlus as else mkTimes as) with
      | .ok f => .ok (.term f)
      | .error e => .error e) := if_pos rfl
  rw [e, hg]
  exact Run.ret Ext.refl hp rfl

theorem convNot_run (hs : SimpLaw X.simp) (hb : BackLaw X.back ev) (h : RecOk X Γ ev N rec) {p : Pool E} (hp : Inv3 X Γ ev p)
    {a : Formula} (hc : csize a < N) (ha : supB a = true) {V : String × Ty → Prop} (hV : ∀ v ∈ Formula.syms a, V v) :
    Run (Inv3 X Γ ev) Ext (convNot X rec true a) p True (BRes X V (fun σ => !readF σ a)) := by
  have e : convNot X rec true a = (do
    let r ← rec true a
    let n ← r.node
    let n ← invert X n
    pure (.id n)) := if_pos rfl
  rw [e]
  refine Run.seq3 (h.b hc ha hp hV) id ?_
  rintro r q hq he ⟨n, rfl, hn⟩
  refine Run.useNode ?_
  refine Run.seq3 (invertB_run hs hb hq hn) id ?_
  intro n' q' hq' _ hn'
  exact Run.ret Ext.refl hq' ⟨n', rfl, hn'⟩

theorem convIte_runB (h : RecOk X Γ ev N rec) {p : Pool E} (hp : Inv3 X Γ ev p)
    {c t e : Formula} (hN : 2 * csize c + csize t + csize e + 15 ≤ N) (hc : supB c = true) (ht : supB t = true) (he : supB e = true) {V : String × Ty → Prop}
    (hV : ∀ a, a = c ∨ a = t ∨ a = e → ∀ v ∈ Formula.syms a, V v) :
    Run (Inv3 X Γ ev) Ext (convIte X rec true c t e) p True (BRes X V (fun σ => if readF σ c then readF σ t else readF σ e)) := by
  have e1 : convIte X rec true c t e = rec true (.or [.and [c, t], .and [mkNot c, e]]) :=
    (if_pos rfl).trans (if_pos ⟨supB_wt t ht, supB_wt e he⟩)
  rw [e1]
  refine (h.b (V := V) ?_ ?_ hp ?_).imp id fun r q _ _ hr => hr.weak (fun _ h => h) fun σ => ?_
  · have := csize_mkNot c
    simp only [csize, csizeList]; omega
  · simp [supB, supBAll, hc, ht, he, supB_mkNot hc]
  · intro v hv
    simp only [Formula.syms, symsList, syms_mkNot, List.mem_append, List.append_nil] at hv
    rcases hv with (hv | hv) | hv | hv
    · exact hV c (by simp) v hv
    · exact hV t (by simp) v hv
    · exact hV c (by simp) v hv
    · exact hV e (by simp) v hv
  · simp only [readF, readAny, readAll, readF_mkNot]
    cases readF σ c <;> simp

theorem convIte_runW (hs : SimpLaw X.simp) (hb : BackLaw X.back ev) (h : RecOk X Γ ev N rec) {p : Pool E} (hp : Inv3 X Γ ev p)
    {c t e : Formula} (hN : 2 * csize c + csize t + csize e + 15 ≤ N) (hc : supB c = true) (ht : supW t = true) (he : supW e = true) {V : String × Ty → Prop}
    (hV : ∀ a, a = c ∨ a = t ∨ a = e → ∀ v ∈ Formula.syms a, V v) :
    Run (Inv3 X Γ ev) Ext (convIte X rec false c t e) p True (WRes ev V (fun σ => if readF σ c then readV σ t else readV σ e)) := by
  have e1 : convIte X rec false c t e = (do
    let rc ← rec true c
    let rt ← rec false t
    let re ← rec false e
    let n ← rc.node
    let nt ← rt.node
    let a ← apply X .mul n nt
    let i ← invert X n
    let ne ← re.node
    let b ← apply X .mul i ne
    let r ← apply X .add a b
    pure (.id r)) := if_neg (by simp)
  rw [e1]
  refine Run.seq3 (h.b (by omega) hc hp (hV c (by simp))) id ?_
  rintro rc q1 hq1 e1 ⟨n, rfl, hn⟩
  refine Run.seq3 (h.w (by omega) ht hq1 (hV t (by simp))) id ?_
  rintro rt q2 hq2 e2 ⟨nt, rfl, hnt⟩
  refine Run.seq3 (h.w (by omega) he hq2 (hV e (by simp))) id ?_
  rintro re q3 hq3 e3 ⟨ne, rfl, hne⟩
  refine Run.useNode (Run.useNode ?_)
  have hn3 := hn.mono hq1.core (e2.trans e3)
  refine Run.seq3 (applyW_run hs hb (Or.inl rfl) hq3 (hn3.wnode hb) (hnt.mono hq2.core e3)) id ?_
  intro a q4 hq4 e4 ha
  refine Run.seq3 (invertB_run hs hb hq4 (hn3.mono hq3.core e4)) id ?_
  intro i q5 hq5 e5 hi
  refine Run.useNode ?_
  refine Run.seq3 (applyW_run hs hb (Or.inl rfl) hq5 (hi.wnode hb) (hne.mono hq3.core (e4.trans e5))) id ?_
  intro b q6 hq6 e6 hb'
  refine Run.seq3 (applyW_run hs hb (Or.inr rfl) hq6 (ha.mono hq4.core (e5.trans e6)) hb') id ?_
  intro r q7 hq7 _ hr
  refine Run.ret Ext.refl hq7 ⟨r, rfl, hr.weak (fun _ h => h) fun σ => ?_⟩
  simp only [opR]
  cases readF σ c <;> simp

theorem convPow_runW (hs : SimpLaw X.simp) (hb : BackLaw X.back ev) (h : RecOk X Γ ev N rec) {p : Pool E} (hp : Inv3 X Γ ev p)
    {b : Formula} {k : ℚ} (hN : csize b < N) (hsb : supW b = true) (hd : k.den = 1) (hk : 0 ≤ k.num) {V : String × Ty → Prop}
    (hV : ∀ v ∈ Formula.syms b, V v) :
    Run (Inv3 X Γ ev) Ext (convPow X rec false b (.realC k)) p True (WRes ev V (fun σ => readV σ b ^ k.num.toNat)) := by
  unfold convPow
  refine Run.seq3 (h.w hN hsb hp hV) id ?_
  rintro r q hq he ⟨n, rfl, hn⟩
  simp only
  rw [if_neg (by simpa using hd)]
  by_cases h0 : k.num = 0
  · rw [if_pos h0]
    refine Run.bindGet ?_
    exact Run.ret Ext.refl hq ⟨_, rfl, ((BNode.one hq.core).wnode hb).weak (fun _ h => h) fun σ => by simp [h0]⟩
  · rw [if_neg h0]
    by_cases h1 : k.num - 1 ≤ 0
    · rw [if_pos h1]
      have : k.num = 1 := by omega
      exact Run.ret Ext.refl hq ⟨_, rfl, hn.weak (fun _ h => h) fun σ => by simp [this]⟩
    · rw [if_neg h1]
      refine Run.useNode ?_
      refine Run.seq3 (powW_run hs hb _ hq hn hn) id ?_
      intro r q' hq' _ hr
      refine Run.ret Ext.refl hq' ⟨r, rfl, hr.weak (fun _ h => h) fun σ => ?_⟩
      have : k.num.toNat = (k.num - 1).toNat + 1 := by omega
      rw [this, pow_succ]; ring

theorem convPow_term (h : RecOk X Γ ev N rec) {p : Pool E} (hp : Inv3 X Γ ev p)
    {b : Formula} (hN : csize b < N) (hb : linTerm b = true) :
    Run (Inv3 X Γ ev) Ext (convPow X rec true b (.realC 1)) p True (fun r _ => r = .term (cterm b)) := by
  unfold convPow
  refine Run.seq3 (h.t hN hb hp) id ?_
  rintro r q hq he rfl
  simp only
  rw [if_neg (by simp), if_neg (by simp), if_pos (by simp)]
  exact Run.ret Ext.refl hq rfl

theorem convLe_run (hs : SimpLaw X.simp) (h : RecOk X Γ ev N rec) {p : Pool E} (hp : Inv3 X Γ ev p) {l r : Formula} (hl : csize l < N)
    (hr : csize r < N) (h1 : linTerm l = true) (h2 : linTerm r = true) {V : String × Ty → Prop} (hV : ∀ v ∈ Formula.syms l ++ Formula.syms r, V v) :
    Run (Inv3 X Γ ev) Ext (convLe X rec true l r) p True (BRes X V (fun σ => readTest σ (.le (cterm l) (cterm r)))) := by
  have e : convLe X rec true l r = (do
    let a ← rec true l
    let b ← rec true r
    let g ← XM.lift (cmpRes a b)
    let n ← boolTest X ⟨g, none, false⟩
    pure (.id n)) := if_pos rfl
  rw [e]
  refine Run.seq3 (h.t hl h1 hp) id ?_
  rintro a q hq he rfl
  refine Run.seq3 (h.t hr h2 hq) id ?_
  rintro b q' hq' he' rfl
  refine Run.bindLift rfl ?_
  refine Run.seq3 (testB_run hs hq' (.le (cterm_spec l h1).1 (cterm_spec r h2).1) (V := V) ?_) id ?_
  · intro v hv
    simp only [Formula.syms, List.mem_append] at hv
    refine hV v (List.mem_append.mpr (hv.imp ((cterm_spec l h1).2.2 v) ((cterm_spec r h2).2.2 v)))
  · intro n q'' hq'' _ hn
    exact Run.ret Ext.refl hq'' ⟨n, rfl, hn⟩

theorem WalkOk.ofB {f : Formula} (hf : supB f = true) {r : XRes} {q : Pool E} (h : BRes X (· ∈ Formula.syms f) (readF · f) r q) :
    WalkOk X ev f true r q :=
  ⟨fun _ _ => h, fun _ hl => (by rw [supB_not_lin hf] at hl; cases hl), fun h => (by cases h)⟩
theorem WalkOk.ofT {f : Formula} (hf : linTerm f = true) {r : XRes} {q : Pool E} (h : r = .term (cterm f)) : WalkOk X ev f true r q :=
  ⟨fun _ hb => (by rw [supB_not_lin hb] at hf; cases hf), fun _ _ => h, fun h => (by cases h)⟩
theorem WalkOk.ofW {f : Formula} {r : XRes} {q : Pool E} (h : WRes ev (· ∈ Formula.syms f) (readV · f) r q) : WalkOk X ev f false r q :=
  ⟨fun h => (by cases h), fun h => (by cases h), fun _ _ => h⟩

theorem convBody_b (hs : SimpLaw X.simp) (hb : BackLaw X.back ev) {f : Formula} (h : RecOk X Γ ev (csize f) rec)
    {p : Pool E} (hp : Inv3 X Γ ev p) (hf : supB f = true) :
    Run (Inv3 X Γ ev) Ext (convBody X rec true f) p True (BRes X (· ∈ Formula.syms f) (readF · f)) := by
  cases f with
  | and as =>
    simp only [supB, Bool.and_eq_true, supBAll_iff] at hf
    exact (convAnd_run hs hb.ne h hp (fun a ha => by simpa [csize] using csize_mem ha) hf.2 (V := (· ∈ Formula.syms (.and as)))
      fun a ha v hv => mem_symsList.mpr ⟨a, ha, hv⟩).imp id fun _ _ _ _ hr => hr.weak (fun _ h => h) fun σ => by simp [readF]
  | or as =>
    simp only [supB, Bool.and_eq_true, supBAll_iff] at hf
    exact (convOr_run hs hb.ne h hp (fun a ha => by simpa [csize] using csize_mem ha) hf.2 (V := (· ∈ Formula.syms (.or as)))
      fun a ha v hv => mem_symsList.mpr ⟨a, ha, hv⟩).imp id fun _ _ _ _ hr => hr.weak (fun _ h => h) fun σ => by simp [readF]
  | implies l r =>
    simp only [supB, Bool.and_eq_true] at hf
    have := csize_mkNot l
    refine (h.b (f := .or [mkNot l, r]) (by simp only [csize, csizeList]; omega) (by simp [supB, supBAll, hf, supB_mkNot hf.1]) hp
      (V := (· ∈ Formula.syms (.implies l r))) ?_).imp id fun _ _ _ _ hr => hr.weak (fun _ h => h) fun σ => ?_
    · intro v hv
      simpa [Formula.syms, symsList, syms_mkNot] using hv
    · simp [readF, readAny, readF_mkNot]
  | iff l r =>
    simp only [supB, Bool.and_eq_true] at hf
    refine (convAnd_run hs hb.ne h hp (as := [.implies l r, .implies r l]) ?_ ?_ (V := (· ∈ Formula.syms (.iff l r))) ?_).imp id
      fun _ _ _ _ hr => hr.weak (fun _ h => h) fun σ => ?_
    · intro a ha
      simp only [List.mem_cons, List.not_mem_nil, or_false] at ha
      rcases ha with rfl | rfl <;> simp only [csize] <;> omega
    · intro a ha
      simp only [List.mem_cons, List.not_mem_nil, or_false] at ha
      rcases ha with rfl | rfl <;> simp [supB, hf]
    · intro a ha v hv
      simp only [List.mem_cons, List.not_mem_nil, or_false] at ha
      rcases ha with rfl | rfl <;> simp only [Formula.syms, List.mem_append] at hv ⊢ <;> tauto
    · simp only [readF, readAll]
      cases readF σ l <;> cases readF σ r <;> rfl
  | not a =>
    simp only [supB] at hf
    exact (convNot_run hs hb h hp (by simp [csize]) hf (V := (· ∈ Formula.syms (.not a))) fun v hv => hv).imp id
      fun _ _ _ _ hr => hr.weak (fun _ h => h) fun σ => by simp [readF]
  | ite c t e =>
    simp only [supB, Bool.and_eq_true] at hf
    refine (convIte_runB h hp (by simp [csize]) hf.1 hf.2.1 hf.2.2 (V := (· ∈ Formula.syms (.ite c t e))) ?_).imp id
      fun _ _ _ _ hr => hr.weak (fun _ h => h) fun σ => by simp [readF]
    rintro a (rfl | rfl | rfl) v hv <;> simp [Formula.syms, hv]
  | le l r =>
    simp only [supB, Bool.and_eq_true] at hf
    exact (convLe_run hs h hp (by simp only [csize]; omega) (by simp only [csize]; omega) hf.1 hf.2 (V := (· ∈ Formula.syms (.le l r))) fun v hv => hv).imp id
      fun _ _ _ _ hr => hr.weak (fun _ h => h) fun σ => by simp [readF]
  | lt l r =>
    simp only [supB, Bool.and_eq_true] at hf
    exact (h.b (f := .le l r) (by simp only [csize]; omega) (by simp [supB, hf]) hp (V := (· ∈ Formula.syms (.lt l r))) fun v hv => hv).imp id
      fun _ _ _ _ hr => hr.weak (fun _ h => h) fun σ => by simp [readF]
  | sym n t =>
    cases t with
    | real => simp [supB] at hf
    | bool =>
      have e : convBody X rec true (.sym n .bool) = (do
        let n ← boolTest X ⟨.sym n .bool, none, false⟩
        pure (.id n)) := rfl
      rw [e]
      refine Run.seq3 (testB_run hs hp (.sym n) (V := (· ∈ Formula.syms (.sym n .bool))) fun v hv => hv) id ?_
      intro n' q hq _ hn
      exact Run.ret Ext.refl hq ⟨n', rfl, hn.weak (fun _ h => h) fun σ => by simp [readF, readTest]⟩
  | boolC b =>
    have e : convBody X rec true (.boolC b) = (do
      let n ← boolTest X ⟨.boolC b, none, false⟩
      pure (.id n)) := rfl
    rw [e]
    refine Run.seq3 (testB_run hs hp (.const b) (V := (· ∈ Formula.syms (.boolC b))) fun v hv => hv) id ?_
    intro n' q hq _ hn
    exact Run.ret Ext.refl hq ⟨n', rfl, hn.weak (fun _ h => h) fun σ => by simp [readF, readTest]⟩
  | _ => simp [supB] at hf

theorem convBody_w (hs : SimpLaw X.simp) (hb : BackLaw X.back ev) {f : Formula} (h : RecOk X Γ ev (csize f) rec)
    {p : Pool E} (hp : Inv3 X Γ ev p) (hf : supW f = true) :
    Run (Inv3 X Γ ev) Ext (convBody X rec false f) p True (WRes ev (· ∈ Formula.syms f) (readV · f)) := by
  cases f with
  | times as =>
    simp only [supW, Bool.and_eq_true, supWAll_iff] at hf
    exact (convArith_run hs hb h hp (Or.inl rfl) (fun a ha => by simpa [csize] using csize_mem ha) hf.2 (V := (· ∈ Formula.syms (.times as)))
      fun a ha v hv => mem_symsList.mpr ⟨a, ha, hv⟩).imp id fun _ _ _ _ hr => hr.weak (fun _ h => h) fun σ => by simp [readV]
  | plus as =>
    simp only [supW, Bool.and_eq_true, supWAll_iff] at hf
    exact (convArith_run hs hb h hp (Or.inr rfl) (fun a ha => by simpa [csize] using csize_mem ha) hf.2 (V := (· ∈ Formula.syms (.plus as)))
      fun a ha v hv => mem_symsList.mpr ⟨a, ha, hv⟩).imp id fun _ _ _ _ hr => hr.weak (fun _ h => h) fun σ => by simp [readV]
  | minus l r =>
    simp only [supW, Bool.and_eq_true] at hf
    refine (h.w (f := .plus [l, .times [r, .realC (-1)]]) (by simp only [csize, csizeList]; omega) (by simp [supW, supWAll, hf]) hp
      (V := (· ∈ Formula.syms (.minus l r))) ?_).imp id fun _ _ _ _ hr => hr.weak (fun _ h => h) fun σ => ?_
    · intro v hv
      simpa [Formula.syms, symsList] using hv
    · simp only [readV, readSum, readProd]; push_cast; ring
  | ite c t e =>
    simp only [supW, Bool.and_eq_true] at hf
    refine (convIte_runW hs hb h hp (by simp [csize]) hf.1 hf.2.1 hf.2.2 (V := (· ∈ Formula.syms (.ite c t e))) ?_).imp id
      fun _ _ _ _ hr => hr.weak (fun _ h => h) fun σ => by simp [readV]
    rintro a (rfl | rfl | rfl) v hv <;> simp [Formula.syms, hv]
  | pow b e =>
    cases e with
    | realC k =>
      simp only [supW, Bool.and_eq_true, decide_eq_true_eq] at hf
      exact (convPow_runW hs hb h hp (by simp [csize]) hf.1 hf.2.1 hf.2.2 (V := (· ∈ Formula.syms (.pow b (.realC k))))
        fun v hv => by simp [Formula.syms, hv]).imp id
        fun _ _ _ _ hr => hr.weak (fun _ h => h) fun σ => by simp [readV]
    | _ => simp [supW] at hf
  | sym n t =>
    cases t with
    | bool => simp [supW] at hf
    | real =>
      have e : convBody X rec false (.sym n .real) = (do
        let n ← terminal (X.back.alg.symbol n)
        pure (.id n)) := rfl
      rw [e]
      refine Run.seq3 (terminalW_run hp (V := (· ∈ Formula.syms (.sym n .real))) _) id ?_
      intro n' q hq _ hn
      exact Run.ret Ext.refl hq ⟨n', rfl, hn.weak (fun _ h => h) fun σ => by simp [readV, hb.symbol]⟩
  | realC k =>
    have e : convBody X rec false (.realC k) = (do
      let n ← terminal (X.back.alg.real k)
      pure (.id n)) := rfl
    rw [e]
    refine Run.seq3 (terminalW_run hp (V := (· ∈ Formula.syms (.realC k))) _) id ?_
    intro n' q hq _ hn
    exact Run.ret Ext.refl hq ⟨n', rfl, hn.weak (fun _ h => h) fun σ => by simp [readV, hb.real]⟩
  | _ => simp [supW] at hf

theorem convBody_t {f : Formula} (h : RecOk X Γ ev (csize f) rec) {p : Pool E} (hp : Inv3 X Γ ev p) (hf : linTerm f = true) :
    Run (Inv3 X Γ ev) Ext (convBody X rec true f) p True (fun r _ => r = .term (cterm f)) := by
  cases f with
  | times as =>
    match as with
    | [] => simp [linTerm] at hf
    | [a] => exact convArith_term hp (by simp [mkTimes, cterm])
    | a :: b :: as => exact convArith_term hp (by simp [mkTimes, cterm])
  | plus as =>
    match as with
    | [] => simp [linTerm] at hf
    | [a] => exact convArith_term hp (by simp [mkPlus, cterm])
    | a :: b :: as => exact convArith_term hp (by simp [mkPlus, cterm])
  | minus l r =>
    exact h.t (f := .plus [l, .times [r, .realC (-1)]]) (by simp only [csize, csizeList]; omega) (cterm_spec _ hf).1 hp
  | pow b e =>
    cases e with
    | realC k =>
      simp only [linTerm, Bool.and_eq_true, decide_eq_true_eq] at hf
      obtain ⟨h1, rfl⟩ := hf
      exact convPow_term h hp (by simp [csize]) h1
    | _ => simp [linTerm] at hf
  | sym n t =>
    cases t with
    | bool => simp [linTerm] at hf
    | real => exact Run.ret Ext.refl hp rfl
  | realC k => exact Run.ret Ext.refl hp rfl
  | _ => simp [linTerm] at hf

/-- The walker does what it should. -/
theorem convF_run (hs : SimpLaw X.simp) (hb : BackLaw X.back ev) : ∀ k, RecOk X Γ ev k (convF X k)
  | 0 => fun m f q h => absurd h (Nat.not_lt_zero _)
  | k + 1 => by
    intro m f p hk hsup hp
    unfold convF
    refine Run.bindGet ?_
    cases hl : p.walk.lookup (f, m) with
    | some r => exact Run.ret Ext.refl hp (hp.walk f m r hl)
    | none =>
      simp only
      have ih : RecOk X Γ ev (csize f) (convF X k) := fun m' f' q' h' => convF_run hs hb k m' f' q' (by omega)
      have hbody : Run (Inv3 X Γ ev) Ext (convBody X (convF X k) m f) p True (WalkOk X ev f m) := by
        rcases hsup with ⟨rfl, hB | hT⟩ | ⟨rfl, hW⟩
        · exact (convBody_b hs hb ih hp hB).imp id fun _ _ _ _ h => WalkOk.ofB hB h
        · exact (convBody_t ih hp hT).imp id fun _ _ _ _ h => WalkOk.ofT hT h
        · exact (convBody_w hs hb ih hp hW).imp id fun _ _ _ _ h => WalkOk.ofW h
      refine Run.seq3 hbody id ?_
      intro r q hq he hr
      have he' : Ext q { q with walk := ((f, m), r) :: q.walk } := ⟨(Ext.refl q).slots, (Ext.refl q).tests, rfl, rfl⟩
      have hr' := hr.mono hq.core he'
      refine Run.bindEq (R := Ext) (fun h h' => h.trans h') rfl he' ?_
      refine Run.ret Ext.refl ⟨hq.toInv2.setWalk _, ?_⟩ hr'
      intro f' m' r' hl'
      simp only [List.lookup_cons] at hl'
      split at hl'
      · rename_i heq
        simp only [beq_iff_eq, Prod.mk.injEq] at heq
        obtain ⟨rfl, rfl⟩ := heq
        cases hl'
        exact hr'
      · exact (hq.walk f' m' r' hl').mono hq.core he'

/-- The walker, from any pool. -/
theorem convert_run (hs : SimpLaw X.simp) (hb : BackLaw X.back ev) {p : Pool E} (hp : Inv2 X Γ ev p) {m : Bool} {f : Formula} (hf : Sup m f) :
    Run (Inv2 X Γ ev) Ext (convert X m f) p True (WalkOk X ev f m) := by
  unfold convert
  have he' : Ext p { p with walk := [] } := ⟨(Ext.refl p).slots, (Ext.refl p).tests, rfl, rfl⟩
  refine Run.bindEq (R := Ext) (fun h h' => h.trans h') rfl he' ?_
  exact (convF_run hs hb (csize f + 1) m f _ (by omega) hf ⟨hp.setWalk _, fun f m r h => by cases h⟩).weaken (fun _ h _ => h.toInv2) fun _ h => h

end
end Pywmi
