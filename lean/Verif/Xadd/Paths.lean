import Verif.Xadd.Reduce

set_option linter.unusedSectionVars false
set_option linter.unusedSimpArgs false

/-!
# Paths of reduced diagrams
-/

namespace Pywmi
open Formula Prog Decision

section
variable {E : Type} [DecidableEq E]

/-! ### Paths -/

/-- SPEC: the outcomes of tests along a path that starts at a node. -/
inductive Path (p : Pool E) : ℕ → List (Formula × Bool) → Prop
  | stop {n : ℕ} : Path p n []
  | yes {n t f : ℕ} {d : Decision} {π : List (Formula × Bool)} : p.node n = some (.inner d t f) → Path p t π → Path p n ((d.test, true) :: π)
  | no {n t f : ℕ} {d : Decision} {π : List (Formula × Bool)} : p.node n = some (.inner d t f) → Path p f π → Path p n ((d.test, false) :: π)

/-- SPEC: every path of the diagram is followed at some assignment. -/
def Feasible (p : Pool E) (n : ℕ) : Prop := ∀ π, Path p n π → ∃ σ : Env ℝ, ∀ x ∈ π, truth σ x.1 = x.2

/-- The outcomes of tests along the paths of a tree. -/
def XTree.Paths : XTree E → List (Formula × Bool) → Prop
  | .leaf _, π => π = []
  | .node d A B, π => π = [] ∨ (∃ ρ, π = (d.test, true) :: ρ ∧ A.Paths ρ) ∨ ∃ ρ, π = (d.test, false) :: ρ ∧ B.Paths ρ

theorem Den.paths {p : Pool E} {n : ℕ} {T : XTree E} (hT : Den p n T) {π : List (Formula × Bool)} (h : Path p n π) : T.Paths π := by
  induction h generalizing T with
  | stop => cases T <;> simp [XTree.Paths]
  | yes hn _ ih =>
    cases hT with
    | leaf h => rw [h] at hn; simp at hn
    | node h hA hB =>
      rw [h] at hn
      simp only [Option.some.injEq, XNode.inner.injEq] at hn
      obtain ⟨rfl, rfl, rfl⟩ := hn
      exact Or.inr (Or.inl ⟨_, rfl, ih hA⟩)
  | no hn _ ih =>
    cases hT with
    | leaf h => rw [h] at hn; simp at hn
    | node h hA hB =>
      rw [h] at hn
      simp only [Option.some.injEq, XNode.inner.injEq] at hn
      obtain ⟨rfl, rfl, rfl⟩ := hn
      exact Or.inr (Or.inr ⟨_, rfl, ih hB⟩)

theorem XTree.Paths.tests : ∀ {T : XTree E} {π : List (Formula × Bool)}, T.Paths π → ∀ x ∈ π, x.1 ∈ T.tests
  | .leaf _, π, h => by cases h; simp
  | .node d A B, π, h => by
    rcases h with rfl | ⟨ρ, rfl, h⟩ | ⟨ρ, rfl, h⟩
    · simp
    · intro x hx
      rcases List.mem_cons.mp hx with rfl | hx
      · simp [XTree.tests]
      · simp [XTree.tests, h.tests x hx]
    · intro x hx
      rcases List.mem_cons.mp hx with rfl | hx
      · simp [XTree.tests]
      · simp [XTree.tests, h.tests x hx]

/-- Every path of the tree is followed at some assignment that meets the formulas. -/
def Follows (st : List Formula) (T : XTree E) : Prop :=
  ∀ π, T.Paths π → ∃ σ : Env ℝ, (∀ f ∈ st, truth σ f = true) ∧ ∀ x ∈ π, truth σ x.1 = x.2

theorem Follows.node {st st1 : List Formula} {d : Decision} {A B T : XTree E} (hsat : ∃ σ : Env ℝ, ∀ f ∈ st, truth σ f = true)
    (hc : CanSpec d A B T) (h1 : Follows st1 A) (h0 : ∀ σ : Env ℝ, (∀ f ∈ st1, truth σ f = true) → ∀ f ∈ st, truth σ f = true)
    (hA : ∀ π, A.Paths π → ∃ σ : Env ℝ, (∀ f ∈ st, truth σ f = true) ∧ truth σ d.test = true ∧ ∀ x ∈ π, truth σ x.1 = x.2)
    (hB : ∀ π, B.Paths π → ∃ σ : Env ℝ, (∀ f ∈ st, truth σ f = true) ∧ truth σ d.test = false ∧ ∀ x ∈ π, truth σ x.1 = x.2) :
    Follows st T := by
  intro π hπ
  rcases hc with ⟨rfl, rfl⟩ | ⟨d', hd', -, rfl⟩
  · obtain ⟨σ, k1, k2⟩ := h1 π hπ
    exact ⟨σ, h0 σ k1, k2⟩
  · rcases hπ with rfl | ⟨ρ, rfl, h⟩ | ⟨ρ, rfl, h⟩
    · obtain ⟨σ, hσ⟩ := hsat
      exact ⟨σ, hσ, by simp⟩
    · obtain ⟨σ, k1, k2, k3⟩ := hA ρ h
      refine ⟨σ, k1, fun x hx => ?_⟩
      rcases List.mem_cons.mp hx with rfl | hx
      · simpa [hd'] using k2
      · exact k3 x hx
    · obtain ⟨σ, k1, k2, k3⟩ := hB ρ h
      refine ⟨σ, k1, fun x hx => ?_⟩
      rcases List.mem_cons.mp hx with rfl | hx
      · simpa [hd'] using k2
      · exact k3 x hx

theorem Follows.setB {st : List Formula} {A : XTree E} (h : Follows st A) (hst : RealOnly st) (hA : A.AllDec DecOk) {b : String}
    (hb : Formula.sym b .bool ∉ A.tests) (v : Bool) {π : List (Formula × Bool)} (hπ : A.Paths π) :
    ∃ σ : Env ℝ, (∀ f ∈ st, truth σ f = true) ∧ truth σ (.sym b .bool) = v ∧ ∀ x ∈ π, truth σ x.1 = x.2 := by
  obtain ⟨σ, h1, h2⟩ := h π hπ
  refine ⟨σ.setB b v, fun f hf => (hst f hf (σ.setB b v) σ rfl).trans (h1 f hf), by simp [truth, Env.setB], fun x hx => ?_⟩
  have hg := hπ.tests x hx
  rw [← h2 x hx]
  obtain ⟨d, hd, hdx⟩ := XTree.AllDec.tests (Q := fun g => ∃ d : Decision, DecOk d ∧ d.test = g) (fun d h => ⟨d, h, rfl⟩) hA _ hg
  rw [← hdx]
  rcases hd.cases_bool with ⟨b', hb', -⟩ | ⟨-, h⟩
  · rw [← hdx, hb'] at hg
    have hne : b' ≠ b := by rintro rfl; exact hb hg
    rw [hb']
    simp [truth, Env.setB, hne]
  · exact h _ _ rfl

/-- After a full reduction every path can be followed. -/
theorem reduceF_follows {X : XCtx E} (hs : SimpLaw X.simp) (hl : SolveLaw X.solve) (hx : SolveExact X.solve) :
    ∀ (k : ℕ) {p : Pool E}, Inv0 X p → ∀ {n : ℕ} {T : XTree E}, Den p n T → n < k → T.Ord p.tests → ∀ (st : List Formula) (con : List ℕ),
    RealOnly st → (∃ σ : Env ℝ, ∀ f ∈ st, truth σ f = true) →
    Run (Inv0 X) Fr0 (reduceF X false k n st con) p True
      (fun r q => ∃ T', Den q r.1 T' ∧ (∀ g ∈ T'.tests, g ∈ T.tests) ∧ Follows st T') := by
  intro k
  induction k with
  | zero => intro p _ n T _ h; omega
  | succ k ih =>
    intro p hp n T hT hk ho st con hst hsat
    unfold reduceF
    obtain ⟨x, hxn⟩ := Option.isSome_iff_exists.mp hT.isSome
    refine Run.seq0 ((getNode_run hp (n := n)).weaken (fun _ h _ => h) fun _ h => h.fr0) (fun _ => hT.isSome) ?_
    rintro x' q - - ⟨rfl, hx'⟩
    rw [hxn] at hx'
    cases hx'
    cases x with
    | leaf e =>
      refine Run.ret Fr0.refl hp ⟨T, hT, fun _ h => h, ?_⟩
      have hTe : T = .leaf e := hT.unique (.leaf hxn)
      subst hTe
      intro π hπ
      cases hπ
      obtain ⟨σ, hσ⟩ := hsat
      exact ⟨σ, hσ, by simp⟩
    | inner d t f =>
      obtain ⟨htn, hfn, -, -, -, hd, hm⟩ := hp.core.inner hxn
      simp only
      split
      · rename_i hc
        exact absurd hc.1 (by simp)
      · cases hT with
        | leaf h => rw [hxn] at h; simp at h
        | @node _ _ _ _ A B h hA hB =>
          rw [hxn] at h
          simp only [Option.some.injEq, XNode.inner.injEq] at h
          obtain ⟨rfl, rfl, rfl⟩ := h
          have both : ∀ (st1 st2 : List Formula), RealOnly st1 → RealOnly st2 →
              (∃ σ : Env ℝ, ∀ f ∈ st1, truth σ f = true) → (∃ σ : Env ℝ, ∀ f ∈ st2, truth σ f = true) →
              (∀ σ : Env ℝ, (∀ f ∈ st1, truth σ f = true) → ∀ f ∈ st, truth σ f = true) →
              (∀ A' : XTree E, A'.AllDec DecOk → (∀ g ∈ A'.tests, g ∈ A.tests) → Follows st1 A' → ∀ π, A'.Paths π →
                ∃ σ : Env ℝ, (∀ f ∈ st, truth σ f = true) ∧ truth σ d.test = true ∧ ∀ x ∈ π, truth σ x.1 = x.2) →
              (∀ B' : XTree E, B'.AllDec DecOk → (∀ g ∈ B'.tests, g ∈ B.tests) → Follows st2 B' → ∀ π, B'.Paths π →
                ∃ σ : Env ℝ, (∀ f ∈ st, truth σ f = true) ∧ truth σ d.test = false ∧ ∀ x ∈ π, truth σ x.1 = x.2) →
              Run (Inv0 X) Fr0 (do
                let a ← reduceF X false k t st1 con
                let b ← reduceF X false k f st2 a.2
                let m ← internal X d a.1 b.1
                pure (m, b.2) : XM E (ℕ × List ℕ)) q True
              (fun r q => ∃ T', Den q r.1 T' ∧ (∀ g ∈ T'.tests, g ∈ (XTree.node d A B).tests) ∧ Follows st T') := by
            intro st1 st2 r1 r2 s1 s2 l0 l1 l2
            refine Run.seq0 (ih hp hA (by omega) ho.2.1 st1 con r1 s1) id ?_
            rintro a q1 hq1 h01 ⟨A', hA', tA, fA⟩
            refine Run.seq0 (ih hq1 (h01.den hB) (by omega) ((XTree.Ord.mono h01.tests (hB.tests hp.core)).mpr ho.2.2) st2 a.2 r2 s2) id ?_
            rintro b q2 hq2 h12 ⟨B', hB', tB, fB⟩
            refine Run.seq0 ((internal_canon hs hq2.core hd (h12.den hA') hB').core hq2) id ?_
            rintro m q3 hq3 h23 ⟨T', hT', hc⟩
            refine Run.ret Fr0.refl hq3 ⟨T', hT', fun g hg => ?_, Follows.node hsat hc fA l0 (l1 A' ?_ tA fA) (l2 B' ?_ tB fB)⟩
            · simp only [XTree.tests, List.mem_cons, List.mem_append]
              rcases hc with ⟨rfl, rfl⟩ | ⟨d', hd', -, rfl⟩
              · exact Or.inr (Or.inl (tA g hg))
              · simp only [XTree.tests, List.mem_cons, List.mem_append, hd'] at hg
                exact hg.imp id (Or.imp (tA g) (tB g))
            · exact XTree.AllDec.imp (fun _ h => h.1) (hA'.decs hq1.core)
            · exact XTree.AllDec.imp (fun _ h => h.1) (hB'.decs hq2.core)
          have fin : ∀ {m : XM E (ℕ × List ℕ)} {Q : ℕ → Pool E → Prop}, Run (Inv0 X) Fr0 m q True (fun r q => Q r.1 q) →
              Run (Inv0 X) Fr0 (do let r ← m; pure (r.1, if (false : Bool) = true then r.1 :: r.2 else r.2)) q True (fun r q => Q r.1 q) := by
            intro m Q hm
            refine Run.seq0 hm id ?_
            rintro r q1 hq1 - h1
            exact Run.ret Fr0.refl hq1 h1
          refine fin (Q := fun r q => ∃ T', Den q r T' ∧ (∀ g ∈ T'.tests, g ∈ (XTree.node d A B).tests) ∧ Follows st T') ?_
          rcases hd.cases_bool with ⟨b, hb, hb'⟩ | ⟨hb', hr⟩
          · rw [if_pos hb']
            refine both st st hst hst hsat hsat (fun _ h => h) (fun A' dA tA fA π hπ => ?_) fun B' dB tB fB π hπ => ?_
            · rw [hb]
              exact fA.setB hst dA (fun h => lt_irrefl _ (ho.1 _ (Or.inl (hb ▸ tA _ h)))) true hπ
            · rw [hb]
              exact fB.setB hst dB (fun h => lt_irrefl _ (ho.1 _ (Or.inr (hb ▸ tB _ h)))) false hπ
          · rw [if_neg (by simp [hb'])]
            obtain ⟨rp, rn⟩ := hst.pos hr
            have drop : ∀ {g : Formula} (σ : Env ℝ), (∀ f ∈ g :: st, truth σ f = true) → ∀ f ∈ st, truth σ f = true :=
              fun σ h f hf => h f (List.mem_cons_of_mem _ hf)
            split
            · rename_i hun
              refine (ih hp hB (by omega) ho.2.2 _ con rn (sat_cons_not hsat (hl _ hun))).imp id ?_
              rintro r q' - - ⟨T', h1, h2, h3⟩
              refine ⟨T', h1, fun g hg => by simp [XTree.tests, h2 g hg], fun π hπ => ?_⟩
              obtain ⟨σ, k1, k2⟩ := h3 π hπ
              exact ⟨σ, drop σ k1, k2⟩
            · rename_i h1
              split
              · rename_i hun
                refine (ih hp hA (by omega) ho.2.1 _ con rp (sat_cons hsat (hl _ hun))).imp id ?_
                rintro r q' - - ⟨T', h1, h2, h3⟩
                refine ⟨T', h1, fun g hg => by simp [XTree.tests, h2 g hg], fun π hπ => ?_⟩
                obtain ⟨σ, k1, k2⟩ := h3 π hπ
                exact ⟨σ, drop σ k1, k2⟩
              · rename_i h2
                refine both _ _ rp rn (hx _ (by simpa using h1)) (hx _ (by simpa using h2)) drop
                  (fun A' _ _ fA π hπ => ?_) fun B' _ _ fB π hπ => ?_
                · obtain ⟨σ, k1, k2⟩ := fA π hπ
                  exact ⟨σ, drop σ k1, k1 _ (by simp), k2⟩
                · obtain ⟨σ, k1, k2⟩ := fB π hπ
                  have := k1 (mkNot d.test) (by simp)
                  rw [truth_mkNot] at this
                  exact ⟨σ, drop σ k1, by simpa using this, k2⟩

/-! ### Diagrams that are already reduced -/

theorem internal_self {X : XCtx E} (hs : SimpLaw X.simp) {p : Pool E} (hp : Core X p) {n : ℕ} {d : Decision} {t f : ℕ}
    (hn : p.node n = some (.inner d t f)) : internal X d t f p = (.ok n, p) := by
  obtain ⟨-, -, htf, -, -, hd, hm⟩ := hp.inner hn
  obtain ⟨i, hi⟩ : ∃ i, p.tests.idxOf? d.test = some i := by
    cases h : p.tests.idxOf? d.test with
    | some i => exact ⟨i, rfl⟩
    | none => rw [List.idxOf?_eq_none_iff] at h; exact absurd hm h
  have hl := (hp.inners i t f n).mpr ⟨d, hn, hi⟩
  unfold internal
  rw [if_neg htf]
  simp only [XM.bind_apply, XM.lift, hd.branches hs, hd.canon t f, internNode, addTest, hi, XM.get, hl, XM.pure_apply]

/-- Every path from the node is followed at some assignment that meets the formulas. -/
def FollowsAt (st : List Formula) (p : Pool E) (n : ℕ) : Prop :=
  ∀ π, Path p n π → ∃ σ : Env ℝ, (∀ f ∈ st, truth σ f = true) ∧ ∀ x ∈ π, truth σ x.1 = x.2

/-- Full reduction returns a diagram without paths that are not followed as it is. -/
theorem reduceF_same {X : XCtx E} (hs : SimpLaw X.simp) (hl : SolveLaw X.solve) {p : Pool E} (hp : Core X p) :
    ∀ (k n : ℕ), (p.node n).isSome → n < k → ∀ (st : List Formula) (con : List ℕ), FollowsAt st p n →
    reduceF X false k n st con p = (.ok (n, con), p) := by
  intro k
  induction k with
  | zero => intro n _ h; omega
  | succ k ih =>
    intro n hn hk st con hf
    obtain ⟨x, hx⟩ := Option.isSome_iff_exists.mp hn
    unfold reduceF
    simp only [XM.bind_apply, getNode, hx]
    cases x with
    | leaf e => rfl
    | inner d t f =>
      obtain ⟨htn, hfn, -, ht, hf', hd, -⟩ := hp.inner hx
      have self := internal_self hs hp hx
      rcases hd.cases_bool with ⟨b, hb, hb'⟩ | ⟨hb', -⟩
      · have f1 : FollowsAt st p t := fun π hπ => by
          obtain ⟨σ, h1, h2⟩ := hf _ (.yes hx hπ)
          exact ⟨σ, h1, fun x hx => h2 x (by simp [hx])⟩
        have f2 : FollowsAt st p f := fun π hπ => by
          obtain ⟨σ, h1, h2⟩ := hf _ (.no hx hπ)
          exact ⟨σ, h1, fun x hx => h2 x (by simp [hx])⟩
        simp [hb', XM.bind_apply, XM.pure_apply, ih t ht (by omega) st con f1, ih f hf' (by omega) st con f2, self]
      · have pos : ∀ π, Path p t π → ∃ σ : Env ℝ, (∀ f ∈ d.test :: st, truth σ f = true) ∧ ∀ x ∈ π, truth σ x.1 = x.2 := fun π hπ => by
          obtain ⟨σ, h1, h2⟩ := hf _ (.yes hx hπ)
          refine ⟨σ, fun g hg => ?_, fun x hx => h2 x (by simp [hx])⟩
          rcases List.mem_cons.mp hg with rfl | hg
          · exact h2 (d.test, true) (by simp)
          · exact h1 g hg
        have neg : ∀ π, Path p f π → ∃ σ : Env ℝ, (∀ f ∈ mkNot d.test :: st, truth σ f = true) ∧ ∀ x ∈ π, truth σ x.1 = x.2 := fun π hπ => by
          obtain ⟨σ, h1, h2⟩ := hf _ (.no hx hπ)
          refine ⟨σ, fun g hg => ?_, fun x hx => h2 x (by simp [hx])⟩
          rcases List.mem_cons.mp hg with rfl | hg
          · rw [truth_mkNot, h2 (d.test, false) (by simp)]; rfl
          · exact h1 g hg
        have s1 : X.solve (d.test :: st) = true := by
          by_contra h
          obtain ⟨σ, h1, -⟩ := pos [] .stop
          exact hl _ (by simpa using h) σ h1
        have s2 : X.solve (mkNot d.test :: st) = true := by
          by_contra h
          obtain ⟨σ, h1, -⟩ := neg [] .stop
          exact hl _ (by simpa using h) σ h1
        simp [hb', s1, s2, XM.bind_apply, XM.pure_apply, ih t ht (by omega) _ con pos, ih f hf' (by omega) _ con neg, self]

end
end Pywmi
