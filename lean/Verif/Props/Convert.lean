import Verif.Cli.Convert
import Verif.Props.Smtlib
import Verif.Props.MinizincAccept
import Verif.Props.SmtlibAccept
import Verif.Props.Primal
import Verif.Spec.Problem
import Verif.Props.XsddEngine

set_option linter.unusedSectionVars false
set_option linter.unusedSimpArgs false

/-!
# C76: imported problems
-/

namespace Pywmi
open Formula Prog

/-- SPEC: a well-formed domain with these Booleans and these real variables with bounds, in any order. -/
structure DomainIs (D : Domain) (B : List String) (N : List (String × Bounds)) : Prop where
  wf : D.WF
  bools : D.bools.Perm B
  reals : D.reals.Perm (N.map (·.1))
  bounds : D.varDomains.Perm N

/-- SPEC: the value depends only on these Booleans and these numbers. -/
def OnlyOn {K α : Type} (B N : List String) (f : Env K → α) : Prop :=
  ∀ σ τ : Env K, (∀ x ∈ B, σ.b x = τ.b x) → (∀ x ∈ N, σ.r x = τ.r x) → f σ = f τ

theorem OnlyOn.mono {K α : Type} {B N B' N' : List String} {f : Env K → α} (h : OnlyOn B N f) (hb : ∀ x ∈ B, x ∈ B') (hn : ∀ x ∈ N, x ∈ N') :
    OnlyOn B' N' f := fun σ τ h1 h2 => h σ τ (fun x hx => h1 x (hb x hx)) fun x hx => h2 x (hn x hx)

theorem make_is {bools : List String} {N : List (String × Bounds)} (hn : (bools ++ N.map (·.1)).Nodup) {B : List String} {N' : List (String × Bounds)}
    (hB : bools.Perm B) (hN : N.Perm N') : ∃ D, Domain.make bools (.dict (dictOf N)) none none = .ok D ∧ DomainIs D B N' := by
  have hk : dictOf N = N := dictOf_nodup (List.nodup_append.mp hn).2.1
  obtain ⟨h1, h2, h3⟩ := Domain.make_core hn
  refine ⟨_, by rw [hk]; simp [Domain.make], h1, ?_, ?_, hN⟩
  · have := h1.boolVars
    rw [h2, Except.ok.injEq] at this
    rw [Domain.bools, ← this]
    exact hB
  · have := h1.realVars
    rw [h3, Except.ok.injEq] at this
    rw [Domain.reals, ← this]
    exact hN.map _

/-! ### SMT-LIB -/

section
variable {K : Type} [Field K] [LinearOrder K] [IsStrictOrderedRing K]

mutual
theorem sVal_only {kind : String → Option Bool} {σ τ : Env K} (hb : ∀ x, kind x = some true → σ.b x = τ.b x)
    (hr : ∀ x, kind x = some false → σ.r x = τ.r x) : ∀ t : STerm, sVal kind σ t = sVal kind τ t
  | .numeral n => by simp [sVal]
  | .decimal q => by simp [sVal]
  | .hex n => by simp [sVal]
  | .bin n => by simp [sVal]
  | .app s ts => by simp only [sVal]; rw [sVals_only hb hr ts]
  | .ident s => by
    have key : ∀ x, ((kind x).map fun k => varVal k x σ) = (kind x).map fun k => varVal k x τ := fun x => by
      cases hk : kind x with
      | none => rfl
      | some k => cases k <;> simp [varVal, hb, hr, hk]
    unfold sVal
    split <;> first | rfl | exact key _ | (rename_i h; cases h)
  | .str | .indexed | .appIndexed | .binder => by simp [sVal]
theorem sVals_only {kind : String → Option Bool} {σ τ : Env K} (hb : ∀ x, kind x = some true → σ.b x = τ.b x)
    (hr : ∀ x, kind x = some false → σ.r x = τ.r x) : ∀ ts : List STerm, sVals kind σ ts = sVals kind τ ts
  | [] => by simp [sVals]
  | t :: ts => by simp only [sVals]; rw [sVal_only hb hr t, sVals_only hb hr ts]
end

/-- The declared names, by kind. -/
theorem declKind_true {cs : List SCmd} {x : String} (h : declKind [] [] cs x = some true) :
    x ∈ ((decls cs).filter fun p => p.2 = "Bool").map Prod.fst := by
  simp only [declKind, List.not_mem_nil, if_false, Option.map_eq_some_iff, decide_eq_true_eq] at h
  obtain ⟨p, hp, h2⟩ := h
  have h1 := List.find?_some hp
  simp only [decide_eq_true_eq] at h1
  exact List.mem_map.mpr ⟨p, List.mem_filter.mpr ⟨List.mem_of_find?_eq_some hp, by simpa using h2⟩, h1⟩

theorem declKind_false {cs : List SCmd} {x : String} (h : declKind [] [] cs x = some false) :
    x ∈ ((decls cs).filter fun p => ¬ p.2 = "Bool").map Prod.fst := by
  simp only [declKind, List.not_mem_nil, if_false, Option.map_eq_some_iff, decide_eq_false_iff_not] at h
  obtain ⟨p, hp, h2⟩ := h
  have h1 := List.find?_some hp
  simp only [decide_eq_true_eq] at h1
  exact List.mem_map.mpr ⟨p, List.mem_filter.mpr ⟨List.mem_of_find?_eq_some hp, by simpa using h2⟩, h1⟩

theorem sVal_onlyOn (cs : List SCmd) (t : STerm) :
    OnlyOn (K := K) (((decls cs).filter fun p => p.2 = "Bool").map Prod.fst) (((decls cs).filter fun p => ¬ p.2 = "Bool").map Prod.fst)
      fun σ => sVal (declKind [] [] cs) σ t := fun _ _ h1 h2 =>
  sVal_only (fun x hx => h1 x (declKind_true hx)) (fun x hx => h2 x (declKind_false hx)) t

theorem filter_names_nodup {l : List (String × String)} (h : (l.map Prod.fst).Nodup) :
    ((l.filter fun p => p.2 = "Bool").map Prod.fst ++ (l.filter fun p => ¬ p.2 = "Bool").map Prod.fst).Nodup := by
  rw [← List.map_append]
  have : (l.filter (fun p => p.2 = "Bool") ++ l.filter fun p => ¬ p.2 = "Bool").Perm l := by
    have := List.filter_append_perm (fun p : String × String => decide (p.2 = "Bool")) l
    simpa using this
  exact (this.map _).nodup_iff.mpr h

/-- **C76**: an SMT-LIB file becomes the problem it describes: the domain has the declared Booleans and the declared numbers,
unbounded; the support holds where all assertions do, the weight is the given one or 1, the queries have their values; and all
values are determined by the variables of the domain.  Whenever the file can be read, there is such a problem. -/
theorem import_smt_correct {simp : Pt → Pt} (hs : KeepsMeaning K simp) {setA : List String → List String}
    {setX : List (String × PTy) → List (String × PTy)} (hA : ∀ l, (setA l).Perm l) (hX : ∀ l, (setX l).Perm l) {cs : List SCmd}
    (har : ∀ c ∈ cs, ∀ t, c.term = some t → arityS t = true) {R : SResult} (h : parseSmtlib simp [] [] cs = .ok R) :
    let B := ((decls cs).filter fun p => p.2 = "Bool").map Prod.fst
    let N := ((decls cs).filter fun p => ¬ p.2 = "Bool").map Prod.fst
    ∃ P, importSmt simp setA setX cs = .ok P ∧ DomainIs P.domain B (N.map fun x => (x, (none, none))) ∧
      (∀ σ : Env K, Pt.den σ P.support = .b true ↔ ∀ t ∈ asserts cs, sVal (declKind [] [] cs) σ t = some (.b true)) ∧
      ((weights cs = [] ∧ ∀ σ : Env K, Pt.den σ P.weight = .n 1) ∨
        ∃ t, weights cs = [t] ∧ ∀ σ : Env K, sVal (declKind [] [] cs) σ t = some (Pt.den σ P.weight)) ∧
      List.Forall₂ (fun t p => ∀ σ : Env K, sVal (declKind [] [] cs) σ t = some (Pt.den σ p)) (queriesOf cs) P.queries ∧
      OnlyOn (K := K) B N (fun σ => Pt.den σ P.support = .b true) ∧ OnlyOn (K := K) B N (fun σ => Pt.den σ P.weight) ∧
      ∀ q ∈ P.queries, OnlyOn (K := K) B N fun σ => Pt.den σ q := by
  intro B N
  obtain ⟨h1, h2, h3, h4, h5, h6, h7, -, -⟩ := smtlib_meaning hs har h
  simp only [List.nil_append, List.map_nil] at h4 h5
  have hnames : (setX R.reals).map Prod.fst |>.Perm N := by
    refine ((hX R.reals).map Prod.fst).trans ?_
    rw [h5, List.map_map]
    exact List.Perm.of_eq rfl
  have hk : (((setX R.reals).map fun p => (p.1, ((none, none) : Bounds))).map (·.1)) = (setX R.reals).map Prod.fst := by simp [Function.comp_def]
  have hAB : (setA R.bools).Perm B := (hA _).trans (List.Perm.of_eq h4)
  have hnd : (setA R.bools ++ ((setX R.reals).map fun p => (p.1, ((none, none) : Bounds))).map (·.1)).Nodup := by
    rw [hk]
    exact ((hAB.append hnames).nodup_iff).mpr (filter_names_nodup h7)
  obtain ⟨D, hD, hDi⟩ := make_is hnd hAB (N' := N.map fun x => (x, ((none, none) : Bounds))) (by
    have := hnames.map fun x => (x, ((none, none) : Bounds))
    rw [List.map_map] at this
    exact this)
  refine ⟨⟨D, R.support, R.weight, R.queries⟩, by simp only [importSmt, h, hD], hDi, fun σ => (h1.2 σ).2, h2.2, h3.imp fun _ _ h => h.2, ?_, ?_, ?_⟩
  · intro σ τ hb hr
    simp only [(h1.2 _).2]
    refine propext (forall₂_congr fun t _ => ?_)
    have := sVal_onlyOn cs t σ τ hb hr
    simp only at this
    rw [this]
  · intro σ τ hb hr
    rcases h2.2 with ⟨-, hw⟩ | ⟨t, -, hw⟩
    · simp only [hw]
    · have := sVal_onlyOn cs t σ τ hb hr
      simp only [hw] at this
      exact Option.some.inj this
  · intro q hq σ τ hb hr
    obtain ⟨t, -, hw⟩ : ∃ t ∈ queriesOf cs, ∀ σ : Env K, sVal (declKind [] [] cs) σ t = some (Pt.den σ q) := by
      have h3' := h3
      generalize queriesOf cs = qs at h3'
      change q ∈ R.queries at hq
      generalize R.queries = ps at h3' hq
      clear h3
      induction h3' with
      | nil => cases hq
      | cons h _ ih =>
        rcases List.mem_cons.mp hq with rfl | hq
        · exact ⟨_, by simp, h.2⟩
        · obtain ⟨t, ht, h⟩ := ih hq; exact ⟨t, by simp [ht], h⟩
    have := sVal_onlyOn cs t σ τ hb hr
    simp only [hw] at this
    exact Option.some.inj this

/-! ### MiniZinc -/

mutual
theorem mVal_only {ρ : Names K} {σ τ : Env K} (h : ∀ x, ρ x σ = ρ x τ) : ∀ e : MExpr, mVal ρ σ e = mVal ρ τ e
  | .bin op l r => by simp only [mVal]; rw [mVal_only h l, mVal_only h r]
  | .not e => by simp only [mVal]; rw [mVal_only h e]
  | .neg e => by simp only [mVal]; rw [mVal_only h e]
  | .pos e => by simp only [mVal]; rw [mVal_only h e]
  | .ident x => by simp only [mVal]; rw [h x]
  | .boolL b | .intL n | .floatL q | .bad => by simp only [mVal]
  | .ite b => by simp only [mVal]; rw [mBranchVal_only h b]
theorem mBranchVal_only {ρ : Names K} {σ τ : Env K} (h : ∀ x, ρ x σ = ρ x τ) : ∀ b : MBranch, mBranchVal ρ σ b = mBranchVal ρ τ b
  | .last c t e => by simp only [mBranchVal]; rw [mVal_only h c, mVal_only h t, mVal_only h e]
  | .more c t b => by simp only [mBranchVal]; rw [mVal_only h c, mVal_only h t, mBranchVal_only h b]
end

/-- The meaning of a file speaks only about its variables. -/
structure MOnly (M : Meaning K) : Prop where
  names : ∀ x, OnlyOn M.bools (M.nums.map (·.1)) (M.names x)
  cons : ∀ f ∈ M.cons, OnlyOn M.bools (M.nums.map (·.1)) f
  weights : ∀ f ∈ M.weights, OnlyOn M.bools (M.nums.map (·.1)) f
  queries : ∀ f ∈ M.queries, OnlyOn M.bools (M.nums.map (·.1)) f

theorem MOnly.val {M : Meaning K} (h : MOnly M) (e : MExpr) : OnlyOn M.bools (M.nums.map (·.1)) fun σ => mVal M.names σ e :=
  fun σ τ hb hr => mVal_only (fun x => h.names x σ τ hb hr) e

theorem MOnly.bind {M : Meaning K} (h : MOnly M) {x : String} {f : Env K → Option (PVal K)} {B N : List String}
    (hB : ∀ x ∈ M.bools, x ∈ B) (hN : ∀ x ∈ M.nums.map (·.1), x ∈ N) (hf : OnlyOn B N f) (y : String) :
    OnlyOn B N (M.names.bind x f y) := by
  unfold Names.bind
  split_ifs
  · exact hf
  · exact (h.names y).mono hB hN

theorem MOnly.decl {M : Meaning K} (h : MOnly M) (var : Bool) (t : MType) (x : String) (e : Option MExpr) : MOnly (declMeaning M var t x e) := by
  unfold declMeaning
  cases var with
  | false =>
    simp only [Bool.false_eq_true, if_false]
    refine ⟨h.bind (fun _ h => h) (fun _ h => h) ?_, h.cons, h.weights, h.queries⟩
    cases e with
    | none => exact fun _ _ _ _ => rfl
    | some e => exact h.val e
  | true =>
    simp only [if_true]
    have hB : ∀ y ∈ M.bools, y ∈ (if t.isBool = true then M.bools ++ [x] else M.bools) := by
      intro y hy; split_ifs <;> simp [hy]
    have hN : ∀ y ∈ M.nums.map (·.1), y ∈ ((if t.isBool = true then M.nums else M.nums ++ [(x, t.stated, endpoints M.names t)]).map (·.1)) := by
      intro y hy
      split_ifs
      · exact hy
      · rw [List.map_append]; exact List.mem_append_left _ hy
    have hv : OnlyOn (K := K) (if t.isBool = true then M.bools ++ [x] else M.bools)
        ((if t.isBool = true then M.nums else M.nums ++ [(x, t.stated, endpoints M.names t)]).map (·.1)) fun σ => varVal t.isBool x σ := by
      intro σ τ hb hr
      cases ht : t.isBool with
      | true => simp only [ht, if_true] at hb; simp [varVal, hb x (by simp)]
      | false => simp only [ht, Bool.false_eq_true, if_false] at hr; simp [varVal, hr x (by simp)]
    refine ⟨h.bind hB hN fun σ τ hb hr => congrArg some (hv σ τ hb hr), ?_, fun f hf => (h.weights f hf).mono hB hN,
      fun f hf => (h.queries f hf).mono hB hN⟩
    intro f hf
    rcases List.mem_append.mp hf with hf | hf
    · exact (h.cons f hf).mono hB hN
    · cases e with
      | none => cases hf
      | some e =>
        rw [List.mem_singleton.mp hf]
        intro σ τ hb hr
        have := (h.val e).mono hB hN σ τ hb hr
        have h' : varVal t.isBool x σ = varVal t.isBool x τ := hv σ τ hb hr
        simp only at this ⊢
        rw [this, h']

mutual
theorem itemMeaning_only : ∀ (i : MItem) {M : Meaning K}, MOnly M → MOnly (itemMeaning M i)
  | .incl is, M, h => by simp only [itemMeaning]; exact itemsMeaning_only is h
  | .decl var t x _ e, M, h => by simp only [itemMeaning]; exact h.decl var t x e
  | .assign x e, M, h => by
    simp only [itemMeaning]
    exact ⟨h.bind (fun _ h => h) (fun _ h => h) (h.val e), h.cons, h.weights, h.queries⟩
  | .constr e, M, h => by
    simp only [itemMeaning]
    refine ⟨h.names, fun f hf => ?_, h.weights, h.queries⟩
    rcases List.mem_append.mp hf with hf | hf
    · exact h.cons f hf
    · rw [List.mem_singleton.mp hf]; exact h.val e
  | .weight e, M, h => by
    simp only [itemMeaning]
    refine ⟨h.names, h.cons, fun f hf => ?_, h.queries⟩
    rcases List.mem_append.mp hf with hf | hf
    · exact h.weights f hf
    · rw [List.mem_singleton.mp hf]; exact h.val e
  | .query e, M, h => by
    simp only [itemMeaning]
    refine ⟨h.names, h.cons, h.weights, fun f hf => ?_⟩
    rcases List.mem_append.mp hf with hf | hf
    · exact h.queries f hf
    · rw [List.mem_singleton.mp hf]; exact h.val e
  | .annotated i, M, h => by simp only [itemMeaning]; exact itemMeaning_only i h
  | .other, M, h => by simp only [itemMeaning]; exact h
theorem itemsMeaning_only : ∀ (is : List MItem) {M : Meaning K}, MOnly M → MOnly (itemsMeaning M is)
  | [], M, h => by simp only [itemsMeaning]; exact h
  | i :: is, M, h => by simp only [itemsMeaning]; exact itemsMeaning_only is (itemMeaning_only i h)
end

theorem prodV_only {B N : List String} : ∀ {fs : List (Env K → Option (PVal K))}, (∀ f ∈ fs, OnlyOn B N f) → OnlyOn B N fun σ => prodV σ fs := by
  intro fs h σ τ hb hr
  induction fs with
  | nil => simp [prodV]
  | cons f fs ih =>
    have h1 := h f (by simp) σ τ hb hr
    have h2 := ih fun g hg => h g (by simp [hg])
    simp only [prodV] at h2 ⊢
    rw [h1, h2]

/-- The variables of the visitor are in its table, each once. -/
structure NInv (S : MState) : Prop where
  bools : ∀ x ∈ S.bools, (S.table.get x).isSome
  reals : ∀ x ∈ S.reals.map MReal.name, (S.table.get x).isSome
  nodup : (S.bools ++ S.reals.map MReal.name).Nodup

theorem NInv.same {S S' : MState} (h : NInv S) (hb : S'.bools = S.bools) (hr : S'.reals = S.reals)
    (ht : ∀ x, (S.table.get x).isSome → (S'.table.get x).isSome) : NInv S' :=
  ⟨by rw [hb]; exact fun x hx => ht x (h.bools x hx), by rw [hr]; exact fun x hx => ht x (h.reals x hx), by rw [hb, hr]; exact h.nodup⟩

theorem get_init_isSome {A : List String} {X : List MReal} {w : Option Pt} {x : String} (h : x ∈ A ∨ x ∈ X.map MReal.name) :
    ((MState.init A X w).table.get x).isSome := by
  have : ∃ p ∈ (MState.init A X w).table, p.1 = x := by
    rcases h with h | h
    · exact ⟨(x, _), List.mem_append_left _ (List.mem_map.mpr ⟨x, h, rfl⟩), rfl⟩
    · obtain ⟨r, hr, rfl⟩ := List.mem_map.mp h
      exact ⟨(r.name, _), List.mem_append_right _ (List.mem_map.mpr ⟨r, hr, rfl⟩), rfl⟩
  obtain ⟨p, hp, hpx⟩ := this
  rw [MTable.get, Option.isSome_map, List.find?_isSome]
  exact ⟨p, hp, by simpa using hpx⟩

theorem NInv.init {A : List String} {X : List MReal} {w : Option Pt} (h : (A ++ X.map MReal.name).Nodup) : NInv (.init A X w) :=
  ⟨fun _ hx => get_init_isSome (.inl hx), fun _ hx => get_init_isSome (.inr hx), h⟩

theorem get_snoc_isSome {T : MTable} {x y : String} {e : MEntry} (h : (T.get y).isSome) : (MTable.get (T ++ [(x, e)]) y).isSome := by
  rw [MTable.get_snoc]
  cases hy : T.get y with
  | none => rw [hy] at h; cases h
  | some _ => rfl

theorem get_snoc_self (T : MTable) (x : String) (e : MEntry) : (MTable.get (T ++ [(x, e)]) x).isSome := by
  rw [MTable.get_snoc]; cases T.get x <;> simp

theorem NInv.decl {simp : Pt → Pt} {S S' : MState} (hI : NInv S) {var : Bool} {t : MType} {x : String} {ann : Bool} {e : Option MExpr}
    (h : mDecl simp S var t x ann e = .ok S') : NInv S' := by
  unfold mDecl at h
  split at h
  · cases h
  rename_i ty rng hty
  split at h
  · cases h
  split at h
  · cases h
  rename_i h2
  split at h
  · cases h
  rename_i v hv
  split at h
  · split at h
    · cases h
    rename_i bs hbs
    have hx : S.table.get x = none := by simpa using h2
    have hxb : x ∉ S.bools := fun hx' => by have := hI.bools x hx'; rw [hx] at this; cases this
    have hxr : x ∉ S.reals.map MReal.name := fun hx' => by have := hI.reals x hx'; rw [hx] at this; cases this
    have key : NInv { S with
              table := S.table ++ [(x, ⟨some (.sym x ty), ty, true⟩)]
              bools := if ty = .bool then S.bools ++ [x] else S.bools
              reals := if ty = .bool then S.reals else S.reals ++ [⟨x, ty, bs⟩] } := by
      by_cases hb : ty = .bool
      · simp only [hb, if_true]
        refine ⟨fun y hy => ?_, fun y hy => get_snoc_isSome (hI.reals y hy), ?_⟩
        · rcases List.mem_append.mp hy with hy | hy
          · exact get_snoc_isSome (hI.bools y hy)
          · rw [List.mem_singleton.mp hy]; exact get_snoc_self _ _ _
        · have : (S.bools ++ [x] ++ S.reals.map MReal.name).Perm (x :: (S.bools ++ S.reals.map MReal.name)) := by
            rw [List.append_assoc]; exact List.perm_middle
          exact this.nodup_iff.mpr (List.nodup_cons.mpr ⟨by simp only [List.mem_append, not_or]; exact ⟨hxb, hxr⟩, hI.nodup⟩)
      · simp only [hb, if_false]
        refine ⟨fun y hy => get_snoc_isSome (hI.bools y hy), fun y hy => ?_, ?_⟩
        · rw [List.map_append] at hy
          rcases List.mem_append.mp hy with hy | hy
          · exact get_snoc_isSome (hI.reals y hy)
          · rw [List.mem_singleton.mp hy]; exact get_snoc_self _ _ _
        · rw [List.map_append, ← List.append_assoc]
          have : (S.bools ++ S.reals.map MReal.name ++ [x]).Perm (x :: (S.bools ++ S.reals.map MReal.name)) := List.perm_append_singleton _ _
          exact this.nodup_iff.mpr (List.nodup_cons.mpr ⟨by simp only [List.mem_append, not_or]; exact ⟨hxb, hxr⟩, hI.nodup⟩)
    cases v with
    | none =>
      simp only [Except.ok.injEq] at h
      rw [← h]; exact key
    | some p =>
      cases hq : pEqualsOrIff (.sym x ty) p with
      | error e => simp only [hq] at h; cases h
      | ok q =>
        simp only [hq, Except.ok.injEq] at h
        rw [← h]; exact key.same rfl rfl fun _ h => h
  · cases h
    exact hI.same rfl rfl fun _ h => get_snoc_isSome h

mutual
theorem mItem_names {simp : Pt → Pt} : ∀ (i : MItem) {S S' : MState}, NInv S → mItem simp S i = .ok S' → NInv S'
  | .incl is, S, S', hI, h => by
    simp only [mItem] at h
    split at h
    · cases h
    rename_i C hC
    have := mItems_names is (NInv.init (w := S.weight) hI.nodup) hC
    unfold mAfter at h
    split at h
    · cases h
    · cases h; exact this.same rfl rfl fun _ h => h
  | .decl var t x ann e, S, S', hI, h => by simp only [mItem] at h; exact hI.decl h
  | .assign x e, S, S', hI, h => by
    simp only [mItem, mAssign] at h
    split at h
    · cases h
    split at h
    · cases h
    split at h
    · cases h
    split at h
    · cases h
    split at h
    · cases h
    cases h
    refine hI.same rfl rfl fun y hy => ?_
    rw [MTable.get_set]
    split_ifs <;> simp [hy]
  | .constr e, S, S', hI, h => by
    simp only [mItem] at h
    split at h
    · cases h
    split_ifs at h
    cases h
    exact hI.same rfl rfl fun _ h => h
  | .weight e, S, S', hI, h => by
    simp only [mItem, mWeight] at h
    split at h
    · cases h
    split_ifs at h
    split at h
    · cases h; exact hI.same rfl rfl fun _ h => h
    · split at h
      · cases h
      · cases h; exact hI.same rfl rfl fun _ h => h
    · cases h
  | .query e, S, S', hI, h => by
    simp only [mItem] at h
    split at h
    · cases h
    split_ifs at h
    cases h
    exact hI.same rfl rfl fun _ h => h
  | .annotated i, S, S', hI, h => by simp only [mItem] at h; exact mItem_names i hI h
  | .other, S, S', hI, h => by simp only [mItem] at h; cases h
theorem mItems_names {simp : Pt → Pt} : ∀ (is : List MItem) {S S' : MState}, NInv S → mItems simp S is = .ok S' → NInv S'
  | [], S, S', hI, h => by simp only [mItems] at h; cases h; exact hI
  | i :: is, S, S', hI, h => by
    simp only [mItems] at h
    split at h
    · cases h
    rename_i S1 h1
    exact mItems_names is (mItem_names i hI h1) h
end

theorem parseMzn_names {simp : Pt → Pt} {is : List MItem} {R : MResult} (h : parseMzn simp [] [] none is = .ok R) :
    (R.bools ++ R.reals.map MReal.name).Nodup := by
  unfold parseMzn at h
  split at h
  · cases h
  rename_i S hS
  split at h
  · cases h
  cases h
  exact (mItems_names is (NInv.init (by simp)) hS).nodup

/-- SPEC: the bounds are the values of the endpoints of the range, none without a range. -/
def BoundIs (b : Bounds) (e : Option ((Env K → Option (PVal K)) × (Env K → Option (PVal K)))) : Prop :=
  match e with
  | none => b = (none, none)
  | some (f, g) => ∃ l u : ℚ, b = (some l, some u) ∧ ∀ σ : Env K, f σ = some (.n (l : K)) ∧ g σ = some (.n (u : K))

/-- **C76**: a MiniZinc file becomes the problem it describes: the domain has its decision variables with the endpoints of their
ranges as bounds; the support holds where all constraints do, the weight is the product of the weights, the queries have their
values; and all values are determined by the variables of the domain.  Whenever the file can be read, there is such a problem. -/
theorem import_mzn_correct {simp : Pt → Pt} (hs : KeepsMeaning K simp) {setA : List String → List String} (hA : ∀ l, (setA l).Perm l)
    {is : List MItem} {R : MResult} (h : parseMzn simp [] [] none is = .ok R) :
    let M := itemsMeaning (givenMeaning (K := K) [] [] none) is
    let V := M.nums.map (·.1)
    ∃ P N, importMzn simp setA is = .ok P ∧ DomainIs P.domain M.bools N ∧
      List.Forall₂ (fun (p : String × Bounds) n => p.1 = n.1 ∧ BoundIs p.2 n.2.2) N M.nums ∧
      (∀ σ : Env K, Pt.den σ P.support = .b true ↔ ∀ c ∈ M.cons, c σ = some (.b true)) ∧
      (∀ σ : Env K, ∃ x, prodV σ M.weights = some x ∧ Pt.den σ P.weight = .n x) ∧
      List.Forall₂ (fun p q => ∀ σ : Env K, q σ = some (Pt.den σ p)) P.queries M.queries ∧
      OnlyOn (K := K) M.bools V (fun σ => Pt.den σ P.support = .b true) ∧ OnlyOn (K := K) M.bools V (fun σ => Pt.den σ P.weight) ∧
      ∀ q ∈ P.queries, OnlyOn (K := K) M.bools V fun σ => Pt.den σ q := by
  intro M V
  obtain ⟨h1, h2, h3, h4, h5, -⟩ := mzn_meaning (K := K) hs (w := none) (by simp) (by simp) (by simp) h
  have hM : MOnly M := itemsMeaning_only is ⟨fun x σ τ _ _ => by simp [givenMeaning], by simp [givenMeaning], by simp [givenMeaning], by simp [givenMeaning]⟩
  have hnd := parseMzn_names h
  have hk : ((R.reals.map fun r => (r.name, r.pair)).map (·.1)) = R.reals.map MReal.name := by simp [Function.comp_def]
  obtain ⟨D, hD, hDi⟩ := make_is (bools := setA R.bools) (N := R.reals.map fun r => (r.name, r.pair))
    (by rw [hk]; exact (((hA _).append (List.Perm.refl _)).nodup_iff).mpr hnd) (B := M.bools) ((hA _).trans (List.Perm.of_eq h4)) (List.Perm.refl _)
  refine ⟨⟨D, R.support, R.weight, R.queries⟩, R.reals.map fun r => (r.name, r.pair), by simp only [importMzn, h, hD], hDi, ?_,
    fun σ => (h1.2 σ).2, h2.2, h3.imp fun _ _ h => h.2, ?_, ?_, ?_⟩
  · rw [List.forall₂_map_left_iff]
    refine h5.imp fun r n hrn => ⟨hrn.1, ?_⟩
    have hb := hrn.2.2.2
    unfold BoundsAre at hb
    unfold BoundIs MReal.pair
    cases hr : r.bounds with
    | none => cases hn : n.2.2 with
      | none => simp
      | some fg => rw [hr, hn] at hb; exact hb.elim
    | some lu => cases hn : n.2.2 with
      | none => rw [hr, hn] at hb; exact hb.elim
      | some fg => rw [hr, hn] at hb; exact ⟨lu.1, lu.2, rfl, hb⟩
  · intro σ τ hb hr
    simp only [(h1.2 _).2]
    refine propext (forall₂_congr fun c hc => ?_)
    rw [hM.cons c hc σ τ hb hr]
  · intro σ τ hb hr
    obtain ⟨x, hx, hx'⟩ := h2.2 σ
    obtain ⟨y, hy, hy'⟩ := h2.2 τ
    have := prodV_only hM.weights σ τ hb hr
    simp only at this
    rw [hx, hy, Option.some.injEq] at this
    simp only [hx', hy', this]
  · intro q hq σ τ hb hr
    obtain ⟨t, ht, hw⟩ : ∃ t ∈ M.queries, ∀ σ : Env K, t σ = some (Pt.den σ q) := by
      have h3' := h3
      change q ∈ R.queries at hq
      change List.Forall₂ _ R.queries M.queries at h3'
      generalize M.queries = qs at h3'
      generalize R.queries = ps at h3' hq
      clear h3
      induction h3' with
      | nil => cases hq
      | cons h _ ih =>
        rcases List.mem_cons.mp hq with rfl | hq
        · exact ⟨_, by simp, h.2⟩
        · obtain ⟨t, ht, h⟩ := ih hq; exact ⟨t, by simp [ht], h⟩
    have := hM.queries t ht σ τ hb hr
    rw [hw, hw] at this
    exact Option.some.inj this
end

/-! ### Formulas in separate files -/

theorem freeVars_mem {order : List (String × Ty) → List (String × Ty)} (ho : ∀ l, (order l).Perm l) {q s w : Formula} (p : String × Ty) :
    p ∈ freeVars order q s w ↔ p ∈ syms q ∨ p ∈ syms s ∨ p ∈ syms w := by
  unfold freeVars
  rw [(ho _).mem_iff]
  simp [or_assoc]

/-- The names of a list of typed names without clashes, by type. -/
theorem typed_nodup {l : List (String × Ty)} (hl : l.Nodup) (hc : ∀ x, (x, Ty.bool) ∈ l → (x, Ty.real) ∉ l) :
    ((l.filter fun v => v.2 = .bool).map (·.1) ++ (l.filter fun v => v.2 = .real).map (·.1)).Nodup := by
  have inj : ∀ t : Ty, ((l.filter fun v => v.2 = t).map (·.1)).Nodup := by
    intro t
    refine List.Nodup.map_on ?_ (hl.filter _)
    rintro ⟨a, b⟩ hx ⟨a', b'⟩ hy h
    have h1 := (List.mem_filter.mp hx).2
    have h2 := (List.mem_filter.mp hy).2
    simp only [decide_eq_true_eq] at h1 h2
    simp_all
  refine List.nodup_append.mpr ⟨inj _, inj _, ?_⟩
  rintro x hx y hy rfl
  obtain ⟨⟨a, t⟩, hp, rfl⟩ := List.mem_map.mp hx
  obtain ⟨⟨b, u⟩, hp', h⟩ := List.mem_map.mp hy
  obtain ⟨h1, h2⟩ := List.mem_filter.mp hp
  obtain ⟨h3, h4⟩ := List.mem_filter.mp hp'
  simp only [decide_eq_true_eq] at h2 h4 h
  subst h h2 h4
  exact hc _ h1 h3

/-- **C76**: the generated problems with a query, a support and a weight file: there is a problem with these formulas, its
variables are exactly the free variables of the three, and every real variable ranges over [0, 1]. -/
theorem import_tree_correct {order : List (String × Ty) → List (String × Ty)} (ho : ∀ l, (order l).Perm l) {q s w : Formula}
    (hs : wt .bool s = true) (hw : wt .real w = true)
    (hc : ∀ x, (x, Ty.bool) ∈ syms q ++ syms s ++ syms w → (x, Ty.real) ∉ syms q ++ syms s ++ syms w) :
    ∃ P, importGenerateTree order q s w = .ok P ∧ P.support = s ∧ P.weight = w ∧ P.queries = [q] ∧ Problem P.domain s w ∧ P.domain.covers q ∧
      (∀ x, x ∈ P.domain.bools ↔ (x, Ty.bool) ∈ syms q ++ syms s ++ syms w) ∧
      (∀ x, x ∈ P.domain.reals ↔ (x, Ty.real) ∈ syms q ++ syms s ++ syms w) ∧
      ∀ x ∈ P.domain.reals, (x, (some 0, some 1)) ∈ P.domain.varDomains := by
  have hm := freeVars_mem ho (q := q) (s := s) (w := w)
  have hm' : ∀ p, p ∈ freeVars order q s w ↔ p ∈ syms q ++ syms s ++ syms w := fun p => by rw [hm]; simp [or_assoc]
  have hnd : (freeVars order q s w).Nodup := ((ho _).nodup_iff).mpr (List.nodup_dedup _)
  have hk : (((freeVars order q s w).filter fun v => v.2 = .real).map fun v => (v.1, ((some 0, some 1) : Bounds))).map (·.1) =
      ((freeVars order q s w).filter fun v => v.2 = .real).map (·.1) := by simp [Function.comp_def]
  obtain ⟨D, hD, hDi⟩ := make_is (bools := ((freeVars order q s w).filter fun v => v.2 = .bool).map (·.1))
    (N := ((freeVars order q s w).filter fun v => v.2 = .real).map fun v => (v.1, ((some 0, some 1) : Bounds)))
    (by rw [hk]; exact typed_nodup hnd fun x h h' => hc x ((hm' _).mp h) ((hm' _).mp h')) (List.Perm.refl _) (List.Perm.refl _)
  have hB : ∀ x, x ∈ D.bools ↔ (x, Ty.bool) ∈ syms q ++ syms s ++ syms w := fun x => by
    rw [hDi.bools.mem_iff, ← hm']; simp
  have hR : ∀ x, x ∈ D.reals ↔ (x, Ty.real) ∈ syms q ++ syms s ++ syms w := fun x => by
    rw [hDi.reals.mem_iff, ← hm', hk]; simp
  have hcov : ∀ f, (∀ p ∈ syms f, p ∈ syms q ++ syms s ++ syms w) → D.covers f := by
    rintro f hf ⟨x, t⟩ hp
    have := hf _ hp
    cases t with
    | bool => rw [← hB] at this; simpa [Domain.bools] using this
    | real => rw [← hR] at this; simpa [Domain.reals] using this
  have hdom : ∀ p ∈ D.varDomains, p.2 = (some 0, some 1) := by
    intro p hp
    obtain ⟨v, -, rfl⟩ := List.mem_map.mp (hDi.bounds.mem_iff.mp hp)
    rfl
  refine ⟨⟨D, s, w, [q]⟩, by simp only [importGenerateTree, hD], rfl, rfl, rfl, ⟨⟨hDi.wf, ?_⟩, hs, hw, hcov s ?_, hcov w ?_⟩, hcov q ?_, hB, hR, ?_⟩
  · intro v b hb
    exact ⟨0, 1, hdom (v, b) (mem_of_assoc hb), by norm_num⟩
  · intro p hp; simp [hp]
  · intro p hp; simp [hp]
  · intro p hp; simp [hp]
  · intro x hx
    rw [hDi.reals.mem_iff, hk] at hx
    rw [hDi.bounds.mem_iff]
    obtain ⟨v, hv, rfl⟩ := List.mem_map.mp hx
    exact List.mem_map.mpr ⟨v, hv, rfl⟩

/-- **C76** does not hold for the dialect `wmi_generate_100`: every file raises a TypeError. -/
theorem import_100_fails (order : List (String × Ty) → List (String × Ty)) (q s w : Formula) :
    importGenerate100 order q s w = .error .typeError := by
  simp [importGenerate100, Domain.make, Domain.RealArg.iter]


/-! ### Files that carry the numbers of variables in their name -/

theorem splitOn_first {c : Char} {a b : List Char} (h : c ∉ a) : (a ++ c :: b).splitOn c = a :: b.splitOn c :=
  List.splitOnP_append_cons_of_forall_mem (p := fun x => x == c) (by rintro x hx; simp only [beq_eq_false_iff_ne, ne_eq]; rintro rfl; exact h hx) c
    (by simp) b

theorem splitOn_none {c : Char} {a : List Char} (h : c ∉ a) : a.splitOn c = [a] :=
  List.splitOnP_eq_singleton (by rintro x hx; simp only [beq_eq_false_iff_ne, beq_iff_eq]; rintro rfl; exact h hx)

theorem baseName_last {base : List Char} (h : '/' ∉ base) : ∀ (n : ℕ) (d : List Char), d.length ≤ n → baseName (d ++ '/' :: base) = base
  | n, d, hn => by
    by_cases hd : '/' ∈ d
    · obtain ⟨s, t, rfl, hs⟩ := List.eq_append_cons_of_mem hd
      cases n with
      | zero => simp at hn
      | succ n =>
        have ih := baseName_last h n t (by simp at hn; omega)
        rw [baseName, List.append_assoc, List.cons_append, splitOn_first hs]
        rw [baseName] at ih
        cases hsp : (t ++ '/' :: base).splitOn '/' with
        | nil => exact absurd hsp (List.splitOnP_ne_nil _ _)
        | cons x l => rw [hsp] at ih; simpa using ih
    · rw [baseName, splitOn_first hd, splitOn_none h]; rfl

/-- SPEC: the path of a file, in any directory, whose name has three parts at least, separated by underscores; the second and the
third are `n` and `m`. -/
def MspnPath (path n m : List Char) : Prop :=
  ∃ a rest : List Char, '_' ∉ a ∧ '_' ∉ n ∧ '_' ∉ m ∧ (rest = [] ∨ rest.head? = some '_') ∧
    '/' ∉ a ++ '_' :: n ++ '_' :: m ++ rest ∧
    (path = a ++ '_' :: n ++ '_' :: m ++ rest ∨ ∃ dir, path = dir ++ '/' :: (a ++ '_' :: n ++ '_' :: m ++ rest))

theorem mspn_parts {path n m : List Char} (h : MspnPath path n m) :
    ((baseName path).splitOn '_')[1]? = some n ∧ ((baseName path).splitOn '_')[2]? = some m := by
  obtain ⟨a, rest, ha, hn, hm, hr, hs, hp⟩ := h
  have hb : baseName path = a ++ '_' :: n ++ '_' :: m ++ rest := by
    rcases hp with rfl | ⟨dir, rfl⟩
    · rw [baseName, splitOn_none hs]; rfl
    · exact baseName_last hs _ dir le_rfl
  rw [hb]
  have e : a ++ '_' :: n ++ '_' :: m ++ rest = a ++ '_' :: (n ++ '_' :: (m ++ rest)) := by simp
  rw [e, splitOn_first ha, splitOn_first hn]
  rcases hr with rfl | hr
  · rw [List.append_nil, splitOn_none hm]; exact ⟨rfl, rfl⟩
  · cases rest with
    | nil => cases hr
    | cons c rest =>
      simp only [List.head?_cons, Option.some.injEq] at hr
      subst hr
      rw [splitOn_first hm]; exact ⟨rfl, rfl⟩

/-- SPEC: the Booleans and the real variables of such a problem. -/
def mspnBools (b : ℤ) : List String := (List.range b.toNat).map fun i => "A_" ++ Nat.repr i
/-- SPEC: see `mspnBools`. -/
def mspnReals (r : ℤ) : List (String × Bounds) := (List.range r.toNat).map fun i => ("x_" ++ Nat.repr i, (some 0, some 1))

theorem prefix_inj {p : String} {i j : ℕ} (h : p ++ Nat.repr i = p ++ Nat.repr j) : i = j := by
  have := congrArg String.toList h
  simp only [String.toList_append] at this
  exact Nat.repr_injective (String.ext (by simpa using this))

theorem mspnDomain_is (r b : ℤ) : ∃ D, mspnDomain r b = .ok D ∧ DomainIs D (mspnBools b) (mspnReals r) := by
  refine make_is (bools := mspnBools b) (N := mspnReals r) ?_ (List.Perm.refl _) (List.Perm.refl _)
  have h1 : (mspnBools b).Nodup := List.Nodup.map (fun i j h => prefix_inj h) List.nodup_range
  have h2 : ((mspnReals r).map (·.1)).Nodup := by
    simp only [mspnReals, List.map_map, Function.comp_def]
    exact List.Nodup.map (fun i j h => prefix_inj h) List.nodup_range
  refine List.nodup_append.mpr ⟨h1, h2, ?_⟩
  rintro x hx y hy rfl
  obtain ⟨i, -, rfl⟩ := List.mem_map.mp hx
  simp only [mspnReals, List.map_map, Function.comp_def] at hy
  obtain ⟨j, -, h⟩ := List.mem_map.mp hy
  have := congrArg String.toList h
  simp [String.toList_append] at this

theorem mspnCounts_ok {readInt : List Char → Option ℤ} {path n m : List Char} {r b : ℤ} (h : MspnPath path n m) (hr : readInt n = some r)
    (hb : readInt m = some b) : mspnCounts readInt path = .ok (r, b) := by
  obtain ⟨h1, h2⟩ := mspn_parts h
  simp only [mspnCounts, h1, h2, hr, hb]

/-- **C76**: the mspn formats: the second and third part of the file name are the numbers of real and Boolean variables, which are
called `x_i`, in [0, 1], and `A_i`; the formulas are those of the files, true and 1 where there is no file. -/
theorem import_mspn_correct {readInt : List Char → Option ℤ} {path n m : List Char} {r b : ℤ} (h : MspnPath path n m) (hr : readInt n = some r)
    (hb : readInt m = some b) (q w : Option Formula) (s f : Formula) :
    (∃ P, importXaddMspn readInt path (.ok f) = .ok P ∧ DomainIs P.domain (mspnBools b) (mspnReals r) ∧
      P.weight = f ∧ P.support = .boolC true ∧ P.queries = [.boolC true]) ∧
    (∃ P, importWmiMspn readInt path q s w = .ok P ∧ DomainIs P.domain (mspnBools b) (mspnReals r) ∧ P.support = s ∧
      (∀ f, w = some f → P.weight = f) ∧ (w = none → P.weight = .realC 1) ∧ (∀ f, q = some f → P.queries = [f]) ∧
      (q = none → P.queries = [.boolC true])) := by
  obtain ⟨D, hD, hDi⟩ := mspnDomain_is r b
  have hc := mspnCounts_ok h hr hb
  constructor
  · exact ⟨⟨D, .boolC true, f, [.boolC true]⟩, by simp only [importXaddMspn, hc, hD], hDi, rfl, rfl, rfl⟩
  · refine ⟨⟨D, s, w.getD (.realC 1), [q.getD (.boolC true)]⟩, by simp only [importWmiMspn, hc, hD], hDi, rfl, ?_, ?_, ?_, ?_⟩ <;>
      intros <;> simp_all

/-- **C76**: a file name without numbers is refused. -/
theorem import_mspn_refused {readInt : List Char → Option ℤ} {path : List Char} (q w : Option Formula) (s : Formula) (e : Except PyErr Formula) :
    ('_' ∉ baseName path → importXaddMspn readInt path e = .error .indexError ∧ importWmiMspn readInt path q s w = .error .indexError) ∧
    (∀ n m, MspnPath path n m → readInt n = none ∨ readInt m = none →
      importXaddMspn readInt path e = .error .valueError ∧ importWmiMspn readInt path q s w = .error .valueError) := by
  constructor
  · intro h
    have hc : mspnCounts readInt path = .error .indexError := by simp [mspnCounts, splitOn_none h]
    simp only [importXaddMspn, importWmiMspn, hc, and_self]
  · intro n m h hb
    obtain ⟨h1, h2⟩ := mspn_parts h
    have hc : mspnCounts readInt path = .error .valueError := by
      simp only [mspnCounts, h1, h2]
      rcases hb with hb | hb
      · simp only [hb]
      · cases readInt n <;> simp only [hb]
    simp only [importXaddMspn, importWmiMspn, hc, and_self]

/-- **C76**: a synthetic problem: the stored domain, and the stored formula inside its box. -/
theorem import_synthetic_correct {D : Domain} (hD : BoxOk D) {f : Formula} (hf : wt .bool f = true) (hv : D.covers f) :
    ∃ P, importSynthetic D.getState (.ok f) = .ok P ∧ P.domain = D ∧ Problem D P.support P.weight ∧ P.queries = [.boolC true] ∧
      P.weight = .realC 1 ∧ ∀ σ : Env ℝ, truth σ P.support = true ↔ truth σ f = true ∧ D.inBox σ := by
  obtain ⟨b, h1, h2, h3, -⟩ := bounds_ok hD
  refine ⟨⟨D, .and [f, b], .realC 1, [.boolC true]⟩, ?_, rfl, ⟨hD, ?_, by simp [wt], ?_, ?_⟩, rfl, rfl, ?_⟩
  · simp only [importSynthetic, Domain.fromState_getState hD.wf.typesNodup hD.wf.domNodup, h1]
  · simp [wt, wtAll, hf, h2.wt]
  · intro p hp
    simp only [syms, symsList, List.append_nil, List.mem_append] at hp
    rcases hp with hp | hp
    · exact hv p hp
    · exact h2.vars p hp
  · intro p hp; simp [syms] at hp
  · intro σ
    simp only [truth, truthAll, Bool.and_true, Bool.and_eq_true, h3 σ]

/-- SPEC: the names of the dialects; the stored densities have none. -/
def Dialect.name : Dialect → Option String
  | .wrap => none
  | .xaddMspn => some "xadd_mspn"
  | .wmiMspn => some "wmi_mspn"
  | .smtSynthetic => some "smt_synthetic"
  | .generateTree => some "wmi_generate_tree"
  | .generate100 => some "wmi_generate_100"
  | .smt => some "smt"
  | .mzn => some "mzn"

/-- **C76**: each dialect has its reader, and an unknown one is refused. -/
theorem import_dialects (d : Option String) :
    (∀ k, dialectOf d = .ok k ↔ k.name = d) ∧ ((∀ k : Dialect, k.name ≠ d) → dialectOf d = .error .valueError) := by
  have hok : ∀ k : Dialect, dialectOf k.name = .ok k := by intro k; cases k <;> decide +kernel
  have hno : (∀ k : Dialect, k.name ≠ d) → dialectOf d = .error .valueError := by
    intro h
    cases d with
    | none => exact absurd rfl (h .wrap)
    | some d =>
      have key : ∀ k : Dialect, ∀ n, k.name = some n → (d == n) = false := by
        intro k n hk
        rw [beq_eq_false_iff_ne]
        rintro rfl
        exact h k hk
      simp only [dialectOf, List.lookup, key .xaddMspn _ rfl, key .wmiMspn _ rfl, key .smtSynthetic _ rfl, key .generateTree _ rfl,
        key .generate100 _ rfl, key .smt _ rfl, key .mzn _ rfl]
  refine ⟨fun k => ⟨fun h => ?_, fun h => h ▸ hok k⟩, hno⟩
  by_cases hd : ∃ k : Dialect, k.name = d
  · obtain ⟨k', rfl⟩ := hd
    rw [hok, Except.ok.injEq] at h
    rw [h]
  · rw [hno fun k hk => hd ⟨k, hk⟩] at h
    cases h

/-! ### Examples and findings -/

/-- `(declare-const i Int) (assert (< 0 i)) (assert (< i 1))`: there is no such integer. -/
def noInteger : List SCmd :=
  [declI, .assert (.app (.name "<") [.numeral 0, .ident (.name "i")]), .assert (.app (.name "<") [.ident (.name "i"), .numeral 1])]

/-- **C76**: integers become real variables: a file without solutions, because no integer lies between 0 and 1, becomes a problem
whose support holds at 1/2. -/
theorem import_int_real : ∃ P, importSmt id id id noInteger = .ok P ∧ P.domain.reals = ["i"] ∧
    Pt.den (K := ℚ) ⟨fun _ => false, fun _ => 1 / 2⟩ P.support = .b true ∧
    ∀ (β : String → Bool) (z : String → ℤ), Pt.den (K := ℚ) ⟨β, fun x => z x⟩ P.support ≠ .b true := by
  refine ⟨_, rfl, rfl, ?_, fun β z => ?_⟩
  · change Pt.den (K := ℚ) ⟨fun _ => false, fun _ => 1 / 2⟩ (.and [.lt (.intC 0) (.sym "i" .int), .lt (.sym "i" .int) (.intC 1)]) = .b true
    simp only [Pt.den, Pt.dens, PVal.toN, List.all_cons, List.all_nil, PVal.toB]
    norm_num
  have : Pt.den (K := ℚ) ⟨β, fun x => z x⟩ (.and [.lt (.intC 0) (.sym "i" .int), .lt (.sym "i" .int) (.intC 1)]) ≠ .b true := by
    simp only [Pt.den, Pt.dens, PVal.toN, List.all_cons, List.all_nil, PVal.toB]
    intro h
    simp only [Bool.and_true, PVal.b.injEq, Bool.and_eq_true, decide_eq_true_eq] at h
    have h1 : (0 : ℤ) < z "i" := by exact_mod_cast of_decide_eq_true h.1
    have h2 : z "i" < 1 := by exact_mod_cast of_decide_eq_true h.2
    omega
  exact this

/-- A script that can be read: the theorem gives its problem. -/
example : ∃ P, importSmt id List.reverse List.reverse exampleScript = .ok P ∧ DomainIs P.domain ["a"] [("x", (none, none))] := by
  obtain ⟨R, hR, -⟩ := smtlib_correct keepsMeaning_id (A := []) (X := []) exampleScript_ok
  obtain ⟨P, h1, h2, -⟩ := import_smt_correct keepsMeaning_id (setA := List.reverse) (setX := List.reverse) List.reverse_perm List.reverse_perm
    (arity_of_script _ _ _ exampleScript_ok) hR
  exact ⟨P, h1, h2⟩

/-- `var 0..5: n; var bool: b; constraint b -> n <= 3;` can be read. -/
example : ∃ R, parseMzn id [] [] none [.decl true (.range (.intL 0) (.intL 5)) "n" false none, .decl true .bool "b" false none,
    .constr (.bin .impl (.ident "b") (.bin .le (.ident "n") (.intL 3)))] = .ok R ∧ R.bools = ["b"] := ⟨_, rfl, rfl⟩

/-- Three formulas over a Boolean and a real. -/
example : ∃ P, importGenerateTree List.reverse (.sym "a" .bool) (.le (.sym "x" .real) (.realC 1)) (.sym "x" .real) = .ok P ∧
    Problem P.domain (.le (.sym "x" .real) (.realC 1)) (.sym "x" .real) ∧ ("x", (some 0, some 1)) ∈ P.domain.varDomains := by
  obtain ⟨P, h1, -, -, -, h5, -, -, h8, h9⟩ := import_tree_correct (order := List.reverse) List.reverse_perm (q := .sym "a" .bool)
    (s := .le (.sym "x" .real) (.realC 1)) (w := .sym "x" .real) (by decide +kernel) (by decide +kernel)
    (by simp [syms, symsList])
  exact ⟨P, h1, h5, h9 "x" ((h8 "x").mpr (by simp [syms]))⟩

/-- A path with two numbers. -/
example : MspnPath "data/exp_2_3_0.txt".toList ['2'] ['3'] :=
  ⟨"exp".toList, "_0.txt".toList, by decide +kernel, by decide +kernel, by decide +kernel, .inr (by decide +kernel), by decide +kernel,
    .inr ⟨"data".toList, by decide +kernel⟩⟩

end Pywmi
