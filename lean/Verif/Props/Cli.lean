import Verif.Cli.Options
import Verif.Props.Domain

set_option linter.unusedSectionVars false
set_option linter.unusedSimpArgs false

/-!
# C54: engine descriptions
-/

namespace Pywmi

theorem lookup_dictSet {β : Type} (d : List (String × β)) (k : String) (v : β) (n : String) :
    (dictSet d k v).lookup n = if n = k then some v else d.lookup n := by
  induction d with
  | nil =>
    by_cases h : n = k
    · simp [dictSet, List.lookup_cons, h]
    · simp [dictSet, List.lookup_cons, h, beq_eq_false_iff_ne.mpr h]
  | cons p d ih =>
    obtain ⟨k', w⟩ := p
    by_cases hk : k' = k
    · subst hk
      by_cases h : n = k'
      · simp [dictSet, List.lookup_cons, h]
      · simp [dictSet, List.lookup_cons, h, beq_eq_false_iff_ne.mpr h]
    · simp only [dictSet, if_neg hk, List.lookup_cons, ih]
      by_cases h : n = k'
      · subst h; simp [hk]
      · simp [beq_eq_false_iff_ne.mpr h]

theorem keys_dictSet {β : Type} (d : List (String × β)) (k : String) (v : β) (n : String) :
    n ∈ (dictSet d k v).map (·.1) ↔ n = k ∨ n ∈ d.map (·.1) := by
  induction d with
  | nil => simp [dictSet]
  | cons p d ih =>
    obtain ⟨k', w⟩ := p
    by_cases hk : k' = k
    · subst hk; simp [dictSet]
    · simp only [dictSet, if_neg hk, List.map_cons, List.mem_cons, ih]
      tauto

/-- SPEC: a setting that a user can ask for. -/
inductive Setting where
  | timeout (i : ℤ) | seed (i : ℤ) | count (i : ℤ) | mode (s : List Char) | backend (s : List Char)
  | balance (s : List Char) | fact (b : Bool) | prune | order | cache

namespace Setting

/-- SPEC: the engine parameter of a setting. -/
def key : Setting → String
  | timeout _ => "timeout" | seed _ => "seed" | count _ => "sample_count" | mode _ => "mode" | backend _ => "backend"
  | balance _ => "balance" | fact _ => "factorized" | prune => "find_conflicts" | order => "ordered" | cache => "cache"

/-- SPEC: the value of a setting. -/
def val : Setting → OptVal
  | timeout i => .int i | seed i => .int i | count i => .int i | mode s => .str s | backend s => .str s
  | balance s => .str s | fact b => .flag b | prune => .flag true | order => .flag true | cache => .flag true

/-- SPEC: how a setting is written. -/
def Text (readInt : List Char → Option ℤ) : Setting → List Char → Prop
  | timeout i, t => ∃ ds, t = 't' :: ds ∧ readInt ds = some i
  | seed i, t => ∃ ds, t = 's' :: ds ∧ readInt ds = some i
  | count i, t => ∃ ds, t = 'n' :: ds ∧ readInt ds = some i
  | mode s, t => t = 'm' :: s
  | backend s, t => t = 'b' :: s
  | balance s, t => t = 'v' :: s
  | fact b, t => t = if b then "factorized".toList else "unfactorized".toList
  | prune, t => t = "prune".toList
  | order, t => t = "order".toList
  | cache, t => t = "cache".toList

/-- SPEC: the last setting for a parameter counts. -/
def final (ss : List Setting) (n : String) : Option OptVal := (ss.reverse.find? fun s => s.key = n).map val

theorem final_append (ss : List Setting) (s : Setting) (n : String) :
    final (ss ++ [s]) n = if n = s.key then some s.val else final ss n := by
  by_cases h : n = s.key
  · simp [final, h]
  · have : ¬ s.key = n := fun e => h e.symm
    simp [final, this, h]

end Setting

/-- SPEC: the settings that an engine knows. -/
def EngineKind.documented : EngineKind → Setting → Bool
  | .pa, .timeout _ => true
  | .mpwmi, .cache => true
  | .rej, .count _ => true | .rej, .seed _ => true
  | .adapt, .count _ => true | .adapt, .seed _ => true
  | .xadd, .mode _ => true | .xadd, .timeout _ => true
  | .xsdd, .backend _ => true | .xsdd, .balance _ => true | .xsdd, .fact _ => true | .xsdd, .prune => true
  | .xsdd, .order => true
  | _, _ => false

theorem decode_documented {readInt : List Char → Option ℤ} {k : EngineKind} {s : Setting} (hd : k.documented s = true)
    {t : List Char} (ht : s.Text readInt t) :
    decodeOption readInt k.whitelist t = .ok (some (s.key, s.val), []) ∧ s.key ∈ k.whitelist := by
  cases k <;> cases s <;> first | (exact absurd hd Bool.false_ne_true) | skip
  case pa.timeout i => obtain ⟨ds, rfl, h⟩ := ht; simp [decodeOption, startsWith, intOpt, h, Setting.key, Setting.val, EngineKind.whitelist]
  case mpwmi.cache => cases ht; exact ⟨rfl, by decide⟩
  case rej.seed i => obtain ⟨ds, rfl, h⟩ := ht; simp [decodeOption, startsWith, intOpt, h, Setting.key, Setting.val, EngineKind.whitelist]
  case rej.count i => obtain ⟨ds, rfl, h⟩ := ht; simp [decodeOption, startsWith, intOpt, h, Setting.key, Setting.val, EngineKind.whitelist]
  case adapt.seed i => obtain ⟨ds, rfl, h⟩ := ht; simp [decodeOption, startsWith, intOpt, h, Setting.key, Setting.val, EngineKind.whitelist]
  case adapt.count i => obtain ⟨ds, rfl, h⟩ := ht; simp [decodeOption, startsWith, intOpt, h, Setting.key, Setting.val, EngineKind.whitelist]
  case xadd.timeout i => obtain ⟨ds, rfl, h⟩ := ht; simp [decodeOption, startsWith, intOpt, h, Setting.key, Setting.val, EngineKind.whitelist]
  case xadd.mode s => cases ht; simp [decodeOption, startsWith, Setting.key, Setting.val, EngineKind.whitelist]
  case xsdd.backend s => cases ht; simp [decodeOption, startsWith, Setting.key, Setting.val, EngineKind.whitelist]
  case xsdd.balance s => cases ht; simp [decodeOption, startsWith, Setting.key, Setting.val, EngineKind.whitelist]
  case xsdd.fact b => cases ht; cases b <;> exact ⟨rfl, by decide⟩
  case xsdd.prune => cases ht; exact ⟨rfl, by decide⟩
  case xsdd.order => cases ht; exact ⟨rfl, by decide⟩

theorem parseLoop_documented {readInt : List Char → Option ℤ} {k : EngineKind} {ss : List Setting}
    {ts : List (List Char)} (hd : ∀ s ∈ ss, k.documented s = true) (ht : List.Forall₂ (Setting.Text readInt) ss ts) :
    ∀ (pre : List Setting) (o : Opts), (∀ n, o.lookup n = Setting.final pre n) →
      (∀ n, n ∈ o.map (·.1) ↔ n ∈ pre.map Setting.key) →
      ∃ o', parseLoop readInt k.whitelist ts o = .ok o' ∧ (∀ n, o'.lookup n = Setting.final (pre ++ ss) n) ∧
        ∀ n, n ∈ o'.map (·.1) ↔ n ∈ (pre ++ ss).map Setting.key := by
  induction ht with
  | nil => intro pre o h h2; exact ⟨o, rfl, by simpa using h, by simpa using h2⟩
  | @cons s t ss ts h1 _ ih =>
    intro pre o h h2
    obtain ⟨e1, e2⟩ := decode_documented (hd s (by simp)) h1
    obtain ⟨o', p1, p2, p3⟩ := ih (fun x hx => hd x (by simp [hx])) (pre ++ [s]) (dictSet o s.key s.val) (fun n => by
      rw [lookup_dictSet, Setting.final_append, h]) (fun n => by
      rw [keys_dictSet, h2, List.map_append, List.mem_append, List.map_singleton, List.mem_singleton, or_comm])
    refine ⟨o', ?_, by simpa using p2, by simpa using p3⟩
    rw [parseLoop, e1]
    simpa [dictUpdate, e2] using p1

/-- **C54** (partial: `min` for XSDD and `r…` for PyXADD are not among the documented settings here, because they have
no effect; see `min_ignored`, `reduce_ignored`): every documented option sets exactly its parameter, whatever the other
options and their order; the last one counts. -/
theorem parseOptions_documented_partial {readInt : List Char → Option ℤ} {k : EngineKind} {ss : List Setting}
    {ts : List (List Char)} (hd : ∀ s ∈ ss, k.documented s = true) (ht : List.Forall₂ (Setting.Text readInt) ss ts) :
    ∃ o, parseOptions readInt ts k.whitelist = .ok o ∧ (∀ n, o.lookup n = Setting.final ss n) ∧
      ∀ n, n ∈ o.map (·.1) ↔ n ∈ ss.map Setting.key :=
  parseLoop_documented hd ht [] [] (by simp [Setting.final]) (by simp)

/-- The order of options for different parameters does not matter. -/
theorem parseOptions_order {readInt : List Char → Option ℤ} {k : EngineKind} {ss ss' : List Setting}
    {ts ts' : List (List Char)} (hd : ∀ s ∈ ss, k.documented s = true) (ht : List.Forall₂ (Setting.Text readInt) ss ts)
    (ht' : List.Forall₂ (Setting.Text readInt) ss' ts') (hp : ss.Perm ss') (hn : (ss.map Setting.key).Nodup) :
    ∃ o o', parseOptions readInt ts k.whitelist = .ok o ∧ parseOptions readInt ts' k.whitelist = .ok o' ∧
      ∀ n, o.lookup n = o'.lookup n := by
  obtain ⟨o, h1, h2, -⟩ := parseOptions_documented_partial hd ht
  obtain ⟨o', h1', h2', -⟩ := parseOptions_documented_partial (fun s hs => hd s (hp.mem_iff.mpr hs)) ht'
  refine ⟨o, o', h1, h1', fun n => ?_⟩
  rw [h2, h2']
  have key : ∀ (l : List Setting), (l.map Setting.key).Nodup → ∀ s ∈ l, s.key = n → Setting.final l n = some s.val := by
    intro l hl s hs he
    simp only [Setting.final, Option.map_eq_some_iff]
    refine ⟨s, ?_, rfl⟩
    have hl' : (l.reverse.map Setting.key).Nodup := by rw [List.map_reverse]; exact List.nodup_reverse.mpr hl
    have hs' : s ∈ l.reverse := List.mem_reverse.mpr hs
    generalize l.reverse = r at hl' hs'
    induction r with
    | nil => cases hs'
    | cons a r ih =>
      simp only [List.map_cons, List.nodup_cons] at hl'
      rcases List.mem_cons.mp hs' with h | h
      · subst h; simp [he]
      · have : ¬ a.key = n := fun h' => hl'.1 (List.mem_map.mpr ⟨s, h, by rw [he, h']⟩)
        simp [this, ih hl'.2 h]
  by_cases hex : ∃ s ∈ ss, s.key = n
  · obtain ⟨s, hs, he⟩ := hex
    rw [key ss hn s hs he, key ss' ((hp.map _).nodup_iff.mp hn) s (hp.mem_iff.mp hs) he]
  · push Not at hex
    have h0 : ∀ l : List Setting, (∀ s ∈ l, s.key ≠ n) → Setting.final l n = none := by
      intro l hl
      simpa [Setting.final] using hl
    rw [h0 ss hex, h0 ss' fun s hs => hex s (hp.mem_iff.mpr hs)]

theorem parseLoop_append (readInt : List Char → Option ℤ) (W : List String) (as bs : List (List Char)) (o : Opts) :
    parseLoop readInt W (as ++ bs) o =
      match parseLoop readInt W as o with | .error e => .error e | .ok o' => parseLoop readInt W bs o' := by
  induction as generalizing o with
  | nil => rfl
  | cons a as ih =>
    simp only [List.cons_append, parseLoop]
    cases decodeOption readInt W a with
    | error e => rfl
    | ok r =>
      obtain ⟨nv, extra⟩ := r
      cases nv with
      | none => exact ih _
      | some p => obtain ⟨n, v⟩ := p; exact ih _

/-- The option `min` never has an effect: it is read as the mode `in`. -/
theorem min_ignored (readInt : List Char → Option ℤ) (as bs : List (List Char)) :
    parseOptions readInt (as ++ "min".toList :: bs) EngineKind.xsdd.whitelist =
      parseOptions readInt (as ++ bs) EngineKind.xsdd.whitelist := by
  have h : decodeOption readInt EngineKind.xsdd.whitelist "min".toList = .ok (some ("mode", .str "in".toList), []) := rfl
  rw [parseOptions, parseOptions, parseLoop_append, parseLoop_append]
  cases parseLoop readInt EngineKind.xsdd.whitelist as [] with
  | error e => rfl
  | ok o =>
    simp only [parseLoop, h]
    rfl

/-- No reduction strategy can be set for PyXADD: the parameter has another name than the whitelisted one. -/
theorem reduce_ignored (readInt : List Char → Option ℤ) (as bs : List (List Char)) (s : List Char) :
    parseOptions readInt (as ++ ('r' :: s) :: bs) EngineKind.pyxadd.whitelist =
      parseOptions readInt (as ++ bs) EngineKind.pyxadd.whitelist := by
  have h : decodeOption readInt EngineKind.pyxadd.whitelist ('r' :: s) = .ok (none, []) ∨
      ∃ v, decodeOption readInt EngineKind.pyxadd.whitelist ('r' :: s) = .ok (some ("reduce_strategy", v), []) := by
    simp only [decodeOption, startsWith, List.isPrefixOf, EngineKind.whitelist]
    simp only [show ('t' == 'r') = false from rfl, show ('s' == 'r') = false from rfl, show ('n' == 'r') = false from rfl,
      show ('m' == 'r') = false from rfl, show ('r' == 'r') = true from rfl]
    simp only [Bool.false_and, Bool.false_eq_true, if_false, false_and, List.isPrefixOf, Bool.and_self, List.mem_singleton,
      and_self, if_true, List.drop_succ_cons, List.drop_zero]
    by_cases h1 : s = "init_only".toList
    · exact .inr ⟨_, by rw [if_pos h1]⟩
    · by_cases h2 : s = "full".toList
      · exact .inr ⟨_, by rw [if_neg h1, if_pos h2]⟩
      · by_cases h3 : s = "none".toList
        · exact .inr ⟨_, by rw [if_neg h1, if_neg h2, if_pos h3]⟩
        · exact .inl (by rw [if_neg h1, if_neg h2, if_neg h3])
  rw [parseOptions, parseOptions, parseLoop_append, parseLoop_append]
  cases parseLoop readInt EngineKind.pyxadd.whitelist as [] with
  | error e => rfl
  | ok o =>
    rcases h with h | ⟨v, h⟩ <;> simp only [parseLoop, h] <;> rfl

/-! ### Engines -/

/-- SPEC: the documented settings that the constructor of the engine knows. -/
def EngineKind.usable (k : EngineKind) (s : Setting) : Bool :=
  k.documented s && match s with | .backend _ => false | .balance _ => false | .fact _ => false | _ => true

theorem usable_param {k : EngineKind} {s : Setting} (h : k.usable s = true) : s.key ∈ k.params := by
  cases k <;> cases s <;> first | (exact absurd h Bool.false_ne_true) | (simp [EngineKind.params, Setting.key])

theorem kindOf_name {s : List Char} {k : EngineKind} (h : s.map Char.toLower = k.name.toList) : kindOf s = some k := by
  simp only [kindOf, h]
  cases k <;> rfl

/-- **C54**: a description made of an engine name, in any case, and usable settings gives that engine with exactly
these settings; a sample count must be among them where the engine needs one. -/
theorem getEngine_correct {readInt : List Char → Option ℤ} {k : EngineKind} {name : List Char} {ss : List Setting}
    {ts : List (List Char)} (hname : name.map Char.toLower = k.name.toList) (hu : ∀ s ∈ ss, k.usable s = true)
    (ht : List.Forall₂ (Setting.Text readInt) ss ts) (hc : ∀ t ∈ name :: ts, ':' ∉ t) :
    let desc := [':'].intercalate (name :: ts)
    ((∀ n ∈ k.required, n ∈ ss.map Setting.key) →
      ∃ o, getEngine readInt desc = .ok (some ⟨k, o, none⟩) ∧ ∀ n, o.lookup n = Setting.final ss n) ∧
    ((∃ n ∈ k.required, n ∉ ss.map Setting.key) → getEngine readInt desc = .error .typeError) := by
  intro desc
  have hsplit : desc.splitOn ':' = name :: ts := List.splitOn_intercalate _ hc (by simp)
  have hd : ∀ s ∈ ss, k.documented s = true := fun s hs => by
    have := hu s hs; simp only [EngineKind.usable, Bool.and_eq_true] at this; exact this.1
  obtain ⟨o, h1, h2, h3⟩ := parseOptions_documented_partial hd ht
  have hk := kindOf_name hname
  have hpar : ∀ p ∈ o, p.1 ∈ k.params := fun p hp => by
    obtain ⟨s, hs, he⟩ := List.mem_map.mp ((h3 p.1).mp (List.mem_map.mpr ⟨p, hp, rfl⟩))
    rw [← he]; exact usable_param (hu s hs)
  have hreq : (∀ n ∈ k.required, n ∈ o.map (·.1)) ↔ ∀ n ∈ k.required, n ∈ ss.map Setting.key :=
    forall₂_congr fun n _ => h3 n
  have hcons : construct k o none =
      if ∀ n ∈ k.required, n ∈ ss.map Setting.key then .ok ⟨k, o, none⟩ else .error .typeError := by
    unfold construct
    by_cases hr : ∀ n ∈ k.required, n ∈ ss.map Setting.key
    · rw [if_pos ⟨hpar, hreq.mpr hr⟩, if_pos hr]
    · rw [if_neg (fun h => hr (hreq.mp h.2)), if_neg hr]
  have hge : getEngine readInt desc = (construct k o none).map some := by
    simp only [getEngine, hsplit, List.headD_cons, hk, List.tail_cons]
    have hb : k = .xsdd → o.lookup "backend" = none ∧ (o.filter fun p => p.1 ≠ "backend") = o := by
      intro hx
      have hnb : ∀ p ∈ o, p.1 ≠ "backend" := fun p hp e => by
        have := hpar p hp; rw [e, hx] at this; simp [EngineKind.params] at this
      refine ⟨lookup_none_of_key fun hm => ?_, List.filter_eq_self.mpr fun p hp => by simpa using hnb p hp⟩
      obtain ⟨p, hp, e⟩ := List.mem_map.mp hm
      exact hnb p hp e
    have hp : k = .praise → o = [] := by
      intro hx
      rw [List.eq_nil_iff_forall_not_mem]
      intro p hp
      have := hpar p hp; rw [hx] at this; simp [EngineKind.params] at this
    cases k with
    | xsdd => obtain ⟨b1, b2⟩ := hb rfl; simp only [h1, b1, b2]
    | praise => rw [hp rfl]
    | _ => simp only [h1]
  rw [hge, hcons]
  constructor
  · intro hr; rw [if_pos hr]; exact ⟨o, rfl, h2⟩
  · rintro ⟨n, hn, hn'⟩
    rw [if_neg (fun h => hn' (h n hn))]
    rfl

/-- SPEC: the algebra named after the point. -/
def algebraNamed : List (List Char) → Except PyErr Opts
  | [] => .error .valueError
  | a :: more =>
    if a = "psi".toList then .ok [("algebra", .algebra "psi" none)]
    else if a = "pyxadd".toList then
      .ok [("algebra", .algebra "pyxadd" (if more.head? = some "int_init_only".toList then some "only_init" else none))]
    else .error .valueError

/-- **C54**: `factorized` and `unfactorized` set the flag; a name after a point sets the algebra, and an unknown name is refused. -/
theorem factorized_algebra (readInt : List Char → Option ℤ) {W : List String} (hW : "factorized" ∈ W) (b : Bool) :
    decodeOption readInt W (if b then "factorized" else "unfactorized").toList = .ok (some ("factorized", .flag b), []) ∧
    ∀ rest : List Char, decodeOption readInt W ((if b then "factorized" else "unfactorized").toList ++ '.' :: rest) =
      match algebraNamed (rest.splitOn '.') with
      | .ok o => .ok (some ("factorized", .flag b), o)
      | .error e => .error e := by
  have key : ∀ t, decodeOption readInt W ((if b then "factorized" else "unfactorized").toList ++ t) =
      factorizedOpt W ((if b then "factorized" else "unfactorized").toList ++ t) := by
    intro t
    cases b <;> simp [decodeOption, startsWith]
  have hs : ∀ t, startsWith ((if b then "factorized" else "unfactorized").toList ++ t) "factorized".toList = b := by
    intro t
    cases b
    · rfl
    · simp [startsWith]
  constructor
  · have h : ∀ c : Bool, (if c then "factorized" else "unfactorized").toList.splitOn '.' =
        [(if c then "factorized" else "unfactorized").toList] := by decide
    have k := key []
    have hs := hs []
    rw [List.append_nil] at k hs
    rw [k]
    simp only [factorizedOpt, h b, hs, List.length_singleton, lt_self_iff_false, and_false, if_false]
  · intro rest
    have hd : '.' ∉ (if b then "factorized" else "unfactorized").toList := by cases b <;> decide
    have h : ((if b then "factorized" else "unfactorized").toList ++ '.' :: rest).splitOn '.' =
        (if b then "factorized" else "unfactorized").toList :: rest.splitOn '.' :=
      List.splitOnP_append_cons_of_forall_mem (p := fun x => x == '.')
        (by rintro x hx; simp only [beq_eq_false_iff_ne, ne_eq]; rintro rfl; exact hd hx) '.' (by simp) _
    have hf : factorizedOpt W ((if b then "factorized" else "unfactorized").toList ++ '.' :: rest) =
        match algebraNamed (rest.splitOn '.') with
        | .ok o => .ok (some ("factorized", .flag b), o)
        | .error e => .error e := by
      simp only [factorizedOpt, h, hs]
      cases hr : rest.splitOn '.' with
      | nil => exact absurd hr (List.splitOnP_ne_nil _ _)
      | cons a more =>
        simp only [hW, List.length_cons, true_and, show 1 < more.length + 1 + 1 by omega, if_true, List.getElem?_cons_succ,
          List.getElem?_cons_zero, Option.some.injEq, algebraNamed, List.head?_eq_getElem?]
        split
        · rfl
        · split <;> rfl
    rw [← hf, key]

/-- The settings `v…` and `factorized` of XSDD are accepted by the parser, but no engine can be built with them. -/
theorem xsdd_factorized_fails (readInt : List Char → Option ℤ) :
    getEngine readInt "xsdd:factorized".toList = .error .typeError ∧
    getEngine readInt "xsdd:vbalanced".toList = .error .typeError := by
  constructor <;> rfl

/-- Backends of XSDD. -/
theorem parseBackend_rej {readInt : List Char → Option ℤ} {t : List Char} {n : ℤ} (ht : readInt t = some n) (hd : '.' ∉ t) :
    parseBackend readInt ("rej.".toList ++ t) = .ok (.rej n 0 none) := by
  have h : ("rej.".toList ++ t).splitOn '.' = ["rej".toList, t] := by
    have := List.splitOn_intercalate (ls := ["rej".toList, t]) '.' (by simpa using hd) (by simp)
    simpa [List.intercalate] using this
  simp only [parseBackend, h]
  simp [ht]

/-! ### Falling back to later engines -/

/-- **C54**: the answer is that of the first engine which gives one or raises; engines before it gave none. -/
theorem getVolume_first {V : Type} (es : List (Except PyErr (Option V))) :
    (∃ pre r post, es = pre ++ r :: post ∧ (∀ e ∈ pre, e = .ok none) ∧ r ≠ .ok none ∧
      getVolume es = (r, pre.length + 1)) ∨
    ((∀ e ∈ es, e = .ok none) ∧ getVolume es = (.ok none, es.length)) := by
  induction es with
  | nil => exact .inr ⟨by simp, rfl⟩
  | cons e es ih =>
    match e with
    | .error e => exact .inl ⟨[], .error e, es, rfl, by simp, by simp, rfl⟩
    | .ok (some v) => exact .inl ⟨[], .ok (some v), es, rfl, by simp, by simp, rfl⟩
    | .ok none =>
      rcases ih with ⟨pre, r, post, h1, h2, h3, h4⟩ | ⟨h1, h2⟩
      · refine .inl ⟨.ok none :: pre, r, post, by rw [h1]; rfl, ?_, h3, by simp [getVolume, h4]⟩
        intro e he
        rcases List.mem_cons.mp he with rfl | he
        · rfl
        · exact h2 e he
      · refine .inr ⟨?_, by simp [getVolume, h2]⟩
        intro e he
        rcases List.mem_cons.mp he with rfl | he
        · rfl
        · exact h1 e he

/-! ### The hypotheses are met -/

/-- A small `int`. -/
def smallInt (s : List Char) : Option ℤ := if s = "1000".toList then some 1000 else if s = "7".toList then some 7 else none

example : getEngine smallInt "REJ:n1000:s7".toList =
    .ok (some ⟨.rej, [("sample_count", .int 1000), ("seed", .int 7)], none⟩) := by decide +kernel
example : ∃ o, getEngine smallInt ([':'].intercalate ["rej".toList, "s7".toList, "n1000".toList]) = .ok (some ⟨.rej, o, none⟩) ∧
    ∀ n, o.lookup n = Setting.final [.seed 7, .count 1000] n :=
  (getEngine_correct (k := .rej) (ss := [.seed 7, .count 1000]) (by decide) (by simp [EngineKind.usable, EngineKind.documented])
    (.cons ⟨['7'], rfl, rfl⟩ (.cons ⟨"1000".toList, rfl, rfl⟩ .nil)) (by decide)).1 (by decide)
example : getEngine smallInt "rej:s7".toList = .error .typeError := by decide +kernel
example : getEngine smallInt "xsdd:brej.1000:order".toList =
    .ok (some ⟨.xsdd, [("ordered", .flag true)], some (.rej 1000 0 none)⟩) := by decide +kernel
example : getVolume [.ok none, .ok (some 3), .error .other] = (.ok (some 3), 2) := rfl

end Pywmi
