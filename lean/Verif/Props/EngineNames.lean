import Verif.Engine.Names
import Verif.Props.Cli
import Verif.Props.LatteText

set_option linter.unusedSectionVars false
set_option linter.unusedSimpArgs false

/-!
# C92: the names of engines as descriptions of engines
-/

namespace Pywmi
open Latte

/-! ### Specification -/

/-- SPEC: the settings without those that names leave out: the directory for temporary files and the seed. -/
def Settings.shown : Settings → Settings
  | .pa _ t => .pa none t
  | .rej n _ => .rej n none
  | s => s

/-- SPEC: the settings whose name is a description: all of the classes for predicate abstraction, rejection and praise, mpwmi without
a cache, and xadd with a mode that has no colon. -/
def Settings.described : Settings → Prop
  | .pa _ _ => True
  | .mpwmi c => c = false
  | .rej _ _ => True
  | .xadd (some m) _ => ':' ∉ m.toList
  | .praise => True
  | _ => False

/-- SPEC: reading of integers undoes printing. -/
def ReadsInts (readInt : List Char → Option ℤ) : Prop := ∀ i, readInt (intText i) = some i

/-! ### Lemmas -/

theorem colon_intText (z : ℤ) : ':' ∉ intText z := by
  intro h
  rcases intText_chars z _ h with h | h
  · exact absurd h (by decide)
  · revert h; decide

theorem getEngine_of {readInt : List Char → Option ℤ} {k : EngineKind} {ss : List Setting} {ts : List (List Char)} {desc : List Char}
    (hd : desc = [':'].intercalate (k.name.toList :: ts)) (hu : ∀ s ∈ ss, k.usable s = true)
    (ht : List.Forall₂ (Setting.Text readInt) ss ts) (hc : ∀ t ∈ ts, ':' ∉ t) (hr : ∀ n ∈ k.required, n ∈ ss.map Setting.key) :
    ∃ o, getEngine readInt desc = .ok (some ⟨k, o, none⟩) ∧ ∀ n, o.lookup n = Setting.final ss n := by
  subst hd
  refine (getEngine_correct (k := k) (name := k.name.toList) ?_ hu ht ?_).1 hr
  · cases k <;> decide
  · intro t h
    rcases List.mem_cons.mp h with rfl | h
    · cases k <;> decide
    · exact hc t h

theorem name_two {d a b : List Char} (h : d = a ++ ':' :: b) : d = [':'].intercalate [a, b] := by
  rw [h]; simp [List.intercalate]

theorem name_three {d a b c : List Char} (h : d = a ++ ':' :: b ++ ':' :: c) : d = [':'].intercalate [a, b, c] := by
  rw [h]; simp [List.intercalate]

theorem colon_cons {c : Char} {t : List Char} (hc : c ≠ ':') (h : ':' ∉ t) : ':' ∉ c :: t := by
  intro hm
  rcases List.mem_cons.mp hm with e | hm
  · exact hc e.symm
  · exact h hm

theorem lit_xadd : "xadd:m".toList = "xadd".toList ++ ':' :: ['m'] := by decide
theorem lit_t : ":t".toList = ':' :: ['t'] := by decide
theorem lit_adapt : "adapt:n".toList = "adapt".toList ++ ':' :: ['n'] := by decide
theorem lit_b : ":b".toList = ':' :: ['b'] := by decide
theorem lit_xsdd : "XSDD:BE=".toList = "XSDD".toList ++ ':' :: "BE=".toList := by decide

theorem glue_one {l a m : List Char} {x : Char} (h : l = a ++ ':' :: [x]) : l ++ m ++ [] = a ++ ':' :: (x :: m) := by simp [h]
theorem glue_two {l l' a m n : List Char} {x y : Char} (h : l = a ++ ':' :: [x]) (h' : l' = ':' :: [y]) :
    l ++ m ++ (l' ++ n) = a ++ ':' :: (x :: m) ++ ':' :: (y :: n) := by simp [h, h']
theorem glue_three {l a b m n : List Char} (h : l = a ++ ':' :: b) : l ++ m ++ n = a ++ ':' :: (b ++ (m ++ n)) := by simp [h]

/-! ### C92 -/

/-- C92: the name of an engine, read as a description, constructs an engine of the same class with the same settings, apart from the
directory and the seed, which names leave out. Missing: adaptive rejection, mpwmi with a cache, xadd without a mode, XSDD, factorized XSDD,
pyxadd (the theorems below). -/
theorem names_describe_partial {readInt : List Char → Option ℤ} (hr : ReadsInts readInt) (A : Around) (T : ObjTexts) {s : Settings}
    (hs : s.described) : ∃ e a, getEngine readInt (engineName T s) = .ok (some e) ∧ e.args = some a ∧ settingsOf A a = s.shown := by
  cases s with
  | pa d t =>
    cases t with
    | none =>
      obtain ⟨o, h1, h2⟩ := getEngine_of (readInt := readInt) (k := .pa) (ss := []) (ts := []) (desc := engineName T (.pa d none)) rfl (by simp) .nil (by simp) (by simp [EngineKind.required])
      exact ⟨_, _, h1, rfl, by simp [settingsOf, Settings.shown, h2, Setting.final]⟩
    | some t =>
      obtain ⟨o, h1, h2⟩ := getEngine_of (readInt := readInt) (k := .pa) (ss := [.timeout t]) (ts := ['t' :: intText t]) (desc := engineName T (.pa d (some t))) (name_two rfl)
        (by simp [EngineKind.usable, EngineKind.documented]) (.cons ⟨_, rfl, hr t⟩ .nil) (by simpa using colon_intText t) (by simp [EngineKind.required])
      exact ⟨_, _, h1, rfl, by simp [settingsOf, Settings.shown, h2, Setting.final, Setting.key, Setting.val, OptVal.int?]⟩
  | mpwmi c =>
    cases (show c = false from hs)
    obtain ⟨o, h1, h2⟩ := getEngine_of (readInt := readInt) (k := .mpwmi) (ss := []) (ts := []) (desc := engineName T (.mpwmi false)) rfl (by simp) .nil (by simp) (by simp [EngineKind.required])
    exact ⟨_, _, h1, rfl, by simp [settingsOf, Settings.shown, h2, Setting.final]⟩
  | rej n sd =>
    obtain ⟨o, h1, h2⟩ := getEngine_of (readInt := readInt) (k := .rej) (ss := [.count n]) (ts := ['n' :: intText n]) (desc := engineName T (.rej n sd)) (name_two rfl)
      (by simp [EngineKind.usable, EngineKind.documented]) (.cons ⟨_, rfl, hr n⟩ .nil) (by simpa using colon_intText n) (by simp [EngineKind.required, Setting.key])
    have g : o.lookup "sample_count" = some (.int n) := by rw [h2]; rfl
    have g2 : o.lookup "seed" = none := by rw [h2]; rfl
    refine ⟨_, .rej n none, h1, ?_, by simp [settingsOf, Settings.shown]⟩
    simp [EngineSpec.args, g, g2, OptVal.int?]
  | xadd m t =>
    cases m with
    | none => exact absurd hs (by simp [Settings.described])
    | some m =>
      cases t with
      | none =>
        obtain ⟨o, h1, h2⟩ := getEngine_of (readInt := readInt) (k := .xadd) (ss := [.mode m.toList]) (ts := ['m' :: m.toList]) (desc := engineName T (.xadd (some m) none))
          (name_two (glue_one lit_xadd))
          (by simp [EngineKind.usable, EngineKind.documented]) (.cons rfl .nil) (by intro u hu; rcases List.mem_singleton.mp hu with rfl; exact colon_cons (by decide) hs) (by simp [EngineKind.required])
        exact ⟨_, _, h1, rfl, by simp [settingsOf, Settings.shown, h2, Setting.final, Setting.key, Setting.val, OptVal.int?, OptVal.str?]⟩
      | some t =>
        obtain ⟨o, h1, h2⟩ := getEngine_of (readInt := readInt) (k := .xadd) (ss := [.mode m.toList, .timeout t]) (ts := ['m' :: m.toList, 't' :: intText t])
          (desc := engineName T (.xadd (some m) (some t))) (name_three (glue_two lit_xadd lit_t))
          (by simp [EngineKind.usable, EngineKind.documented]) (.cons rfl (.cons ⟨_, rfl, hr t⟩ .nil)) (by
            intro u hu
            rcases List.mem_cons.mp hu with rfl | hu
            · exact colon_cons (by decide) hs
            · rcases List.mem_singleton.mp hu with rfl; exact colon_cons (by decide) (colon_intText t)) (by simp [EngineKind.required])
        exact ⟨_, _, h1, rfl, by simp [settingsOf, Settings.shown, h2, Setting.final, Setting.key, Setting.val, OptVal.int?, OptVal.str?]⟩
  | praise =>
    obtain ⟨o, h1, h2⟩ := getEngine_of (readInt := readInt) (k := .praise) (ss := []) (ts := []) (desc := engineName T .praise) rfl (by simp) .nil (by simp) (by simp [EngineKind.required])
    exact ⟨_, _, h1, rfl, by simp [settingsOf, Settings.shown]⟩
  | _ => exact absurd hs (by simp [Settings.described])

/-- C92 is wrong for adaptive rejection: no name is a description. -/
theorem adaptive_name_refused {readInt : List Char → Option ℤ} (hr : ReadsInts readInt) (T : ObjTexts) (n b : ℤ) (st sp : ℕ) (sd : Option ℤ) :
    getEngine readInt (engineName T (.adapt n b st sp sd)) = .error .valueError := by
  have hd : engineName T (.adapt n b st sp sd) = [':'].intercalate ["adapt".toList, 'n' :: intText n, 'b' :: intText b] := name_three ((List.append_assoc _ _ _).trans (glue_two lit_adapt lit_b))
  have hsplit : (engineName T (.adapt n b st sp sd)).splitOn ':' = ["adapt".toList, 'n' :: intText n, 'b' :: intText b] := by
    rw [hd]
    refine List.splitOn_intercalate _ ?_ (by simp)
    intro t ht
    simp only [List.mem_cons, List.not_mem_nil, or_false] at ht
    rcases ht with rfl | rfl | rfl
    · decide
    · simpa using colon_intText n
    · simpa using colon_intText b
  have hk : kindOf "adapt".toList = some .adapt := by decide
  simp only [getEngine, hsplit, List.headD_cons, hk, List.tail_cons, parseOptions, parseLoop]
  have h1 : decodeOption readInt EngineKind.adapt.whitelist ('n' :: intText n) = .ok (some ("sample_count", .int n), []) := by
    simp [decodeOption, startsWith, intOpt, hr n, EngineKind.whitelist]
  have h2 : decodeOption readInt EngineKind.adapt.whitelist ('b' :: intText b) = .error .valueError := by
    simp [decodeOption, startsWith, EngineKind.whitelist]
  rw [h1]
  simp only [h2]

/-- C92 is wrong for mpwmi with a cache: its name describes no engine. -/
theorem mpwmi_cache_name (readInt : List Char → Option ℤ) (T : ObjTexts) : getEngine readInt (engineName T (.mpwmi true)) = .ok none := by rfl

/-- C92 is wrong for xadd without a mode: its name describes an engine with the mode `None`, a text. -/
theorem xadd_no_mode_name (readInt : List Char → Option ℤ) (T : ObjTexts) :
    getEngine readInt (engineName T (.xadd none none)) = .ok (some ⟨.xadd, [("mode", .str "None".toList)], none⟩) := by rfl

theorem head_splitOn {a b : List Char} (h : ':' ∉ a) : ∃ t, (a ++ b).splitOn ':' = t ∧ a <+: t.headD [] := by
  refine ⟨_, rfl, ?_⟩
  induction a with
  | nil => exact List.nil_prefix
  | cons c a ih =>
    have hc : c ≠ ':' := fun e => h (by simp [e])
    have ih := ih fun hm => h (by simp [hm])
    have : ((c :: a) ++ b).splitOn ':' = ((a ++ b).splitOn ':').modifyHead (c :: ·) := by
      rw [List.cons_append, List.splitOn, List.splitOnP_cons_eq_if_modifyHead]
      simp [hc, List.splitOn]
    rw [this]
    cases hsp : (a ++ b).splitOn ':' with
    | nil => exact absurd hsp (List.splitOnP_ne_nil _ _)
    | cons x xs =>
      rw [hsp] at ih
      simpa using ih

theorem kindOf_none {s : List Char} {c : Char} {t : List Char} (hs : s = c :: t) (hc : c.toLower ∉ ['p', 'm', 'r', 'a', 'x']) : kindOf s = none := by
  subst hs
  simp only [kindOf, List.find?_eq_none]
  intro k _ h
  simp only [decide_eq_true_eq, List.map_cons] at h
  apply hc
  cases k <;> simp [EngineKind.name] at h <;> simp [h.1]

/-- C92 is wrong for factorized XSDD and for pyxadd: their names describe no engine. -/
theorem unknown_names (readInt : List Char → Option ℤ) (T : ObjTexts) {s : Settings} (hs : (∃ a c o v m, s = .fxsdd a c o v m) ∨ ∃ p r, s = .pyxadd p r) :
    getEngine readInt (engineName T s) = .ok none := by
  rcases hs with ⟨a, c, o, v, m, rfl⟩ | ⟨p, r, rfl⟩
  rotate_left
  · obtain ⟨t, h1, h2⟩ := head_splitOn (a := "<".toList) (b := "pywmi.engines.pyxadd.engine.PyXaddEngine object at ".toList ++ T.address ++ ">".toList) (by decide)
    obtain ⟨u, hu⟩ := h2
    have : engineName T (.pyxadd p r) = "<".toList ++ ("pywmi.engines.pyxadd.engine.PyXaddEngine object at ".toList ++ T.address ++ ">".toList) := rfl
    rw [getEngine, this, h1, kindOf_none (c := '<') (t := u) hu.symm (by decide)]
  · obtain ⟨t, h1, h2⟩ := head_splitOn (a := "F".toList) (b := "XSDD".toList ++ xsddFlags T c o v m) (by decide)
    obtain ⟨u, hu⟩ := h2
    have : engineName T (.fxsdd a c o v m) = "F".toList ++ ("XSDD".toList ++ xsddFlags T c o v m) := rfl
    rw [getEngine, this, h1, kindOf_none (c := 'F') (t := u) hu.symm (by decide)]

/-- C92 is wrong for XSDD: no name is a description. -/
theorem xsdd_name_refused (readInt : List Char → Option ℤ) (T : ObjTexts) (a : ℕ) (b : Option ℕ) (c o : Bool) (v : Option ℕ) (m : Bool) :
    getEngine readInt (engineName T (.xsdd a b c o v m)) = .error .valueError := by
  obtain ⟨r, hd⟩ : ∃ r, engineName T (.xsdd a b c o v m) = "XSDD".toList ++ ':' :: ("BE=".toList ++ r) :=
    ⟨_, glue_three lit_xsdd⟩
  obtain ⟨t, h1, u, hu⟩ := head_splitOn (a := "BE=".toList) (b := r) (by decide)
  have hs : ("XSDD".toList ++ ':' :: ("BE=".toList ++ r)).splitOn ':' = "XSDD".toList :: t := by
    rw [← h1]
    exact List.splitOnP_append_cons_of_forall_mem (p := fun x => x == ':') (by decide) ':' (by decide) _
  have hk : kindOf "XSDD".toList = some .xsdd := by decide
  cases t with
  | nil => simp at hu
  | cons x xs =>
    simp only [List.headD_cons] at hu
    subst hu
    have hopt : decodeOption readInt EngineKind.xsdd.whitelist ("BE=".toList ++ u) = .error .valueError := by
      simp [decodeOption, startsWith]
    simp only [getEngine, hd, hs, List.headD_cons, hk, List.tail_cons, parseOptions, parseLoop, hopt]

/-- The hypotheses are met: the reader of integers of the specification of C78, and an engine with a mode and a timeout. -/
example : ReadsInts LatteReader.int := int_intText
example : (Settings.xadd (some "resolve") (some 30)).described ∧ engineName ⟨fun _ => [], fun _ => [], []⟩ (.xadd (some "resolve") (some 30)) = "xadd:mresolve:t30".toList := by
  constructor
  · show ':' ∉ _; decide
  · decide +kernel

/-- SPEC: texts of back-ends and strategies that tell them apart: no colon, different for different objects, and no back-end called None. -/
structure ObjTexts.Clear (T : ObjTexts) : Prop where
  strategy_colon : ∀ v, ':' ∉ T.strategy v
  strategy_inj : ∀ v w, T.strategy v = T.strategy w → v = w
  backend_colon : ∀ b, ':' ∉ T.backend b
  backend_inj : ∀ b c, T.backend b = T.backend c → b = c
  backend_none : ∀ b, T.backend b ≠ "None".toList

/-- The parts of a name after the class and the back-end. -/
def flagParts (T : ObjTexts) (c o : Bool) (v : Option ℕ) (m : Bool) : List (List Char) :=
  (if c then ["prune".toList] else []) ++ (if o then ["order".toList] else []) ++
    (match v with | some v => ["VS=".toList ++ T.strategy v] | none => []) ++ (if m then ["minimize".toList] else [])

theorem xsddFlags_parts (T : ObjTexts) (c o : Bool) (v : Option ℕ) (m : Bool) (h : List Char) (t : List (List Char)) :
    [':'].intercalate (t ++ [h]) ++ xsddFlags T c o v m = [':'].intercalate (t ++ h :: flagParts T c o v m) := by
  have key : ∀ (l : List (List Char)) (t : List (List Char)) (h : List Char), [':'].intercalate (t ++ h :: l) =
      [':'].intercalate (t ++ [h]) ++ (l.map fun x => ':' :: x).flatten := by
    intro l
    induction l with
    | nil => intro t h; simp
    | cons x l ih =>
      intro t h
      have h1 : t ++ h :: x :: l = (t ++ [h]) ++ x :: l := by simp
      rw [h1, ih]
      have h2 : ∀ (s : List (List Char)) (a b : List Char), [':'].intercalate (s ++ [a] ++ [b]) = [':'].intercalate (s ++ [a]) ++ ':' :: b := by
        intro s
        induction s with
        | nil => intro a b; simp [List.intercalate]
        | cons y s ihs =>
          intro a b
          cases s with
          | nil => simp [List.intercalate]
          | cons z s =>
            have := ihs a b
            simp only [List.intercalate, List.cons_append, List.intersperse_cons_cons, List.flatten_cons] at this ⊢
            rw [this]; simp
      rw [h2]
      simp
  rw [key (flagParts T c o v m) t h]
  congr 1
  unfold xsddFlags flagParts
  have l1 : ":prune".toList = ':' :: "prune".toList := by decide
  have l2 : ":order".toList = ':' :: "order".toList := by decide
  have l3 : ":VS=".toList = ':' :: "VS=".toList := by decide
  have l4 : ":minimize".toList = ':' :: "minimize".toList := by decide
  rw [l1, l2, l3, l4]
  cases c <;> cases o <;> cases v <;> cases m <;> simp

theorem flagParts_colon {T : ObjTexts} (hT : T.Clear) (c o : Bool) (v : Option ℕ) (m : Bool) : ∀ t ∈ flagParts T c o v m, ':' ∉ t := by
  intro t ht
  simp only [flagParts, List.mem_append] at ht
  rcases ht with ((ht | ht) | ht) | ht
  · cases c <;> simp at ht; rw [ht]; decide
  · cases o <;> simp at ht; rw [ht]; decide
  · cases v with
    | none => simp at ht
    | some v =>
      rw [List.mem_singleton] at ht
      rw [ht, List.mem_append]
      rintro (h | h)
      · revert h; decide
      · exact hT.strategy_colon v h
  · cases m <;> simp at ht; rw [ht]; decide

theorem flagParts_inj {T : ObjTexts} (hT : T.Clear) {c o : Bool} {v : Option ℕ} {m c' o' : Bool} {v' : Option ℕ} {m' : Bool}
    (h : flagParts T c o v m = flagParts T c' o' v' m') : c = c' ∧ o = o' ∧ v = v' ∧ m = m' := by
  have hV : "VS=".toList = 'V' :: "S=".toList := by decide
  have hp : "prune".toList = 'p' :: "rune".toList := by decide
  have ho : "order".toList = 'o' :: "rder".toList := by decide
  have hm : "minimize".toList = 'm' :: "inimize".toList := by decide
  have e1 : ∀ c o v m, "prune".toList ∈ flagParts T c o v m ↔ c = true := by
    intro c o v m
    unfold flagParts
    rw [hV, hp, ho, hm]
    cases c <;> cases o <;> cases v <;> cases m <;> simp
  have e2 : ∀ c o v m, "order".toList ∈ flagParts T c o v m ↔ o = true := by
    intro c o v m
    unfold flagParts
    rw [hV, hp, ho, hm]
    cases c <;> cases o <;> cases v <;> cases m <;> simp
  have e3 : ∀ c o v m, "minimize".toList ∈ flagParts T c o v m ↔ m = true := by
    intro c o v m
    unfold flagParts
    rw [hV, hp, ho, hm]
    cases c <;> cases o <;> cases v <;> cases m <;> simp
  have e4 : ∀ c o v m x, "VS=".toList ++ T.strategy x ∈ flagParts T c o v m ↔ v = some x := by
    intro c o v m x
    unfold flagParts
    rw [hV, hp, ho, hm]
    cases v with
    | none => cases c <;> cases o <;> cases m <;> simp
    | some w =>
      have : T.strategy x = T.strategy w ↔ w = x := ⟨fun h => (hT.strategy_inj _ _ h).symm, fun h => by rw [h]⟩
      cases c <;> cases o <;> cases m <;> simp [this]
  have b1 := (e1 c o v m).symm.trans ((by rw [h]) : _ ↔ _) |>.trans (e1 c' o' v' m')
  have b2 := (e2 c o v m).symm.trans ((by rw [h]) : _ ↔ _) |>.trans (e2 c' o' v' m')
  have b3 := (e3 c o v m).symm.trans ((by rw [h]) : _ ↔ _) |>.trans (e3 c' o' v' m')
  have b4 := fun x => (e4 c o v m x).symm.trans ((by rw [h]) : _ ↔ _) |>.trans (e4 c' o' v' m' x)
  refine ⟨Bool.eq_iff_iff.mpr b1, Bool.eq_iff_iff.mpr b2, ?_, Bool.eq_iff_iff.mpr b3⟩
  exact Option.ext b4

/-- The text of the back-end in a name. -/
def backendText (T : ObjTexts) : Option ℕ → List Char
  | some b => T.backend b
  | none => "None".toList

theorem intercalate_one (x : List Char) : [':'].intercalate ([] ++ [x]) = x := by simp [List.intercalate]

theorem xsdd_name (T : ObjTexts) (a : ℕ) (b : Option ℕ) (c o : Bool) (v : Option ℕ) (m : Bool) : engineName T (.xsdd a b c o v m) =
    "XSDD".toList ++ ':' :: ("BE=".toList ++ backendText T b) ++ xsddFlags T c o v m := by
  have h : engineName T (.xsdd a b c o v m) = "XSDD:BE=".toList ++ backendText T b ++ xsddFlags T c o v m := by cases b <;> rfl
  rw [h, lit_xsdd]
  simp only [List.append_assoc, List.cons_append]

/-- C92: names of XSDD engines tell apart engines whose back-end, find_conflicts, ordered, vtree strategy or minimize differ; names of
factorized engines likewise. -/
theorem xsdd_names_differ {T : ObjTexts} (hT : T.Clear) :
    (∀ a b c o v m a' b' c' o' v' m', engineName T (.xsdd a b c o v m) = engineName T (.xsdd a' b' c' o' v' m') →
      b = b' ∧ c = c' ∧ o = o' ∧ v = v' ∧ m = m') ∧
    (∀ a c o v m a' c' o' v' m', engineName T (.fxsdd a c o v m) = engineName T (.fxsdd a' c' o' v' m') →
      c = c' ∧ o = o' ∧ v = v' ∧ m = m') ∧
    ∀ a b c o v m a' c' o' v' m', engineName T (.xsdd a b c o v m) ≠ engineName T (.fxsdd a' c' o' v' m') := by
  have hx : ∀ a b c o v m, (engineName T (.xsdd a b c o v m)).splitOn ':' =
      "XSDD".toList :: ("BE=".toList ++ backendText T b) :: flagParts T c o v m := by
    intro a b c o v m
    have hn : engineName T (.xsdd a b c o v m) = [':'].intercalate (["XSDD".toList] ++
        ("BE=".toList ++ backendText T b) :: flagParts T c o v m) := by
      rw [← xsddFlags_parts, xsdd_name]
      congr 1
      exact name_two rfl
    rw [hn]
    refine List.splitOn_intercalate _ ?_ (by simp)
    intro t ht
    simp only [List.cons_append, List.nil_append, List.mem_cons] at ht
    rcases ht with rfl | rfl | ht
    · decide
    · rw [List.mem_append]
      rintro (h | h)
      · revert h; decide
      · cases b with
        | none => revert h; simp only [backendText]; decide
        | some b => exact hT.backend_colon b h
    · exact flagParts_colon hT _ _ _ _ t ht
  have hf : ∀ a c o v m, (engineName T (.fxsdd a c o v m)).splitOn ':' = "FXSDD".toList :: flagParts T c o v m := by
    intro a c o v m
    have hn : engineName T (.fxsdd a c o v m) = [':'].intercalate ([] ++ "FXSDD".toList :: flagParts T c o v m) := by
      rw [← xsddFlags_parts]
      exact congrArg (· ++ xsddFlags T c o v m) (intercalate_one "FXSDD".toList).symm
    rw [hn]
    refine List.splitOn_intercalate _ ?_ (by simp)
    intro t ht
    simp only [List.nil_append, List.mem_cons] at ht
    rcases ht with rfl | ht
    · decide
    · exact flagParts_colon hT _ _ _ _ t ht
  refine ⟨fun a b c o v m a' b' c' o' v' m' h => ?_, fun a c o v m a' c' o' v' m' h => ?_, fun a b c o v m a' c' o' v' m' h => ?_⟩
  · have := hx a b c o v m
    rw [h, hx] at this
    simp only [List.cons.injEq, true_and, List.append_cancel_left_eq] at this
    refine ⟨?_, flagParts_inj hT this.2.symm⟩
    cases b with
    | none => cases b' with
      | none => rfl
      | some b' => exact absurd this.1 (hT.backend_none b')
    | some b => cases b' with
      | none => exact absurd this.1.symm (hT.backend_none b)
      | some b' => rw [hT.backend_inj _ _ this.1]
  · have := hf a c o v m
    rw [h, hf] at this
    simp only [List.cons.injEq, true_and] at this
    exact flagParts_inj hT this.symm
  · have := hx a b c o v m
    rw [h, hf] at this
    simp only [List.cons.injEq] at this
    exact absurd this.1 (by decide)

/-- C92: descriptions of the two sampling engines construct engines with the number of samples and the seed that they name last. -/
theorem sampling_descriptions {readInt : List Char → Option ℤ} (A : Around) {k : EngineKind} (hk : k = .rej ∨ k = .adapt) {ss : List Setting}
    {ts : List (List Char)} (hu : ∀ s ∈ ss, k.usable s = true) (ht : List.Forall₂ (Setting.Text readInt) ss ts) (hc : ∀ t ∈ ts, ':' ∉ t)
    {n : ℤ} (hn : Setting.final ss "sample_count" = some (.int n)) :
    ∃ e a, getEngine readInt ([':'].intercalate (k.name.toList :: ts)) = .ok (some e) ∧ e.args = some a ∧
      (k = .rej → settingsOf A a = .rej n ((Setting.final ss "seed").bind OptVal.int?)) ∧
      (k = .adapt → settingsOf A a = .adapt n (truncInt (n / 10)) A.stop A.split ((Setting.final ss "seed").bind OptVal.int?)) := by
  have hr : ∀ x ∈ k.required, x ∈ ss.map Setting.key := by
    have hm : "sample_count" ∈ ss.map Setting.key := by
      by_contra hne
      have : ∀ ss : List Setting, "sample_count" ∉ ss.map Setting.key → Setting.final ss "sample_count" = none := by
        intro ss hne
        simp only [Setting.final, Option.map_eq_none_iff, List.find?_eq_none, List.mem_reverse, decide_eq_true_eq]
        intro s hs h
        exact hne (List.mem_map.mpr ⟨s, hs, h⟩)
      rw [this ss hne] at hn; cases hn
    rcases hk with rfl | rfl <;> simpa [EngineKind.required] using hm
  obtain ⟨o, h1, h2⟩ := getEngine_of rfl hu ht hc hr
  rcases hk with rfl | rfl
  · refine ⟨_, .rej n ((Setting.final ss "seed").bind OptVal.int?), h1, ?_, fun _ => rfl, by simp⟩
    simp [EngineSpec.args, h2, hn, OptVal.int?]
  · refine ⟨_, .adapt n none none none ((Setting.final ss "seed").bind OptVal.int?), h1, ?_, by simp, fun _ => rfl⟩
    simp [EngineSpec.args, h2, hn, OptVal.int?]

/-- The hypotheses are met: clear texts, and a description that names the seed. -/
example : ∃ T : ObjTexts, T.Clear := by
  refine ⟨⟨fun n => List.replicate n 'b', fun n => List.replicate n 's', []⟩, ?_, ?_, ?_, ?_, ?_⟩
  · intro v h; exact absurd (List.eq_of_mem_replicate h) (by decide)
  · intro v w h; simpa using congrArg List.length h
  · intro v h; exact absurd (List.eq_of_mem_replicate h) (by decide)
  · intro v w h; simpa using congrArg List.length h
  · intro b h
    have : 'N' ∈ List.replicate b 'b' := by rw [show List.replicate b 'b' = "None".toList from h]; decide
    exact absurd (List.eq_of_mem_replicate this) (by decide)
example : Setting.final [.count 5, .seed 3, .count 7] "sample_count" = some (.int 7) ∧
    (Setting.final [.count 5, .seed 3, .count 7] "seed").bind OptVal.int? = some 3 := by decide +kernel

end Pywmi
