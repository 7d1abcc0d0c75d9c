import Verif.Math.PolyFloat
import Verif.Math.Sound
import Verif.Props.Math
import Verif.Props.WeightedFloat

set_option linter.unusedSectionVars false
set_option linter.unusedSimpArgs false

/-!
# C111: polynomials with coefficients that are floats
-/

namespace Pywmi
open Formula Prog
variable {rd : ℚ → ℚ} {fl : Bool}

/-! ## Without rounding -/

theorem dictAddFloat_id (d : Dict) (k : Mono) (v : ℚ) : dictAddFloat id d k v = dictAdd d k v := by
  induction d with
  | nil => rfl
  | cons p d ih => simp only [dictAddFloat, dictAdd, id, ih]

theorem dictPlusFloat_id : dictPlusFloat id = dictPlus := by
  funext a b; simp only [dictPlusFloat, dictPlus, dictAddFloat_id]

theorem dictTimesRowFloat_id (k : Mono) (v : ℚ) (d acc : Dict) : dictTimesRowFloat id fl k v d acc = dictTimesRow fl k v d acc := by
  induction d generalizing acc with
  | nil => rfl
  | cons p d ih => simp only [dictTimesRowFloat, dictTimesRow, id, ih, dictAddFloat_id]

theorem dictTimesFloat_id : dictTimesFloat id fl = dictTimes fl := by
  funext a b
  unfold dictTimesFloat dictTimes
  generalize ([] : Dict) = acc
  induction a generalizing acc with
  | nil => rfl
  | cons p d ih => simp only [dictTimesAuxFloat, dictTimesAux, dictTimesRowFloat_id, ih]; rfl

theorem timesFoldFloat_id (acc : Dict) (ds : List Dict) : timesFoldFloat id fl acc ds = timesFold fl acc ds := by
  induction ds generalizing acc with
  | nil => rfl
  | cons p d ih => simp only [timesFoldFloat, timesFold, dictTimesFloat_id, ih]; rfl

theorem powLoopFloat_id (base : Dict) (n : ℕ) (acc : Dict) : powLoopFloat id fl base n acc = powLoop fl base n acc := by
  induction n generalizing acc with
  | zero => rfl
  | succ n ih => simp only [powLoopFloat, powLoop, dictTimesFloat_id, ih]; rfl

theorem mathDictFloatW_id : mathDictFloatW id fl = mathDictW fl := by
  have h1 : reduceTimesFloat id fl = reduceTimes fl := by
    funext ds; cases ds with
    | nil => rfl
    | cons d ds => exact timesFoldFloat_id d ds
  have h2 : reducePlusFloat id = reducePlus := by
    funext ds; cases ds with
    | nil => rfl
    | cons d ds => simp only [reducePlusFloat, reducePlus, dictPlusFloat_id]
  have h3 : lteDictFloat id = lteDict := by
    funext a b; simp only [lteDictFloat, lteDict, dictPlusFloat_id, id]; rfl
  unfold mathDictFloatW mathDictW
  simp only [h1, h2, h3, dictPlusFloat_id, powLoopFloat_id, id]; rfl

/-- Without rounding, floats give the polynomials of C06. -/
theorem poly_float_id (f : Formula) : polyFromSmtFloat id f = polyFromSmt f := by
  unfold polyFromSmtFloat polyFromSmt mathDictFloat mathDict
  rw [mathDictFloatW_id]; rfl

/-! ## The walker, case by case -/

theorem mathDictFloatW_decr : (mathDictFloatW rd fl).Decr := by
  refine Walker.decr_of ?_ ?_ ?_ ?_ ?_ ?_ ?_ ?_ ?_ ?_ ?_ ?_ ?_ ?_ ?_
  · exact fun _ _ _ => trivial
  · exact fun _ _ _ => trivial
  · exact fun as n h => callsBelow_callAll h fun rs => callsBelow_ofExcept _ _ _
  · exact fun as n h => callsBelow_callAll h fun rs => callsBelow_ofExcept _ _ _
  · exact fun a n h => ⟨h, fun _ => trivial⟩
  · exact fun l r => call2_below (by simp only [msize]; omega) (by simp only [msize]; omega) _
  · exact fun _ _ _ _ _ _ _ => trivial
  · intro b e n hb he
    simp only [mathDictFloatW]
    split
    · split
      · trivial
      · split
        · trivial
        · exact ⟨hb, fun _ => callsBelow_ofExcept _ _ _⟩
    · trivial
  · exact fun l r n hl hr => call2_below hl hr _
  · exact fun l r n hl hr => call2_below hl hr _
  · exact fun _ _ _ _ _ => trivial
  · intro m t n; cases t <;> trivial
  · exact fun _ _ => trivial
  · exact fun _ _ => trivial
  · exact Walker.implies_default_below

theorem mathDictFloat_walk (f : Formula) :
    mathDictFloat rd fl f = interp (mathDictFloat rd fl) ((mathDictFloatW rd fl).dispatch f) :=
  Walker.walk_eq mathDictFloatW_decr f
theorem mathDictFloat_sym (n : String) : mathDictFloat rd fl (.sym n .real) = .ok [([n], 1)] := by
  rw [mathDictFloat_walk]; rfl
theorem mathDictFloat_real (q : ℚ) : mathDictFloat rd fl (.realC q) = .ok [([], rd q)] := by
  rw [mathDictFloat_walk]; rfl
theorem mathDictFloat_plus (as : List Formula) : mathDictFloat rd fl (.plus as) =
    match mapE (mathDictFloat rd fl) as with
    | .ok ds => reducePlusFloat rd ds
    | .error e => .error e := by
  rw [mathDictFloat_walk]
  show interp _ (callAll as fun ds => Prog.ofExcept (reducePlusFloat rd ds)) = _
  simp only [interp_callAll, interp_ofExcept]
  cases mapE (mathDictFloat rd fl) as <;> rfl
theorem mathDictFloat_times (as : List Formula) : mathDictFloat rd fl (.times as) =
    match mapE (mathDictFloat rd fl) as with
    | .ok ds => reduceTimesFloat rd fl ds
    | .error e => .error e := by
  rw [mathDictFloat_walk]
  show interp _ (callAll as fun ds => Prog.ofExcept (reduceTimesFloat rd fl ds)) = _
  simp only [interp_callAll, interp_ofExcept]
  cases mapE (mathDictFloat rd fl) as <;> rfl
theorem mathDictFloat_minus (l r : Formula) : mathDictFloat rd fl (.minus l r) =
    match mathDictFloat rd fl l with
    | .ok a => match mathDictFloat rd fl r with
      | .ok b => .ok (dictPlusFloat rd a (dictNeg b))
      | .error e => .error e
    | .error e => .error e := by
  rw [mathDictFloat_walk]
  refine (interp_call2 _ l r _).trans ?_
  cases mathDictFloat rd fl l <;> [rfl; (cases mathDictFloat rd fl r <;> rfl)]
theorem mathDictFloat_le (l r : Formula) : mathDictFloat rd fl (.le l r) =
    match mathDictFloat rd fl l with
    | .ok a => match mathDictFloat rd fl r with
      | .ok b => .ok (lteDictFloat rd a b)
      | .error e => .error e
    | .error e => .error e := by
  rw [mathDictFloat_walk]
  refine (interp_call2 _ l r _).trans ?_
  cases mathDictFloat rd fl l <;> [rfl; (cases mathDictFloat rd fl r <;> rfl)]
theorem mathDictFloat_pow (b : Formula) (q : ℚ) : mathDictFloat rd fl (.pow b (.realC q)) =
    if (rd q).den ≠ 1 then .error .valueError
    else if (rd q).num ≠ 1 ∧ fl = true then .error .valueError
    else match mathDictFloat rd fl b with
      | .ok d => powLoopFloat rd fl d ((rd q).num - 1).toNat d
      | .error e => .error e := by
  rw [mathDictFloat_walk]
  show interp _ (if (rd q).den ≠ 1 then Prog.fail .valueError
      else if (rd q).num ≠ 1 ∧ fl = true then Prog.fail .valueError
      else .call b fun d => .ofExcept (powLoopFloat rd fl d ((rd q).num - 1).toNat d)) = _
  split_ifs
  · rfl
  · rfl
  · simp only [interp, interp_ofExcept]
    cases mathDictFloat rd fl b <;> rfl

/-! ## Small whole numbers -/

/-- Whole numbers up to 2^53 are floats. -/
def ExactWhole (rd : ℚ → ℚ) : Prop := ∀ z : ℤ, |z| ≤ 9007199254740992 → rd z = z

/-- A rational number that is whole. -/
def Whole (q : ℚ) : Prop := ∃ z : ℤ, q = z

theorem Whole.add {a b : ℚ} : Whole a → Whole b → Whole (a + b) := by
  rintro ⟨x, rfl⟩ ⟨y, rfl⟩; exact ⟨x + y, by push_cast; rfl⟩
theorem Whole.mul {a b : ℚ} : Whole a → Whole b → Whole (a * b) := by
  rintro ⟨x, rfl⟩ ⟨y, rfl⟩; exact ⟨x * y, by push_cast; rfl⟩
theorem Whole.neg {a : ℚ} : Whole a → Whole (-a) := by
  rintro ⟨x, rfl⟩; exact ⟨-x, by push_cast; rfl⟩
theorem ExactWhole.at (h : ExactWhole rd) {q : ℚ} (hw : Whole q) (hq : |q| ≤ 9007199254740992) : rd q = q := by
  obtain ⟨z, rfl⟩ := hw
  exact h z (by exact_mod_cast hq)

/-- Sum of the absolute values of the coefficients. -/
def coefSum : Dict → ℚ
  | [] => 0
  | p :: d => |p.2| + coefSum d

/-- Whole coefficients whose absolute values add up to at most `s`. -/
def WholeDict (d : Dict) (s : ℚ) : Prop := (∀ p ∈ d, Whole p.2) ∧ coefSum d ≤ s

theorem coefSum_nonneg (d : Dict) : 0 ≤ coefSum d := by
  induction d with
  | nil => exact le_rfl
  | cons p d ih => exact add_nonneg (abs_nonneg _) ih

theorem coefSum_dictAdd (d : Dict) (k : Mono) (v : ℚ) : coefSum (dictAdd d k v) ≤ coefSum d + |v| := by
  induction d with
  | nil => simp [dictAdd, coefSum]
  | cons p d ih =>
    simp only [dictAdd]
    split
    · simp only [coefSum]; linarith [abs_add_le p.2 v]
    · simp only [coefSum]; linarith

theorem whole_dictAdd {d : Dict} {k : Mono} {v : ℚ} (hd : ∀ p ∈ d, Whole p.2) (hv : Whole v) : ∀ p ∈ dictAdd d k v, Whole p.2 := by
  induction d with
  | nil => simpa [dictAdd] using hv
  | cons p d ih =>
    simp only [List.forall_mem_cons] at hd
    simp only [dictAdd]
    split
    · simp only [List.forall_mem_cons]; exact ⟨hd.1.add hv, hd.2⟩
    · simp only [List.forall_mem_cons]; exact ⟨hd.1, ih hd.2⟩

theorem dictAddFloat_eq (h : ExactWhole rd) {d : Dict} {k : Mono} {v : ℚ} (hd : ∀ p ∈ d, Whole p.2) (hv : Whole v)
    (hs : coefSum d + |v| ≤ 9007199254740992) : dictAddFloat rd d k v = dictAdd d k v := by
  induction d with
  | nil => rfl
  | cons p d ih =>
    simp only [List.forall_mem_cons] at hd
    simp only [coefSum] at hs
    have := coefSum_nonneg d
    have := abs_nonneg p.2
    simp only [dictAddFloat, dictAdd]
    rw [h.at (hd.1.add hv) (by linarith [abs_add_le p.2 v]), ih hd.2 (by linarith)]

theorem dictPlus_whole (h : ExactWhole rd) {a b : Dict} (ha : ∀ p ∈ a, Whole p.2) (hb : ∀ p ∈ b, Whole p.2)
    (hs : coefSum a + coefSum b ≤ 9007199254740992) :
    dictPlusFloat rd a b = dictPlus a b ∧ WholeDict (dictPlus a b) (coefSum a + coefSum b) := by
  unfold dictPlusFloat dictPlus
  induction b generalizing a with
  | nil => exact ⟨rfl, ha, by simp [coefSum]⟩
  | cons p b ih =>
    simp only [List.forall_mem_cons] at hb
    simp only [coefSum] at hs ⊢
    have := coefSum_nonneg b
    have h1 := coefSum_dictAdd a p.1 p.2
    simp only [List.foldl_cons]
    rw [dictAddFloat_eq h ha hb.1 (by linarith)]
    obtain ⟨i1, i2, i3⟩ := ih (whole_dictAdd (k := p.1) ha hb.1) hb.2 (by linarith)
    exact ⟨i1, i2, by linarith⟩

theorem dictTimesRow_whole (h : ExactWhole rd) {k : Mono} {v : ℚ} {d acc : Dict} (hv : Whole v) (hd : ∀ p ∈ d, Whole p.2)
    (ha : ∀ p ∈ acc, Whole p.2) (hs : coefSum acc + |v| * coefSum d ≤ 9007199254740992) :
    dictTimesRowFloat rd fl k v d acc = dictTimesRow fl k v d acc ∧
      ∀ out, dictTimesRow fl k v d acc = .ok out → WholeDict out (coefSum acc + |v| * coefSum d) := by
  induction d generalizing acc with
  | nil => exact ⟨rfl, fun out e => by simp only [dictTimesRow, Except.ok.injEq] at e; subst e; exact ⟨ha, by simp [coefSum]⟩⟩
  | cons p d ih =>
    simp only [List.forall_mem_cons] at hd
    simp only [coefSum, mul_add] at hs ⊢
    have hw := hv.mul hd.1
    have e1 : |v * p.2| = |v| * |p.2| := abs_mul _ _
    have := coefSum_nonneg acc
    have := mul_nonneg (abs_nonneg v) (coefSum_nonneg d)
    have h1 := coefSum_dictAdd acc (sortNames (k ++ p.1)) (v * p.2)
    simp only [dictTimesRowFloat, dictTimesRow]
    split
    · exact ⟨rfl, fun out e => by cases e⟩
    · rw [h.at hw (by linarith), dictAddFloat_eq h ha hw (by linarith)]
      obtain ⟨i1, i2⟩ := ih hd.2 (whole_dictAdd (k := sortNames (k ++ p.1)) ha hw) (by linarith)
      exact ⟨i1, fun out e => ⟨(i2 out e).1, by linarith [(i2 out e).2]⟩⟩

theorem dictTimes_whole (h : ExactWhole rd) {a b : Dict} (ha : ∀ p ∈ a, Whole p.2) (hb : ∀ p ∈ b, Whole p.2)
    (hs : coefSum a * coefSum b ≤ 9007199254740992) :
    dictTimesFloat rd fl a b = dictTimes fl a b ∧ ∀ out, dictTimes fl a b = .ok out → WholeDict out (coefSum a * coefSum b) := by
  suffices H : ∀ acc : Dict, (∀ p ∈ acc, Whole p.2) → coefSum acc + coefSum a * coefSum b ≤ 9007199254740992 →
      dictTimesAuxFloat rd fl a b acc = dictTimesAux fl a b acc ∧
        ∀ out, dictTimesAux fl a b acc = .ok out → WholeDict out (coefSum acc + coefSum a * coefSum b) by
    have := H [] (by simp) (by simpa [coefSum] using hs)
    simp only [coefSum, zero_add] at this
    exact this
  clear hs
  induction a with
  | nil => exact fun acc hacc _ => ⟨rfl, fun out e => by simp only [dictTimesAux, Except.ok.injEq] at e; subst e; exact ⟨hacc, by simp [coefSum]⟩⟩
  | cons p a ih =>
    intro acc hacc hs
    simp only [List.forall_mem_cons] at ha
    simp only [coefSum, add_mul] at hs ⊢
    have := mul_nonneg (coefSum_nonneg a) (coefSum_nonneg b)
    obtain ⟨r1, r2⟩ := dictTimesRow_whole (fl := fl) (k := p.1) h ha.1 hb hacc (by linarith)
    simp only [dictTimesAuxFloat, dictTimesAux]
    rw [r1]
    cases hr : dictTimesRow fl p.1 p.2 b acc with
    | error e => exact ⟨rfl, fun out e => by cases e⟩
    | ok acc' =>
      obtain ⟨w1, w2⟩ := r2 acc' hr
      obtain ⟨i1, i2⟩ := ih ha.2 acc' w1 (by linarith)
      exact ⟨i1, fun out e => ⟨(i2 out e).1, by linarith [(i2 out e).2]⟩⟩

theorem coefSum_neg (d : Dict) : coefSum (dictNeg d) = coefSum d := by
  induction d with
  | nil => rfl
  | cons p d ih => simp only [dictNeg, List.map_cons, coefSum, abs_neg] at ih ⊢; rw [ih]

/-! ## Terms -/

mutual
/-- SPEC: an upper bound for every number met while a term is expanded: constants and differences by absolute value, at least 1 everywhere. -/
def termSize : Formula → ℚ
  | .realC q => max 1 |q|
  | .plus as => max 1 (termSizeSum as)
  | .times as => termSizeProd as
  | .minus l r => termSize l + termSize r
  | .pow b (.realC q) => termSize b ^ max 1 q.num.toNat
  | _ => 1
/-- SPEC: sum of the sizes. -/
def termSizeSum : List Formula → ℚ
  | [] => 0
  | a :: as => termSize a + termSizeSum as
/-- SPEC: product of the sizes. -/
def termSizeProd : List Formula → ℚ
  | [] => 1
  | a :: as => termSize a * termSizeProd as
end

mutual
/-- SPEC: polynomial terms with whole constants and exponents up to 2^53. -/
def wholeTerm : Formula → Bool
  | .sym _ .real => true
  | .realC q => decide (q.den = 1)
  | .plus as => !as.isEmpty && wholeTermAll as
  | .times as => !as.isEmpty && wholeTermAll as
  | .minus l r => wholeTerm l && wholeTerm r
  | .pow b (.realC q) => wholeTerm b && (decide (q.den = 1) && (decide (0 ≤ q.num) && decide (q.num ≤ 9007199254740992)))
  | _ => false
/-- SPEC: all terms of the list are such terms. -/
def wholeTermAll : List Formula → Bool
  | [] => true
  | a :: as => wholeTerm a && wholeTermAll as
end

theorem wholeTermAll_iff (as : List Formula) : wholeTermAll as = true ↔ ∀ a ∈ as, wholeTerm a = true := by
  induction as with
  | nil => simp [wholeTermAll]
  | cons a as ih => simp [wholeTermAll, ih]

theorem termSize_one (f : Formula) : 1 ≤ termSize f := by
  induction f using Formula.induct with
  | realC q => simp [termSize]
  | plus as ih => simp [termSize]
  | times as ih =>
    simp only [termSize]
    induction as with
    | nil => simp [termSizeProd]
    | cons a as ih' =>
      simp only [termSizeProd]
      exact one_le_mul_of_one_le_of_one_le (ih a (by simp)) (ih' fun x hx => ih x (by simp [hx]))
  | minus l r ihl ihr => simp only [termSize]; linarith
  | pow b e ihb _ =>
    cases e with
    | realC q => simp only [termSize]; exact one_le_pow₀ ihb
    | _ => simp [termSize]
  | _ => simp [termSize]

theorem termSizeSum_nonneg (as : List Formula) : 0 ≤ termSizeSum as := by
  induction as with
  | nil => exact le_rfl
  | cons a as ih => simp only [termSizeSum]; linarith [termSize_one a]

theorem termSizeProd_one (as : List Formula) : 1 ≤ termSizeProd as := termSize_one (.times as)

theorem termSize_le_sum {a : Formula} {as : List Formula} (h : a ∈ as) : termSize a ≤ termSizeSum as := by
  induction as with
  | nil => cases h
  | cons b as ih =>
    simp only [termSizeSum]
    rcases List.mem_cons.1 h with rfl | h
    · linarith [termSizeSum_nonneg as]
    · linarith [ih h, termSize_one b]

theorem termSize_le_prod {a : Formula} {as : List Formula} (h : a ∈ as) : termSize a ≤ termSizeProd as := by
  induction as with
  | nil => cases h
  | cons b as ih =>
    simp only [termSizeProd]
    have h1 := termSizeProd_one as
    have h2 := termSize_one b
    rcases List.mem_cons.1 h with rfl | h
    · nlinarith
    · nlinarith [ih h]

/-- What is shown for every term. -/
def FloatSame (rd : ℚ → ℚ) (fl : Bool) (f : Formula) : Prop :=
  mathDictFloat rd fl f = mathDict fl f ∧ ∀ d, mathDict fl f = .ok d → WholeDict d (termSize f)

theorem same_mapE {as : List Formula} (h : ∀ a ∈ as, FloatSame rd fl a) :
    mapE (mathDictFloat rd fl) as = mapE (mathDict fl) as ∧
      ∀ ds, mapE (mathDict fl) as = .ok ds → List.Forall₂ (fun a d => WholeDict d (termSize a)) as ds := by
  induction as with
  | nil => exact ⟨rfl, fun ds e => by simp only [mapE, Except.ok.injEq] at e; subst e; exact .nil⟩
  | cons a as ih =>
    obtain ⟨h1, h2⟩ := h a (by simp)
    obtain ⟨i1, i2⟩ := ih fun x hx => h x (by simp [hx])
    simp only [mapE]
    rw [h1, i1]
    refine ⟨rfl, fun ds e => ?_⟩
    cases ha : mathDict fl a with
    | error e' => rw [ha] at e; cases e
    | ok d =>
      rw [ha] at e
      cases hs : mapE (mathDict fl) as with
      | error e' => rw [hs] at e; cases e
      | ok ds' =>
        rw [hs] at e
        cases e
        exact .cons (h2 d ha) (i2 ds' hs)

theorem plus_whole (h : ExactWhole rd) {as : List Formula} {ds : List Dict} (hf : List.Forall₂ (fun a d => WholeDict d (termSize a)) as ds) :
    ∀ {d : Dict} {s : ℚ}, WholeDict d s → s + termSizeSum as ≤ 9007199254740992 →
    ds.foldl (dictPlusFloat rd) d = ds.foldl dictPlus d ∧ WholeDict (ds.foldl dictPlus d) (s + termSizeSum as) := by
  induction hf with
  | nil => intro d s hd _; exact ⟨rfl, by simpa [termSizeSum] using hd⟩
  | @cons a b as bs hb _ ih =>
    intro d s hd hs
    simp only [termSizeSum] at hs ⊢
    have := termSizeSum_nonneg as
    obtain ⟨h1, h2, h3⟩ := dictPlus_whole h hd.1 hb.1 (by linarith [hd.2, hb.2])
    simp only [List.foldl_cons]
    rw [h1, ← add_assoc]
    exact ih ⟨h2, by linarith [hd.2, hb.2]⟩ (by linarith)

theorem times_step (h : ExactWhole rd) {a b : Dict} {s t : ℚ} (ha : WholeDict a s) (hb : WholeDict b t) (hs : s * t ≤ 9007199254740992) :
    dictTimesFloat rd fl a b = dictTimes fl a b ∧ ∀ out, dictTimes fl a b = .ok out → WholeDict out (s * t) := by
  have hle : coefSum a * coefSum b ≤ s * t := mul_le_mul ha.2 hb.2 (coefSum_nonneg b) ((coefSum_nonneg a).trans ha.2)
  obtain ⟨h1, h2⟩ := dictTimes_whole (fl := fl) h ha.1 hb.1 (hle.trans hs)
  exact ⟨h1, fun out e => ⟨(h2 out e).1, (h2 out e).2.trans hle⟩⟩

theorem times_whole (h : ExactWhole rd) {as : List Formula} {ds : List Dict} (hf : List.Forall₂ (fun a d => WholeDict d (termSize a)) as ds) :
    ∀ {d : Dict} {s : ℚ}, 0 ≤ s → WholeDict d s → s * termSizeProd as ≤ 9007199254740992 →
    timesFoldFloat rd fl d ds = timesFold fl d ds ∧ ∀ out, timesFold fl d ds = .ok out → WholeDict out (s * termSizeProd as) := by
  induction hf with
  | nil =>
    intro d s _ hd _
    exact ⟨rfl, fun out e => by simp only [timesFold, Except.ok.injEq] at e; subst e; simpa [termSizeProd] using hd⟩
  | @cons a b as bs hb _ ih =>
    intro d s h0 hd hs
    simp only [termSizeProd] at hs ⊢
    rw [← mul_assoc] at hs ⊢
    have h1 := termSizeProd_one as
    have h2 : 0 ≤ s * termSize a := mul_nonneg h0 (by linarith [termSize_one a])
    obtain ⟨t1, t2⟩ := times_step (fl := fl) h hd hb (by nlinarith)
    simp only [timesFoldFloat, timesFold]
    rw [t1]
    cases ht : dictTimes fl d b with
    | error e => exact ⟨rfl, fun out e => by cases e⟩
    | ok acc => exact ih h2 (t2 acc ht) hs

theorem pow_whole (h : ExactWhole rd) {base : Dict} {s : ℚ} (h1 : 1 ≤ s) (hb : WholeDict base s) (n : ℕ) :
    ∀ {acc : Dict} {t : ℚ}, 0 ≤ t → WholeDict acc t → t * s ^ n ≤ 9007199254740992 →
    powLoopFloat rd fl base n acc = powLoop fl base n acc ∧ ∀ out, powLoop fl base n acc = .ok out → WholeDict out (t * s ^ n) := by
  induction n with
  | zero =>
    intro acc t _ ha _
    exact ⟨rfl, fun out e => by simp only [powLoop, Except.ok.injEq] at e; subst e; simpa using ha⟩
  | succ n ih =>
    intro acc t h0 ha hs
    rw [pow_succ', ← mul_assoc] at hs ⊢
    have h2 : 0 ≤ t * s := mul_nonneg h0 (by linarith)
    have h3 : 1 ≤ s ^ n := one_le_pow₀ h1
    obtain ⟨t1, t2⟩ := times_step (fl := fl) h ha hb (by nlinarith)
    simp only [powLoopFloat, powLoop]
    rw [t1]
    cases ht : dictTimes fl acc base with
    | error e => exact ⟨rfl, fun out e => by cases e⟩
    | ok acc' => exact ih h2 (t2 acc' ht) hs

theorem whole_of_den {q : ℚ} (h : q.den = 1) : Whole q := ⟨q.num, (Rat.coe_int_num_of_den_eq_one h).symm⟩

theorem sameDict (h : ExactWhole rd) (f : Formula) : wholeTerm f = true → termSize f ≤ 9007199254740992 → FloatSame rd fl f := by
  induction f using Formula.induct with
  | sym n t =>
    intro hw _
    cases t with
    | bool => simp [wholeTerm] at hw
    | real =>
      unfold FloatSame
      rw [mathDictFloat_sym, mathDict_sym]
      refine ⟨rfl, fun d e => ?_⟩
      cases e
      exact ⟨by simpa using ⟨1, by simp⟩, by simp [coefSum, termSize]⟩
  | realC q =>
    intro hw hs
    simp only [wholeTerm, decide_eq_true_eq] at hw
    simp only [termSize] at hs
    unfold FloatSame
    rw [mathDictFloat_real, mathDict_real, h.at (whole_of_den hw) ((le_max_right _ _).trans hs)]
    refine ⟨rfl, fun d e => ?_⟩
    cases e
    exact ⟨by simpa using whole_of_den hw, by simp [coefSum, termSize]⟩
  | plus as ih =>
    intro hw hs
    simp only [wholeTerm, Bool.and_eq_true, wholeTermAll_iff] at hw
    simp only [termSize] at hs
    have hs' := (le_max_right _ _).trans hs
    obtain ⟨m1, m2⟩ := same_mapE (rd := rd) (fl := fl) (as := as) fun a ha => ih a ha (hw.2 a ha) ((termSize_le_sum ha).trans hs')
    unfold FloatSame
    rw [mathDictFloat_plus, mathDict_plus, m1]
    cases hm : mapE (mathDict fl) as with
    | error e => exact ⟨rfl, fun d e => by cases e⟩
    | ok ds =>
      have hf := m2 ds hm
      cases hf with
      | nil => simp at hw
      | @cons a d as ds hd hf =>
        simp only [termSizeSum] at hs'
        obtain ⟨p1, p2⟩ := plus_whole h hf hd hs'
        simp only [reducePlusFloat, reducePlus, p1]
        refine ⟨trivial, fun d e => ?_⟩
        cases e
        exact ⟨p2.1, p2.2.trans (by simp only [termSize, termSizeSum]; exact le_max_right _ _)⟩
  | times as ih =>
    intro hw hs
    simp only [wholeTerm, Bool.and_eq_true, wholeTermAll_iff] at hw
    simp only [termSize] at hs
    obtain ⟨m1, m2⟩ := same_mapE (rd := rd) (fl := fl) (as := as) fun a ha => ih a ha (hw.2 a ha) ((termSize_le_prod ha).trans hs)
    unfold FloatSame
    rw [mathDictFloat_times, mathDict_times, m1]
    cases hm : mapE (mathDict fl) as with
    | error e => exact ⟨rfl, fun d e => by cases e⟩
    | ok ds =>
      have hf := m2 ds hm
      cases hf with
      | nil => simp at hw
      | @cons a d as ds hd hf =>
        simp only [termSizeProd] at hs
        simp only [termSize, termSizeProd]
        exact times_whole (fl := fl) h hf (by linarith [termSize_one a]) hd hs
  | minus l r ihl ihr =>
    intro hw hs
    simp only [wholeTerm, Bool.and_eq_true] at hw
    simp only [termSize] at hs
    have h1 := termSize_one l
    have h2 := termSize_one r
    obtain ⟨l1, l2⟩ := ihl hw.1 (by linarith)
    obtain ⟨r1, r2⟩ := ihr hw.2 (by linarith)
    unfold FloatSame
    rw [mathDictFloat_minus, mathDict_minus, l1, r1]
    cases hl : mathDict fl l with
    | error e => exact ⟨rfl, fun d e => by cases e⟩
    | ok a =>
      cases hr : mathDict fl r with
      | error e => exact ⟨rfl, fun d e => by cases e⟩
      | ok b =>
        obtain ⟨wa, sa⟩ := l2 a hl
        obtain ⟨wb, sb⟩ := r2 b hr
        obtain ⟨p1, p2, p3⟩ := dictPlus_whole h wa (b := dictNeg b)
          (by intro p hp; obtain ⟨q, hq, rfl⟩ := List.mem_map.1 hp; exact (wb q hq).neg) (by rw [coefSum_neg]; linarith)
        rw [coefSum_neg] at p3
        simp only [p1]
        refine ⟨trivial, fun d e => ?_⟩
        cases e
        exact ⟨p2, by simp only [termSize]; linarith⟩
  | pow b e ihb _ =>
    intro hw hs
    cases e with
    | realC q =>
      simp only [wholeTerm, Bool.and_eq_true, decide_eq_true_eq] at hw
      obtain ⟨hb, hden, h0, hN⟩ := hw
      simp only [termSize] at hs
      have h1 := termSize_one b
      have hq : rd q = q := h.at (whole_of_den hden) (by
        rw [← Rat.coe_int_num_of_den_eq_one hden, abs_of_nonneg (by exact_mod_cast h0)]; exact_mod_cast hN)
      have he : max 1 q.num.toNat = (q.num - 1).toNat + 1 := by omega
      rw [he] at hs
      have hb1 : termSize b ≤ 9007199254740992 := (le_self_pow₀ h1 (by omega)).trans hs
      obtain ⟨b1, b2⟩ := ihb hb hb1
      unfold FloatSame
      rw [mathDictFloat_pow, mathDict_pow, hq, b1]
      split_ifs
      · exact ⟨rfl, fun d e => by cases e⟩
      · exact ⟨rfl, fun d e => by cases e⟩
      · cases hm : mathDict fl b with
        | error e => exact ⟨rfl, fun d e => by cases e⟩
        | ok d =>
          rw [pow_succ'] at hs
          have := pow_whole (fl := fl) h h1 (b2 d hm) (q.num - 1).toNat (by linarith) (b2 d hm) hs
          simp only [termSize]
          rw [he, pow_succ']
          exact this
    | _ => simp [wholeTerm] at hw
  | _ => intro hw; simp [wholeTerm] at hw

theorem wholeTerm_poly {f : Formula} (hw : wholeTerm f = true) : polyTerm f = true := by
  induction f using Formula.induct with
  | plus as ih =>
    simp only [wholeTerm, polyTerm, Bool.and_eq_true, polyTermAll_iff, wholeTermAll_iff] at hw ⊢
    exact ⟨hw.1, fun a ha => ih a ha (hw.2 a ha)⟩
  | times as ih =>
    simp only [wholeTerm, polyTerm, Bool.and_eq_true, polyTermAll_iff, wholeTermAll_iff] at hw ⊢
    exact ⟨hw.1, fun a ha => ih a ha (hw.2 a ha)⟩
  | minus l r ihl ihr =>
    simp only [wholeTerm, polyTerm, Bool.and_eq_true] at hw ⊢
    exact ⟨ihl hw.1, ihr hw.2⟩
  | pow b e ihb _ =>
    cases e with
    | realC q => simp only [wholeTerm, polyTerm, Bool.and_eq_true] at hw ⊢; exact ⟨ihb hw.1, hw.2.1, hw.2.2.1⟩
    | _ => simp [wholeTerm] at hw
  | sym n t => cases t <;> simp_all [polyTerm, wholeTerm]
  | realC q => rfl
  | _ => simp [wholeTerm] at hw

/-- **C111, partial**: terms with whole constants, in which no number gets above 2^53, are read as the exact polynomial by floats. -/
theorem poly_float_partial (h : ExactWhole rd) {f : Formula} (hw : wholeTerm f = true) (hs : termSize f ≤ 9007199254740992) :
    ∃ d, polyFromSmtFloat rd f = .ok d ∧ polyFromSmt f = .ok d ∧ ∀ p ∈ d, Whole p.2 := by
  obtain ⟨h1, h2⟩ := sameDict (fl := false) h f hw hs
  have hp := wholeTerm_poly hw
  obtain ⟨d, hd⟩ := mathDict_poly_ok f hp
  unfold polyFromSmtFloat polyFromSmt
  rw [h1, hd]
  exact ⟨_, rfl, rfl, fun p hp => (h2 d hd).1 p (List.mem_of_mem_filter hp)⟩

/-- **C111, partial**: the polynomial read with floats has the value of the term (no exponent 0, which is read wrongly even without rounding: C06). -/
theorem poly_float_value_partial (h : ExactWhole rd) {f : Formula} (hw : wholeTerm f = true) (hs : termSize f ≤ 9007199254740992)
    (hz : zeroPowFree f = true) : ∃ d, polyFromSmtFloat rd f = .ok d ∧ ∀ σ : Env ℚ, polyEval σ.r d = value σ f := by
  obtain ⟨d, h1, h2, _⟩ := poly_float_partial h hw hs
  obtain ⟨d', hd', hv⟩ := polyFromSmt_correct_partial (K := ℚ) (wholeTerm_poly hw) hz
  rw [h2] at hd'
  cases hd'
  exact ⟨d, h1, hv⟩

/-- **C111, partial**: an inequality between such terms is read as the exact inequality with every coefficient rounded once. -/
theorem lin_float_partial (h : ExactWhole rd) {l r : Formula} (hl : wholeTerm l = true) (hr : wholeTerm r = true)
    (hs : termSize l + termSize r ≤ 9007199254740992) {d : Dict} (hd : mathDict fl (.le l r) = .ok d) :
    mathDictFloat rd fl (.le l r) = .ok (d.map fun p => (p.1, rd p.2)) := by
  have t1 := termSize_one l
  have t2 := termSize_one r
  obtain ⟨l1, l2⟩ := sameDict (fl := fl) h l hl (by linarith)
  obtain ⟨r1, r2⟩ := sameDict (fl := fl) h r hr (by linarith)
  rw [mathDict_le] at hd
  rw [mathDictFloat_le, l1, r1]
  cases ha : mathDict fl l with
  | error e => rw [ha] at hd; cases hd
  | ok a =>
    cases hb : mathDict fl r with
    | error e => rw [ha, hb] at hd; cases hd
    | ok b =>
      rw [ha, hb] at hd
      simp only [Except.ok.injEq] at hd
      obtain ⟨wa, sa⟩ := l2 a ha
      obtain ⟨wb, sb⟩ := r2 b hb
      obtain ⟨p1, p2, p3⟩ := dictPlus_whole h wa (b := dictNeg b)
        (by intro p hp; obtain ⟨q, hq, rfl⟩ := List.mem_map.1 hp; exact (wb q hq).neg) (by rw [coefSum_neg]; linarith)
      have h0 : rd 0 = 0 := by simpa using h 0 (by simp)
      subst hd
      simp only [lteDictFloat, lteDict, p1, Except.ok.injEq]
      cases firstFactor (dictPlus a (dictNeg b)) (sortedKeys (dictPlus a (dictNeg b))) with
      | none => simp [h0]
      | some f => simp

/-! ## What goes wrong above 2^53 -/

/-- `10^16 * x + x`. -/
def wideSum : Formula := .plus [.times [.realC 10000000000000000, .sym "x" .real], .sym "x" .real]
/-- `10^16 * x`. -/
def wideTerm : Formula := .times [.realC 10000000000000000, .sym "x" .real]

theorem wide_rd (h : RoundsWhole rd) : rd 10000000000000000 = 10000000000000000 ∧ rd 10000000000000001 = 10000000000000000 ∧ rd 0 = 0 ∧ rd 1 = 1 := by
  refine ⟨?_, ?_, ?_, ?_⟩
  · have := h 10000000000000000
    rw [show floatNat 10000000000000000 = 10000000000000000 by decide +kernel] at this
    exact_mod_cast this
  · have := h 10000000000000001
    rw [show floatNat 10000000000000001 = 10000000000000000 by decide +kernel] at this
    exact_mod_cast this
  · have := h 0
    rw [show floatNat 0 = 0 by decide +kernel] at this
    exact_mod_cast this
  · have := h 1
    rw [show floatNat 1 = 1 by decide +kernel] at this
    exact_mod_cast this

theorem wideTerm_dict (h : RoundsWhole rd) : mathDictFloat rd fl wideTerm = .ok [(["x"], 10000000000000000)] := by
  obtain ⟨r1, r2, r3, r4⟩ := wide_rd h
  unfold wideTerm
  rw [mathDictFloat_times]
  simp [mapE, mathDictFloat_real, mathDictFloat_sym, reduceTimesFloat, timesFoldFloat, dictTimesFloat, dictTimesAuxFloat, dictTimesRowFloat,
    dictAddFloat, r1, sortNames]

theorem wideSum_dict (h : RoundsWhole rd) : mathDictFloat rd fl wideSum = .ok [(["x"], 10000000000000000)] := by
  obtain ⟨r1, r2, r3, r4⟩ := wide_rd h
  unfold wideSum
  rw [mathDictFloat_plus]
  have := wideTerm_dict (fl := fl) h
  unfold wideTerm at this
  simp [mapE, this, mathDictFloat_sym, reducePlusFloat, dictPlusFloat, dictAddFloat]
  rw [show (10000000000000000 : ℚ) + 1 = 10000000000000001 by norm_num, r2]

/-- **C111, negation**: `(10^16 * x + x) - 10^16 * x`, which is `x`, is read as the zero polynomial. -/
theorem poly_float_zero (h : RoundsWhole rd) : polyFromSmtFloat rd (.minus wideSum wideTerm) = .ok [] ∧
    (∀ σ : Env ℚ, value σ (.minus wideSum wideTerm) = σ.r "x") ∧ polyFromSmt (.minus wideSum wideTerm) = .ok [(["x"], 1)] := by
  obtain ⟨r1, r2, r3, r4⟩ := wide_rd h
  refine ⟨?_, ?_, ?_⟩
  · unfold polyFromSmtFloat
    rw [mathDictFloat_minus, wideSum_dict h, wideTerm_dict h]
    simp [dictPlusFloat, dictNeg, dictAddFloat, r3]
  · intro σ
    simp [wideSum, wideTerm, value, valueSum, valueProd]
  · decide +kernel

/-- **C111, negation**: the inequality `(10^16 * x + x) - 10^16 * x <= 1`, which is `x <= 1`, is read as `0 * x - 1 <= 0`, which always holds. -/
theorem lin_float_lost (h : RoundsWhole rd) (h1 : rd (-1) = -1) :
    mathDictFloat rd true (.le (.minus wideSum wideTerm) (.realC 1)) = .ok [(["x"], 0), ([], -1)] ∧
      truth (⟨fun _ => false, fun _ => 2⟩ : Env ℚ) (.le (.minus wideSum wideTerm) (.realC 1)) = false := by
  obtain ⟨r1, r2, r3, r4⟩ := wide_rd h
  refine ⟨?_, ?_⟩
  · rw [mathDictFloat_le, mathDictFloat_minus, wideSum_dict h, wideTerm_dict h, mathDictFloat_real]
    simp [lteDictFloat, dictPlusFloat, dictNeg, dictAddFloat, r3, r4, sortedKeys, keyLe, firstFactor, List.lookup, h1]
  · decide +kernel

/-- Constants are rounded, and so are products: 94906267 squared is odd and above 2^53. -/
theorem poly_float_constants (h : RoundsWhole rd) :
    polyFromSmtFloat rd (.realC 10000000000000001) = .ok [([], 10000000000000000)] ∧
      polyFromSmtFloat rd (.times [.realC 94906267, .realC 94906267]) = .ok [([], 9007199515875288)] ∧
      (94906267 * 94906267 : ℚ) = 9007199515875289 := by
  obtain ⟨r1, r2, r3, r4⟩ := wide_rd h
  have r5 : rd 94906267 = 94906267 := by
    have := h 94906267
    rw [show floatNat 94906267 = 94906267 by decide +kernel] at this
    exact_mod_cast this
  have r6 : rd 9007199515875289 = 9007199515875288 := by
    have := h 9007199515875289
    rw [show floatNat 9007199515875289 = 9007199515875288 by decide +kernel] at this
    exact_mod_cast this
  refine ⟨?_, ?_, by norm_num⟩
  · unfold polyFromSmtFloat
    rw [mathDictFloat_real]
    simp [r2]
  · unfold polyFromSmtFloat
    rw [mathDictFloat_times]
    simp only [mapE, mathDictFloat_real, reduceTimesFloat, timesFoldFloat, dictTimesFloat, dictTimesAuxFloat, dictTimesRowFloat, dictAddFloat, r5,
      show (94906267 * 94906267 : ℚ) = 9007199515875289 by norm_num, r6]
    simp [sortNames]

/-- **C111, negation**: an exponent is rounded before it is tested: a fraction that is rounded to 1 is accepted and read as 1, where the exact model
raises ValueError. -/
theorem poly_float_exponent {q : ℚ} (hq : rd q = 1) (hd : q.den ≠ 1) :
    polyFromSmtFloat rd (.pow (.sym "x" .real) (.realC q)) = .ok [(["x"], 1)] ∧
      polyFromSmt (.pow (.sym "x" .real) (.realC q)) = .error .valueError := by
  unfold polyFromSmtFloat polyFromSmt
  rw [mathDictFloat_pow, mathDict_pow, hq, mathDictFloat_sym]
  simp [hd, powLoopFloat]

/-! ## Examples -/

/-- Floats, on whole numbers. -/
def floatRd (q : ℚ) : ℚ := if q.den = 1 then (if 0 ≤ q.num then (floatNat q.num.toNat : ℚ) else -(floatNat (-q.num).toNat : ℚ)) else q

theorem floatRd_rounds : RoundsWhole floatRd := fun n => by simp [floatRd]

theorem floatNat_upTo {n : ℕ} (h : n ≤ 9007199254740992) : floatNat n = n := by
  rcases Nat.lt_or_ge n 9007199254740992 with h' | h'
  · simp [floatNat, h']
  · rw [le_antisymm h h']; decide +kernel

theorem floatRd_exact : ExactWhole floatRd := by
  intro z hz
  by_cases h0 : 0 ≤ z
  · have e : floatRd z = (floatNat z.toNat : ℚ) := by simp [floatRd, h0]
    rw [e]
    rw [floatNat_upTo (by rw [abs_of_nonneg h0] at hz; omega)]
    have : ((z.toNat : ℕ) : ℤ) = z := Int.toNat_of_nonneg h0
    exact_mod_cast congrArg (fun t : ℤ => (t : ℚ)) this
  · have e : floatRd z = -(floatNat (-z).toNat : ℚ) := by simp [floatRd, h0]
    rw [e]
    have h0' : z < 0 := not_le.1 h0
    rw [floatNat_upTo (by rw [abs_of_neg h0'] at hz; omega)]
    have : (((-z).toNat : ℕ) : ℤ) = -z := Int.toNat_of_nonneg (by omega)
    have h2 := congrArg (fun t : ℤ => (t : ℚ)) this
    push_cast at h2
    rw [h2]; ring

/-- `(3x - 2y)^2 + 5` is small. -/
def smallTerm : Formula :=
  .plus [.pow (.minus (.times [.realC 3, .sym "x" .real]) (.times [.realC 2, .sym "y" .real])) (.realC 2), .realC 5]

example : wholeTerm smallTerm = true ∧ termSize smallTerm = 30 := by decide +kernel
example : polyFromSmtFloat floatRd smallTerm = .ok [(["x", "x"], 9), (["x", "y"], -12), (["y", "y"], 4), ([], 5)] := by decide +kernel
/-- A rounding that takes `1 + 10^-20` to 1. -/
example : (fun q : ℚ => if q = 1 + 1 / 100000000000000000000 then 1 else floatRd q) (1 + 1 / 100000000000000000000) = 1 ∧
    (1 + 1 / 100000000000000000000 : ℚ).den ≠ 1 := by decide +kernel
example : zeroPowFree smallTerm = true := by decide +kernel
/-- `2x <= 3y + 4` is divided by 4. -/
example : wholeTerm (.times [.realC 2, .sym "x" .real]) = true ∧ wholeTerm (.plus [.times [.realC 3, .sym "y" .real], .realC 4]) = true ∧
    termSize (.times [.realC 2, .sym "x" .real]) + termSize (.plus [.times [.realC 3, .sym "y" .real], .realC 4]) = 9 ∧
    mathDict true (.le (.times [.realC 2, .sym "x" .real]) (.plus [.times [.realC 3, .sym "y" .real], .realC 4])) =
      .ok [(["x"], 1/2), (["y"], -(3/4)), ([], -1)] := by decide +kernel
example : polyFromSmtFloat floatRd (.minus wideSum wideTerm) = .ok [] := (poly_float_zero floatRd_rounds).1
example : mathDictFloat floatRd true (.le (.minus wideSum wideTerm) (.realC 1)) = .ok [(["x"], 0), ([], -1)] :=
  (lin_float_lost floatRd_rounds (by decide +kernel)).1

end Pywmi
