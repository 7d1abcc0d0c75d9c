import Verif.Xsdd.Vtree
import Mathlib.Data.Nat.Log
import Mathlib.Tactic.Ring
import Mathlib.Tactic.Linarith
import Mathlib.Data.List.Perm.Basic

/-!
# C50: vtree builders and the vtree file

The specification of the file format is `load`, an independent reader of the syntax quoted in the source: it keeps a
table of the nodes read so far and returns the last one.
-/

set_option linter.unusedSectionVars false
set_option linter.unusedSimpArgs false

namespace Pywmi
namespace Vtree

variable {α : Type}

/-- No `VtreeEmpty` occurs anywhere. -/
def Full : Vtree α → Prop
  | empty => False
  | var _ => True
  | split l r => l.Full ∧ r.Full

/-- Every split divides its leaves as evenly as possible, the extra leaf going to the preferred side. -/
def Even (preferLeft : Bool) : Vtree α → Prop
  | empty => True
  | var _ => True
  | split l r =>
    (if preferLeft then l.leaves.length = r.leaves.length ∨ l.leaves.length = r.leaves.length + 1
     else r.leaves.length = l.leaves.length ∨ r.leaves.length = l.leaves.length + 1) ∧
    l.Even preferLeft ∧ r.Even preferLeft

theorem count_full {t : Vtree α} (h : t.Full) : t.count + 1 = 2 * t.leaves.length := by
  induction t with
  | empty => exact h.elim
  | var v => simp [count, leaves]
  | split l r il ir =>
    have := il h.1
    have := ir h.2
    simp only [count, leaves, List.length_append]
    omega

theorem countLeaves_eq (t : Vtree α) : t.countLeaves = t.leaves.length := by
  induction t with
  | empty => rfl
  | var v => rfl
  | split l r il ir => simp [countLeaves, leaves, il, ir]

theorem balancedAdd_spec (pl : Bool) (x : α) {t : Vtree α} (h : t.Full) (he : t.Even pl) :
    (t.balancedAdd (var x) pl).Full ∧ (t.balancedAdd (var x) pl).Even pl ∧
    (t.balancedAdd (var x) pl).leaves.Perm (x :: t.leaves) := by
  induction t with
  | empty => exact h.elim
  | var v =>
    cases pl
    · refine ⟨⟨trivial, trivial⟩, ⟨?_, trivial, trivial⟩, ?_⟩
      · simp [leaves]
      · simpa [balancedAdd, leaves] using List.Perm.swap x v []
    · refine ⟨⟨trivial, trivial⟩, ⟨?_, trivial, trivial⟩, ?_⟩
      · simp [leaves]
      · simp [balancedAdd, leaves]
  | split l r il ir =>
    obtain ⟨hl, hr⟩ := h
    obtain ⟨hs, hel, her⟩ := he
    obtain ⟨l1, l2, l3⟩ := il hl hel
    obtain ⟨r1, r2, r3⟩ := ir hr her
    have cl := count_full hl
    have cr := count_full hr
    have ll : (l.balancedAdd (var x) pl).leaves.length = l.leaves.length + 1 := by simpa using l3.length_eq
    have rl : (r.balancedAdd (var x) pl).leaves.length = r.leaves.length + 1 := by simpa using r3.length_eq
    simp only [balancedAdd]
    split
    · rename_i hc
      refine ⟨⟨l1, hr⟩, ⟨?_, l2, her⟩, ?_⟩
      · cases pl
        · simp only [Bool.false_eq_true, if_false, ll] at hs ⊢
          simp at hc
          omega
        · simp only [if_true, ll] at hs ⊢
          simp at hc
          omega
      · simpa [leaves] using l3.append_right r.leaves
    · rename_i hc
      refine ⟨⟨hl, r1⟩, ⟨?_, hel, r2⟩, ?_⟩
      · cases pl
        · simp only [Bool.false_eq_true, if_false, rl] at hs ⊢
          simp at hc
          omega
        · simp only [if_true, rl] at hs ⊢
          simp at hc
          omega
      · exact (r3.append_left l.leaves).trans (by simp [leaves])

theorem relabel_spec (t : Vtree α) (vs : List α) (h : t.leaves.length ≤ vs.length) :
    (t.relabel vs).1.leaves = vs.take t.leaves.length ∧ (t.relabel vs).2 = vs.drop t.leaves.length := by
  induction t generalizing vs with
  | empty => simp [relabel, leaves]
  | var v =>
    cases vs with
    | nil => simp [leaves] at h
    | cons w vs => simp [relabel, leaves]
  | split l r il ir =>
    simp only [leaves, List.length_append] at h
    obtain ⟨a, b⟩ := il vs (by omega)
    obtain ⟨c, d⟩ := ir (vs.drop l.leaves.length) (by simp; omega)
    simp only [relabel, leaves, List.length_append, a, b, c, d]
    constructor
    · rw [List.take_add]
    · rw [List.drop_drop]

theorem relabel_length (t : Vtree α) (vs : List α) : (t.relabel vs).1.leaves.length = t.leaves.length := by
  induction t generalizing vs with
  | empty => rfl
  | var v => cases vs <;> rfl
  | split l r il ir => simp [relabel, leaves, il, ir]

theorem relabel_full {t : Vtree α} (vs : List α) (h : t.Full) : (t.relabel vs).1.Full := by
  induction t generalizing vs with
  | empty => exact h
  | var v => cases vs <;> trivial
  | split l r il ir => exact ⟨il _ h.1, ir _ h.2⟩

theorem relabel_even {pl : Bool} {t : Vtree α} (vs : List α) (h : t.Even pl) : (t.relabel vs).1.Even pl := by
  induction t generalizing vs with
  | empty => trivial
  | var v => cases vs <;> trivial
  | split l r il ir =>
    refine ⟨?_, il _ h.2.1, ir _ h.2.2⟩
    have := h.1
    simpa [relabel_length] using this

theorem grow_spec (pl : Bool) (rest : List α) (t : Vtree α) (h : t.Full) (he : t.Even pl) :
    (rest.foldl (fun root x => root.balancedAdd (var x) pl) t).Full ∧
    (rest.foldl (fun root x => root.balancedAdd (var x) pl) t).Even pl ∧
    (rest.foldl (fun root x => root.balancedAdd (var x) pl) t).leaves.length = t.leaves.length + rest.length := by
  induction rest generalizing t with
  | nil => simp [h, he]
  | cons x rest ih =>
    obtain ⟨a, b, c⟩ := balancedAdd_spec pl x h he
    obtain ⟨d, e, f⟩ := ih _ a b
    refine ⟨d, e, ?_⟩
    have := c.length_eq
    simp only [List.length_cons] at this
    simp only [List.foldl_cons, List.length_cons, f, this]
    omega

/-- **C50**, balanced: the leaves are the given literals in order, no node is empty and every split is even. -/
theorem createBalanced_correct (v : α) (vs : List α) (pl : Bool) :
    (createBalanced (v :: vs) pl).leaves = v :: vs ∧ (createBalanced (v :: vs) pl).Full ∧
    (createBalanced (v :: vs) pl).Even pl := by
  obtain ⟨a, b, c⟩ := grow_spec pl vs (var v) trivial trivial
  have hlen : (vs.foldl (fun root x => root.balancedAdd (var x) pl) (var v)).leaves.length = (v :: vs).length := by
    rw [c]; simp [leaves]; omega
  refine ⟨?_, relabel_full _ a, relabel_even _ b⟩
  have := (relabel_spec (vs.foldl (fun root x => root.balancedAdd (var x) pl) (var v)) (v :: vs) hlen.le).1
  rw [hlen, List.take_length] at this
  exact this

theorem createBalanced_leaves (vs : List α) (pl : Bool) : (createBalanced vs pl).leaves = vs := by
  cases vs with
  | nil => rfl
  | cons v vs => exact (createBalanced_correct v vs pl).1

theorem clog_double {a b n : ℕ} (h : a + b = n) (hab : a = b ∨ a = b + 1) (hb : 0 < b) :
    Nat.clog 2 n = Nat.clog 2 a + 1 := by
  have h2 : 2 ≤ n := by omega
  rw [Nat.clog_of_one_lt (by norm_num) (by omega)]
  have : (n + 2 - 1) / 2 = a := by omega
  rw [this]

theorem even_depth {pl : Bool} {t : Vtree α} (h : t.Full) (he : t.Even pl) :
    t.depth = Nat.clog 2 t.leaves.length := by
  have pos : ∀ {t : Vtree α}, t.Full → 0 < t.leaves.length := by
    intro t ht
    have := count_full ht
    omega
  induction t with
  | empty => exact h.elim
  | var v => simp [depth, leaves]
  | split l r il ir =>
    have hl := il h.1 he.2.1
    have hr := ir h.2 he.2.2
    have pl' := pos h.1
    have pr' := pos h.2
    have hs := he.1
    simp only [depth, leaves, List.length_append, hl, hr]
    cases pl
    · simp only [Bool.false_eq_true, if_false] at hs
      rw [max_eq_right (Nat.clog_mono_right 2 (by omega)), clog_double (a := r.leaves.length) (add_comm _ _) hs pl']
    · simp only [if_true] at hs
      rw [max_eq_left (Nat.clog_mono_right 2 (by omega)), clog_double (a := l.leaves.length) rfl hs pr']

/-- The balanced vtree over `n ≥ 1` literals has the least possible depth, `⌈log₂ n⌉`. -/
theorem createBalanced_depth (v : α) (vs : List α) (pl : Bool) :
    (createBalanced (v :: vs) pl).depth = Nat.clog 2 (vs.length + 1) := by
  obtain ⟨a, b, c⟩ := createBalanced_correct v vs pl
  rw [even_depth b c, a]
  rfl

/-- No vtree without empty nodes is shallower. -/
theorem depth_lower (t : Vtree α) : t.leaves.length ≤ 2 ^ t.depth := by
  induction t with
  | empty => simp [leaves]
  | var v => simp [leaves, depth]
  | split l r il ir =>
    simp only [leaves, List.length_append, depth, pow_succ]
    have h1 : 2 ^ l.depth ≤ 2 ^ max l.depth r.depth := Nat.pow_le_pow_right (by norm_num) (le_max_left _ _)
    have h2 : 2 ^ r.depth ≤ 2 ^ max l.depth r.depth := Nat.pow_le_pow_right (by norm_num) (le_max_right _ _)
    omega

/-- Each left child is a single literal. -/
def RightLinear : Vtree α → Prop
  | empty => False
  | var _ => True
  | split (var _) r => r.RightLinear
  | split _ _ => False

/-- Each right child is a single literal. -/
def LeftLinear : Vtree α → Prop
  | empty => False
  | var _ => True
  | split l (var _) => l.LeftLinear
  | split _ _ => False

theorem rightlinear_aux (rest : List α) (t : Vtree α) (h : t.RightLinear) (hf : t.Full) :
    (rest.foldl (fun t x => split (var x) t) t).leaves = rest.reverse ++ t.leaves ∧
    (rest.foldl (fun t x => split (var x) t) t).RightLinear ∧ (rest.foldl (fun t x => split (var x) t) t).Full ∧
    (rest.foldl (fun t x => split (var x) t) t).depth = t.depth + rest.length := by
  induction rest generalizing t with
  | nil => simp [h, hf]
  | cons x rest ih =>
    obtain ⟨a, b, c, d⟩ := ih (split (var x) t) h ⟨trivial, hf⟩
    refine ⟨by simpa [leaves] using a, b, c, ?_⟩
    simp only [List.foldl_cons, d, depth, List.length_cons]
    simp; omega

theorem leftlinear_aux (rest : List α) (t : Vtree α) (h : t.LeftLinear) (hf : t.Full) :
    (rest.foldl (fun t x => split t (var x)) t).leaves = t.leaves ++ rest ∧
    (rest.foldl (fun t x => split t (var x)) t).LeftLinear ∧ (rest.foldl (fun t x => split t (var x)) t).Full ∧
    (rest.foldl (fun t x => split t (var x)) t).depth = t.depth + rest.length := by
  induction rest generalizing t with
  | nil => simp [h, hf]
  | cons x rest ih =>
    obtain ⟨a, b, c, d⟩ := ih (split t (var x)) (by cases t <;> exact h) ⟨hf, trivial⟩
    refine ⟨by simpa [leaves] using a, b, c, ?_⟩
    simp only [List.foldl_cons, d, depth, List.length_cons]
    simp; omega

/-- **C50**, right-linear: each literal once (in reverse order), every left child a literal. -/
theorem createRightlinear_correct (v : α) (vs : List α) :
    (createRightlinear (v :: vs)).leaves = (v :: vs).reverse ∧ (createRightlinear (v :: vs)).RightLinear ∧
    (createRightlinear (v :: vs)).Full ∧ (createRightlinear (v :: vs)).depth = vs.length := by
  obtain ⟨a, b, c, d⟩ := rightlinear_aux vs (var v) trivial trivial
  exact ⟨by simpa [createRightlinear, leaves] using a, b, c, by simpa [createRightlinear, depth] using d⟩

/-- **C50**, left-linear: each literal once, in order, every right child a literal. -/
theorem createLeftlinear_correct (v : α) (vs : List α) :
    (createLeftlinear (v :: vs)).leaves = v :: vs ∧ (createLeftlinear (v :: vs)).LeftLinear ∧
    (createLeftlinear (v :: vs)).Full ∧ (createLeftlinear (v :: vs)).depth = vs.length := by
  obtain ⟨a, b, c, d⟩ := leftlinear_aux vs (var v) trivial trivial
  exact ⟨by simpa [createLeftlinear, leaves] using a, b, c, by simpa [createLeftlinear, depth] using d⟩

/-! ### The vtree file -/

/-- The node a line defines, given the table of the nodes defined above it. -/
def Line.read (tbl : List (ℕ × Vtree ℕ)) : Line → Option (ℕ × Vtree ℕ)
  | .leaf i v => some (i, .var v)
  | .inner i a b =>
    match tbl.lookup a, tbl.lookup b with
    | some l, some r => some (i, .split l r)
    | _, _ => none

/-- Read the lines in order; every reference must be to an earlier line. The newest node comes first. -/
def readLines : List (ℕ × Vtree ℕ) → List Line → Option (List (ℕ × Vtree ℕ))
  | tbl, [] => some tbl
  | tbl, l :: ls =>
    match l.read tbl with
    | some e => readLines (e :: tbl) ls
    | none => none

/-- Read a vtree file: the header announces the number of nodes and the last line is the root. -/
def load : Export → Option (Vtree ℕ)
  | .oneVariable => some (.var 1)
  | .file n ls =>
    if ls.length = n then
      match readLines [] ls with
      | some ((_, t) :: _) => some t
      | _ => none
    else none

/-- The line's own id. -/
def Line.id : Line → ℕ
  | .leaf i _ => i
  | .inner i _ _ => i

theorem readLines_append (tbl : List (ℕ × Vtree ℕ)) (a b : List Line) :
    readLines tbl (a ++ b) = (readLines tbl a).bind fun t => readLines t b := by
  induction a generalizing tbl with
  | nil => rfl
  | cons l a ih =>
    simp only [List.cons_append, readLines]
    cases l.read tbl with
    | none => rfl
    | some e => exact ih _

/-- The vtree with literals replaced by their numbers. -/
def mapVar (f : α → ℕ) : Vtree α → Vtree ℕ
  | empty => empty
  | var v => var (f v)
  | split l r => split (l.mapVar f) (r.mapVar f)

theorem number_id (t : Vtree α) (h : t.Full) (n : ℕ) :
    (t.number n).2 = n + t.count ∧ (t.number n).1.id? = .ok (n + t.count - 1) := by
  induction t generalizing n with
  | empty => exact h.elim
  | var v => exact ⟨rfl, rfl⟩
  | split l r il ir =>
    have hl := il h.1 n
    have hr := ir h.2 (n + l.count)
    simp only [number, count, hl, hr, Numbered.id?]
    exact ⟨by omega, congrArg Except.ok (by omega)⟩

theorem lines_spec [BEq α] [LawfulBEq α] {varnums : List (α × ℕ)} {f : α → ℕ} {t : Vtree α} (hf : t.Full)
    (hv : ∀ v ∈ t.leaves, varnums.lookup v = some (f v)) (n : ℕ) :
    ∃ ls, lines varnums (t.number n).1 = .ok ls ∧ ls.map Line.id = List.range' n t.count ∧
      ∀ tbl, ∃ new, readLines tbl ls = some ((n + t.count - 1, t.mapVar f) :: new ++ tbl) ∧
        ∀ k ∈ new.map (·.1), n ≤ k ∧ k < n + t.count - 1 := by
  induction t generalizing n with
  | empty => exact hf.elim
  | var v =>
    refine ⟨[.leaf n (f v)], ?_, rfl, fun tbl => ⟨[], rfl, by simp⟩⟩
    simp [number, lines, hv v (by simp [leaves])]
  | split l r il ir =>
    obtain ⟨la, l1, l2, l3⟩ := il hf.1 (fun v h => hv v (by simp [leaves, h])) n
    obtain ⟨ra, r1, r2, r3⟩ := ir hf.2 (fun v h => hv v (by simp [leaves, h])) (n + l.count)
    have nl := number_id l hf.1 n
    have nr := number_id r hf.2 (n + l.count)
    have cl := count_full hf.1
    have cr := count_full hf.2
    have lpos : 0 < l.count := by
      rcases l with _ | v | ⟨a, b⟩
      · exact hf.1.elim
      · simp [count]
      · simp [count]
    have rpos : 0 < r.count := by
      rcases r with _ | v | ⟨a, b⟩
      · exact hf.2.elim
      · simp [count]
      · simp [count]
    refine ⟨la ++ ra ++ [.inner (n + l.count + r.count) (n + l.count - 1) (n + l.count + r.count - 1)], ?_, ?_, ?_⟩
    · simp only [number, lines, nl, nr, l1, r1]
    · simp only [List.map_append, l2, r2, List.map_cons, List.map_nil, Line.id, count]
      rw [List.range'_append_1, List.range'_1_concat, Nat.add_assoc]
    · intro tbl
      obtain ⟨la', lb, lc⟩ := l3 tbl
      obtain ⟨ra', rb, rc⟩ := r3 ((n + l.count - 1, l.mapVar f) :: la' ++ tbl)
      refine ⟨(n + l.count + r.count - 1, r.mapVar f) :: ra' ++ ((n + l.count - 1, l.mapVar f) :: la'), ?_, ?_⟩
      · rw [readLines_append, readLines_append, lb, Option.bind_some, rb, Option.bind_some]
        have e1 : List.lookup (n + l.count + r.count - 1)
            ((n + l.count + r.count - 1, r.mapVar f) :: ra' ++ ((n + l.count - 1, l.mapVar f) :: la' ++ tbl)) =
            some (r.mapVar f) := by simp [List.lookup]
        have e2 : List.lookup (n + l.count - 1)
            ((n + l.count + r.count - 1, r.mapVar f) :: ra' ++ ((n + l.count - 1, l.mapVar f) :: la' ++ tbl)) =
            some (l.mapVar f) := by
          have hra : ∀ (xs : List (ℕ × Vtree ℕ)) (ys : List (ℕ × Vtree ℕ)), (∀ k ∈ xs.map (·.1), n + l.count ≤ k) →
              List.lookup (n + l.count - 1) (xs ++ (n + l.count - 1, l.mapVar f) :: ys) = some (l.mapVar f) := by
            intro xs ys hx
            induction xs with
            | nil => simp [List.lookup]
            | cons x xs ih =>
              have hx1 := hx x.1 (by simp)
              have hne : (n + l.count - 1 == x.1) = false := beq_eq_false_iff_ne.mpr (by omega)
              obtain ⟨x1, x2⟩ := x
              simp only [List.cons_append, List.lookup, hne]
              exact ih fun k hk => hx k (by simp only [List.map_cons, List.mem_cons]; exact Or.inr hk)
          refine hra ((n + l.count + r.count - 1, r.mapVar f) :: ra') (la' ++ tbl) ?_
          intro k hk
          simp only [List.map_cons, List.mem_cons] at hk
          rcases hk with rfl | hk
          · omega
          · exact (rc k hk).1
        simp only [readLines, Line.read, e1, e2]
        simp [mapVar, count]
        omega
      · intro k hk
        simp only [List.map_append, List.map_cons, List.mem_append, List.mem_cons] at hk
        simp only [count]
        rcases hk with (rfl | hk) | (rfl | hk)
        · omega
        · have := rc k hk
          omega
        · omega
        · have := lc k hk
          omega

/-- **C50**, export: the written file, read by an independent reader of the documented syntax, is the vtree with its
literals replaced by their numbers. Ids are `0..n-1` in order, children before parents, and the header is right. -/
theorem toPysdd_load [BEq α] [LawfulBEq α] {varnums : List (α × ℕ)} {f : α → ℕ} {t : Vtree α} (hf : t.Full)
    (hv : ∀ v ∈ t.leaves, varnums.lookup v = some (f v)) :
    ∃ ls, t.toPysdd varnums = .ok (.file t.count ls) ∧ load (.file t.count ls) = some (t.mapVar f) ∧
      ls.map Line.id = List.range t.count := by
  obtain ⟨ls, h1, h2, h3⟩ := lines_spec hf hv 0
  have hne : varnums ≠ [] := by
    rintro rfl
    have : 0 < t.leaves.length := by have := count_full hf; omega
    obtain ⟨v, hv'⟩ := List.exists_mem_of_length_pos this
    simpa using hv v hv'
  refine ⟨ls, ?_, ?_, by rw [h2, List.range_eq_range']⟩
  · cases varnums with
    | nil => exact absurd rfl hne
    | cons p ps => simp only [toPysdd, h1]
  · have hl : ls.length = t.count := by
      have := congrArg List.length h2
      simpa using this
    obtain ⟨new, h4, -⟩ := h3 []
    simp only [load, hl, if_true, h4, List.cons_append]

/-- A literal without a number is a KeyError, never a wrong file. -/
theorem lines_missing [BEq α] [LawfulBEq α] {varnums : List (α × ℕ)} {t : Vtree α} (hf : t.Full) (n : ℕ)
    (hv : ∃ v ∈ t.leaves, varnums.lookup v = none) : lines varnums (t.number n).1 = .error .keyError := by
  have total : ∀ (t : Vtree α) (n : ℕ), t.Full → (∃ ls, lines varnums (t.number n).1 = .ok ls) ∨
      lines varnums (t.number n).1 = .error .keyError := by
    intro t
    induction t with
    | empty => intro n h; exact h.elim
    | var v =>
      intro n _
      simp only [number, lines]
      cases varnums.lookup v
      · right; rfl
      · left; exact ⟨_, rfl⟩
    | split l r il ir =>
      intro n h
      have nl := number_id l h.1 n
      have nr := number_id r h.2 (n + l.count)
      simp only [number, lines, nl, nr]
      rcases il n h.1 with ⟨a, ha⟩ | ha
      · rw [ha]
        rcases ir (n + l.count) h.2 with ⟨b, hb⟩ | hb
        · left; rw [hb]; exact ⟨_, rfl⟩
        · right; rw [hb]
      · right; rw [ha]
  induction t generalizing n with
  | empty => exact hf.elim
  | var v =>
    obtain ⟨w, hw, hn⟩ := hv
    simp only [leaves, List.mem_singleton] at hw
    subst hw
    simp [number, lines, hn]
  | split l r il ir =>
    obtain ⟨v, hv, hn⟩ := hv
    have nl := number_id l hf.1 n
    simp only [number, lines, nl]
    rcases List.mem_append.mp hv with h | h
    · rw [il hf.1 n ⟨v, h, hn⟩]
    · rw [ir hf.2 (n + l.count) ⟨v, h, hn⟩]
      rcases total l n hf.1 with ⟨a, ha⟩ | ha <;> rw [ha]

/-- A vtree with an empty child cannot be exported: `VtreeEmpty` never receives an id. -/
theorem toPysdd_empty_child : (split (var 7) empty : Vtree ℕ).toPysdd [(7, 1)] = .error .attributeError := by
  decide +kernel

theorem full_of_createBalanced {vs : List α} (h : vs ≠ []) (pl : Bool) : (createBalanced vs pl).Full := by
  cases vs with
  | nil => exact absurd rfl h
  | cons v vs => exact (createBalanced_correct v vs pl).2.1

/-- The hypotheses of `toPysdd_load` are met by a concrete balanced vtree of five literals. -/
example : (createBalanced [10, 20, 30, 40, 50] true).toPysdd [(10, 1), (20, 2), (30, 3), (40, 4), (50, 5)] =
    .ok (.file 9 [.leaf 0 1, .leaf 1 2, .inner 2 0 1, .leaf 3 3, .inner 4 2 3, .leaf 5 4, .leaf 6 5, .inner 7 5 6,
      .inner 8 4 7]) := by
  decide +kernel

end Vtree
end Pywmi
