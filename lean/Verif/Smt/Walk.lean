import Verif.Smt.Formula

/-!
# Walkers over formulas

Model of /repo/pywmi/smt_walk.py.  The body of a walker method is a `Prog`: a deterministic
program that can recursively call `walk_smt` and continue with the result.  This captures open
recursion (`self.walk_smt`), so that the uncached walker (`SmtWalker`) and the cached one
(`CachedSmtWalker`) interpret *the same* method bodies.
-/

namespace Pywmi

/-- Body of a walker method: return, raise, or call `self.walk_smt` and continue. -/
inductive Prog (I R : Type) where
  | done (r : R)
  | fail (e : PyErr)
  | call (i : I) (k : R → Prog I R)

namespace Prog
variable {I R : Type}

/-- Run a method body with the recursive calls answered by `g`. -/
def interp (g : I → Except PyErr R) : Prog I R → Except PyErr R
  | .done r => .ok r
  | .fail e => .error e
  | .call i k =>
    match g i with
    | .ok r => interp g (k r)
    | .error e => .error e

/-- Lift an exception-or-value into a method body. -/
def ofExcept : Except PyErr R → Prog I R
  | .ok r => .done r
  | .error e => .fail e

/-- `walk_smt_multiple` (/repo/pywmi/smt_walk.py:50-51): walk the formulas left to right, then
continue with the list of results. -/
def callAll : List I → (List R → Prog I R) → Prog I R
  | [], k => k []
  | a :: as, k => .call a fun r => callAll as fun rs => k (r :: rs)

/-- All recursive calls of the body are on arguments of size below `n`. -/
def CallsBelow (μ : I → ℕ) (n : ℕ) : Prog I R → Prop
  | .done _ => True
  | .fail _ => True
  | .call i k => μ i < n ∧ ∀ r, (k r).CallsBelow μ n

/-- Map a list through a function that can raise, left to right. -/
def mapE (g : I → Except PyErr R) : List I → Except PyErr (List R)
  | [] => .ok []
  | a :: as =>
    match g a with
    | .ok r =>
      match mapE g as with
      | .ok rs => .ok (r :: rs)
      | .error e => .error e
    | .error e => .error e

theorem mapE_ok {g : I → Except PyErr R} {h : I → R} {as : List I}
    (H : ∀ a ∈ as, g a = .ok (h a)) : mapE g as = .ok (as.map h) := by
  induction as with
  | nil => rfl
  | cons a as ih =>
    simp [mapE, H a (by simp), ih fun x hx => H x (by simp [hx])]

theorem interp_callAll (g : I → Except PyErr R) (as : List I) (k : List R → Prog I R) :
    interp g (callAll as k) =
      match mapE g as with
      | .ok rs => interp g (k rs)
      | .error e => .error e := by
  induction as generalizing k with
  | nil => rfl
  | cons a as ih =>
    simp only [callAll, interp, mapE]
    cases g a with
    | error e => rfl
    | ok r =>
      simp only [ih]
      cases mapE g as <;> rfl

@[simp] theorem interp_ofExcept (g : I → Except PyErr R) (x : Except PyErr R) :
    interp g (ofExcept x) = x := by cases x <;> rfl

theorem callsBelow_ofExcept (μ : I → ℕ) (n : ℕ) (x : Except PyErr R) :
    (ofExcept x : Prog I R).CallsBelow μ n := by cases x <;> trivial

theorem callsBelow_callAll {μ : I → ℕ} {n : ℕ} {as : List I} {k : List R → Prog I R}
    (h : ∀ a ∈ as, μ a < n) (hk : ∀ rs, (k rs).CallsBelow μ n) :
    (callAll as k).CallsBelow μ n := by
  induction as generalizing k with
  | nil => exact hk []
  | cons a as ih =>
    exact ⟨h a (by simp), fun r => ih (fun x hx => h x (by simp [hx])) fun rs => hk _⟩

theorem interp_congr {μ : I → ℕ} {n : ℕ} {g g' : I → Except PyErr R} {p : Prog I R}
    (hp : p.CallsBelow μ n) (h : ∀ i, μ i < n → g i = g' i) : interp g p = interp g' p := by
  induction p with
  | done r => rfl
  | fail e => rfl
  | call i k ih =>
    simp only [interp, h i hp.1]
    cases g' i with
    | ok r => exact ih r (hp.2 r)
    | error e => rfl

end Prog

section Run
variable {I R : Type}

/-- Uncached `walk_smt` with recursion depth limit `n` (the limit is never hit, see
`run_enough`). -/
def run (body : I → Prog I R) : ℕ → I → Except PyErr R
  | 0, _ => .error .fuel
  | n + 1, i => (body i).interp (run body n)

/-- Every recursive call is on a smaller argument. -/
def Decreasing (body : I → Prog I R) (μ : I → ℕ) : Prop := ∀ i, (body i).CallsBelow μ (μ i)

/-- Uncached `walk_smt`. -/
def walkOn (body : I → Prog I R) (μ : I → ℕ) (i : I) : Except PyErr R := run body (μ i + 1) i

theorem run_enough {body : I → Prog I R} {μ : I → ℕ} (hd : Decreasing body μ) :
    ∀ n i, μ i < n → run body n i = walkOn body μ i := by
  intro n
  induction n using Nat.strong_induction_on with
  | _ n ih =>
    intro i hi
    obtain ⟨m, rfl⟩ : ∃ m, n = m + 1 := ⟨n - 1, by omega⟩
    unfold walkOn
    simp only [run]
    apply Prog.interp_congr (hd i)
    intro j hj
    rw [ih m (by omega) j (by omega)]
    by_cases hm : μ i = m
    · rw [hm, ih m (by omega) j (by omega)]
    · rw [ih (μ i) (by omega) j hj]

/-- The defining equation of `walk_smt`: run the method body with `walk_smt` itself answering
the recursive calls. -/
theorem walkOn_eq {body : I → Prog I R} {μ : I → ℕ} (hd : Decreasing body μ) (i : I) :
    walkOn body μ i = (body i).interp (walkOn body μ) := by
  conv_lhs => unfold walkOn
  simp only [run]
  exact Prog.interp_congr (hd i) fun j hj => run_enough hd _ _ hj

end Run

section Cached
variable {I R Key : Type} [DecidableEq Key]

/-- Interpretation of a method body when recursive calls go through the cache.  The cache is kept
when an exception is raised, as in Python. -/
def cinterp (g : I → List (Key × R) → Except PyErr R × List (Key × R)) :
    Prog I R → List (Key × R) → Except PyErr R × List (Key × R)
  | .done r, c => (.ok r, c)
  | .fail e, c => (.error e, c)
  | .call i k, c =>
    match g i c with
    | (.ok r, c') => cinterp g (k r) c'
    | (.error e, c') => (.error e, c')

/-- `CachedSmtWalker.walk_smt` (/repo/pywmi/smt_walk.py:103-110).  A later entry for a key shadows an earlier
one (Python overwrites the dictionary entry). -/
def crun (body : I → Prog I R) (key : I → Key) :
    ℕ → I → List (Key × R) → Except PyErr R × List (Key × R)
  | 0, _, c => (.error .fuel, c)
  | n + 1, i, c =>
    match c.lookup (key i) with
    | some r => (.ok r, c)
    | none =>
      match cinterp (crun body key n) (body i) c with
      | (.ok r, c') => (.ok r, (key i, r) :: c')
      | (.error e, c') => (.error e, c')

/-- Cached `walk_smt`. -/
def cwalk (body : I → Prog I R) (μ : I → ℕ) (key : I → Key) (i : I) (c : List (Key × R)) :
    Except PyErr R × List (Key × R) := crun body key (μ i + 1) i c

/-- A history of calls to `walk_smt` on one cached walker object: the answers, and the final cache. -/
def chistory (body : I → Prog I R) (μ : I → ℕ) (key : I → Key) :
    List I → List (Key × R) → List (Except PyErr R) × List (Key × R)
  | [], c => ([], c)
  | i :: is, c =>
    let (r, c') := cwalk body μ key i c
    let (rs, c'') := chistory body μ key is c'
    (r :: rs, c'')

/-- Every cache entry holds the uncached answer for every argument with that key. -/
def CacheSound (body : I → Prog I R) (μ : I → ℕ) (key : I → Key) (c : List (Key × R)) : Prop :=
  ∀ i r, c.lookup (key i) = some r → walkOn body μ i = .ok r

theorem cinterp_sound {body : I → Prog I R} {μ : I → ℕ} {key : I → Key} {n : ℕ}
    {g : I → List (Key × R) → Except PyErr R × List (Key × R)}
    (hg : ∀ i c, μ i < n → CacheSound body μ key c →
      (g i c).1 = walkOn body μ i ∧ CacheSound body μ key (g i c).2)
    (p : Prog I R) (hp : p.CallsBelow μ n) :
    ∀ c, CacheSound body μ key c →
      (cinterp g p c).1 = p.interp (walkOn body μ) ∧ CacheSound body μ key (cinterp g p c).2 := by
  induction p with
  | done r => intro c hc; exact ⟨rfl, hc⟩
  | fail e => intro c hc; exact ⟨rfl, hc⟩
  | call i k ih =>
    intro c hc
    obtain ⟨h1, h2⟩ := hg i c hp.1 hc
    simp only [cinterp, Prog.interp, ← h1]
    rcases hgi : g i c with ⟨_ | r, c'⟩
    · rw [hgi] at h2; exact ⟨rfl, h2⟩
    · rw [hgi] at h2; exact ih r (hp.2 r) c' h2

theorem crun_sound {body : I → Prog I R} {μ : I → ℕ} (hd : Decreasing body μ) {key : I → Key}
    (hkey : ∀ i j, key i = key j → walkOn body μ i = walkOn body μ j) :
    ∀ n i c, μ i < n → CacheSound body μ key c →
      (crun body key n i c).1 = walkOn body μ i ∧ CacheSound body μ key (crun body key n i c).2 := by
  intro n
  induction n with
  | zero => intro i c h; omega
  | succ n ih =>
    intro i c hi hc
    simp only [crun]
    cases hl : c.lookup (key i) with
    | some r => exact ⟨(hc i r hl).symm, hc⟩
    | none =>
      have hb : (body i).CallsBelow μ (μ i) := hd i
      obtain ⟨h1, h2⟩ := cinterp_sound (body := body) (μ := μ) (key := key) (n := μ i)
        (g := crun body key n) (fun j c' hj hc' => ih j c' (by omega) hc') (body i) hb c hc
      rw [← walkOn_eq hd] at h1
      rcases hgi : cinterp (crun body key n) (body i) c with ⟨_ | r, c'⟩
      · rw [hgi] at h1 h2; exact ⟨h1, h2⟩
      · rw [hgi] at h1 h2
        refine ⟨h1, ?_⟩
        intro j r' hj
        simp only [List.lookup_cons] at hj
        split at hj
        · rename_i heq
          have : key j = key i := by simpa using heq
          rw [hkey j i this, ← h1]
          simpa using hj
        · exact h2 j r' hj

end Cached

/-! ### The dispatch of `SmtWalker` -/

/-- `smt.Not` of pysmt: removes a double negation. -/
def mkNot : Formula → Formula
  | .not a => a
  | f => .not f

/-- `smt.And` of pysmt (`f1 & f2` is the two-element case). -/
def mkAnd : List Formula → Formula
  | [] => .boolC true
  | [a] => a
  | as => .and as

/-- `smt.Or` of pysmt. -/
def mkOr : List Formula → Formula
  | [] => .boolC false
  | [a] => a
  | as => .or as

/-- `smt.Plus` of pysmt; no argument is an error. -/
def mkPlus : List Formula → Except PyErr Formula
  | [] => .error .typeError
  | [a] => .ok a
  | as => .ok (.plus as)

/-- `smt.Times` of pysmt; no argument is an error. -/
def mkTimes : List Formula → Except PyErr Formula
  | [] => .error .typeError
  | [a] => .ok a
  | as => .ok (.times as)

/-- `smt.Pow` of pysmt: the exponent must be a constant; a constant base is evaluated (only natural
exponents are modelled for that case). -/
def mkPow (b e : Formula) : Except PyErr Formula :=
  match e with
  | .realC q =>
    match b with
    | .realC c => if q.den = 1 ∧ 0 ≤ q.num then .ok (.realC (c ^ q.num.toNat)) else .error .other
    | _ => .ok (.pow b e)
  | _ => .error .valueError

/-- The methods of an `SmtWalker` subclass (/repo/pywmi/smt_walk.py:7-51).  `walk_constant` is split by
type. -/
structure Walker (R : Type) where
  onAnd : List Formula → Prog Formula R
  onOr : List Formula → Prog Formula R
  onNot : Formula → Prog Formula R
  onTimes : List Formula → Prog Formula R
  onPlus : List Formula → Prog Formula R
  onMinus : Formula → Formula → Prog Formula R
  onIte : Formula → Formula → Formula → Prog Formula R
  onPow : Formula → Formula → Prog Formula R
  onLte : Formula → Formula → Prog Formula R
  onLt : Formula → Formula → Prog Formula R
  onEquals : Formula → Formula → Prog Formula R
  onSymbol : String → Ty → Prog Formula R
  onBool : Bool → Prog Formula R
  onReal : ℚ → Prog Formula R
  /-- default `walk_implies` (/repo/pywmi/smt_walk.py:47-48) -/
  onImplies : Formula → Formula → Prog Formula R :=
    fun l r => .call (mkOr [mkNot l, r]) .done

namespace Walker
variable {R : Type}

/-- `SmtWalker.walk_smt` (/repo/pywmi/smt_walk.py:53-95): the dispatch on the node kind. -/
def dispatch (w : Walker R) : Formula → Prog Formula R
  | .and as => w.onAnd as
  | .or as => w.onOr as
  | .implies l r => w.onImplies l r
  | .not a => w.onNot a
  | .times as => w.onTimes as
  | .plus as => w.onPlus as
  | .minus l r => w.onMinus l r
  | .ite c t e => w.onIte c t e
  | .pow b e => w.onPow b e
  | .le l r => w.onLte l r
  | .lt l r => w.onLt l r
  | .equals l r => w.onEquals l r
  | .sym n t => w.onSymbol n t
  | .boolC b => w.onBool b
  | .realC q => w.onReal q
  | .iff l r => w.onAnd [.implies l r, .implies r l]

end Walker

namespace Formula

mutual
/-- Size measure under which all recursive calls of the walkers decrease (including the rewritten calls
for implications, equivalences and differences). -/
def msize : Formula → ℕ
  | .and as => 1 + msizeList as
  | .or as => 1 + msizeList as
  | .implies l r => msize l + msize r + 5
  | .not a => msize a + 1
  | .times as => 1 + msizeList as
  | .plus as => 1 + msizeList as
  | .minus l r => msize l + msize r + 9
  | .ite c t e => msize c + msize t + msize e + 1
  | .pow b e => msize b + msize e + 1
  | .le l r => msize l + msize r + 1
  | .lt l r => msize l + msize r + 1
  | .equals l r => msize l + msize r + 1
  | .iff l r => msize l + msize r + 6
  | .sym _ _ => 1
  | .boolC _ => 1
  | .realC _ => 1
/-- Size of an argument list. -/
def msizeList : List Formula → ℕ
  | [] => 0
  | a :: as => msize a + 1 + msizeList as
end

theorem msize_lt_of_mem {a : Formula} {as : List Formula} (h : a ∈ as) :
    msize a < 1 + msizeList as := by
  induction as with
  | nil => cases h
  | cons b as ih =>
    simp only [msizeList]
    rcases List.mem_cons.mp h with rfl | h'
    · omega
    · have := ih h'; omega

theorem msize_mkNot (a : Formula) : msize (mkNot a) ≤ msize a + 1 := by
  unfold mkNot; split
  · simp only [msize]; omega
  · simp only [msize]; omega

theorem msize_impl (l r : Formula) : msize (mkOr [mkNot l, r]) < msize (.implies l r) := by
  have := msize_mkNot l
  simp only [mkOr, msize, msizeList]; omega

end Formula

namespace Walker
variable {R : Type}
/-- `walk_smt` of an (uncached) walker. -/
def walk (w : Walker R) (f : Formula) : Except PyErr R := walkOn w.dispatch Formula.msize f

/-- The walker only recurses into smaller formulas. -/
def Decr (w : Walker R) : Prop := Decreasing w.dispatch Formula.msize

theorem walk_eq {w : Walker R} (h : w.Decr) (f : Formula) :
    w.walk f = (w.dispatch f).interp w.walk := walkOn_eq h f
end Walker

section
variable {K : Type} [Field K] [LinearOrder K]
open Formula

@[simp] theorem truth_mkNot (σ : Env K) (a : Formula) : truth σ (mkNot a) = !truth σ a := by
  unfold mkNot; split <;> simp [truth]
@[simp] theorem truth_mkAnd (σ : Env K) (as : List Formula) :
    truth σ (mkAnd as) = as.all (truth σ) := by
  unfold mkAnd; split <;> simp [truth, truthAll_eq]
@[simp] theorem truth_mkOr (σ : Env K) (as : List Formula) :
    truth σ (mkOr as) = as.any (truth σ) := by
  unfold mkOr; split <;> simp [truth, truthAny_eq]
theorem value_mkPlus {σ : Env K} {as : List Formula} {f : Formula} (h : mkPlus as = .ok f) :
    value σ f = (as.map (value σ)).sum := by
  unfold mkPlus at h; split at h <;> simp at h <;> subst h <;> simp [value, valueSum_eq]
theorem value_mkTimes {σ : Env K} {as : List Formula} {f : Formula} (h : mkTimes as = .ok f) :
    value σ f = (as.map (value σ)).prod := by
  unfold mkTimes at h; split at h <;> simp at h <;> subst h <;> simp [value, valueProd_eq]
theorem mkPlus_ok {as : List Formula} (h : as ≠ []) : ∃ f, mkPlus as = .ok f := by
  unfold mkPlus; split <;> simp_all
theorem mkTimes_ok {as : List Formula} (h : as ≠ []) : ∃ f, mkTimes as = .ok f := by
  unfold mkTimes; split <;> simp_all
end
end Pywmi

namespace Pywmi.Walker
open Formula
variable {R : Type}

/-- Sufficient conditions for a walker to recurse only into smaller formulas. -/
theorem decr_of {w : Walker R}
    (hAnd : ∀ as n, (∀ a ∈ as, msize a < n) → (w.onAnd as).CallsBelow msize n)
    (hOr : ∀ as n, (∀ a ∈ as, msize a < n) → (w.onOr as).CallsBelow msize n)
    (hTimes : ∀ as n, (∀ a ∈ as, msize a < n) → (w.onTimes as).CallsBelow msize n)
    (hPlus : ∀ as n, (∀ a ∈ as, msize a < n) → (w.onPlus as).CallsBelow msize n)
    (hNot : ∀ a n, msize a < n → (w.onNot a).CallsBelow msize n)
    (hMinus : ∀ l r, (w.onMinus l r).CallsBelow msize (msize (.minus l r)))
    (hIte : ∀ c t e n, msize c < n → msize t < n → msize e < n →
      (w.onIte c t e).CallsBelow msize n)
    (hPow : ∀ l r n, msize l < n → msize r < n → (w.onPow l r).CallsBelow msize n)
    (hLte : ∀ l r n, msize l < n → msize r < n → (w.onLte l r).CallsBelow msize n)
    (hLt : ∀ l r n, msize l < n → msize r < n → (w.onLt l r).CallsBelow msize n)
    (hEquals : ∀ l r n, msize l < n → msize r < n → (w.onEquals l r).CallsBelow msize n)
    (hSym : ∀ m t n, (w.onSymbol m t).CallsBelow msize n)
    (hBool : ∀ b n, (w.onBool b).CallsBelow msize n)
    (hReal : ∀ q n, (w.onReal q).CallsBelow msize n)
    (hImpl : ∀ l r, (w.onImplies l r).CallsBelow msize (msize (.implies l r))) : w.Decr := by
  intro f
  cases f with
  | and as => exact hAnd as _ fun a ha => by simpa [msize] using msize_lt_of_mem ha
  | or as => exact hOr as _ fun a ha => by simpa [msize] using msize_lt_of_mem ha
  | times as => exact hTimes as _ fun a ha => by simpa [msize] using msize_lt_of_mem ha
  | plus as => exact hPlus as _ fun a ha => by simpa [msize] using msize_lt_of_mem ha
  | implies l r => exact hImpl l r
  | not a => exact hNot a _ (by simp [msize])
  | minus l r => exact hMinus l r
  | ite c t e =>
    exact hIte c t e (msize (.ite c t e)) (by simp only [msize]; omega)
      (by simp only [msize]; omega) (by simp only [msize]; omega)
  | pow l r =>
    exact hPow l r (msize (.pow l r)) (by simp only [msize]; omega) (by simp only [msize]; omega)
  | le l r =>
    exact hLte l r (msize (.le l r)) (by simp only [msize]; omega) (by simp only [msize]; omega)
  | lt l r =>
    exact hLt l r (msize (.lt l r)) (by simp only [msize]; omega) (by simp only [msize]; omega)
  | equals l r =>
    exact hEquals l r (msize (.equals l r)) (by simp only [msize]; omega) (by simp only [msize]; omega)
  | sym n t => exact hSym n t _
  | boolC b => exact hBool b _
  | realC q => exact hReal q _
  | iff l r =>
    refine hAnd _ _ fun a ha => ?_
    rcases List.mem_cons.mp ha with rfl | ha
    · simp only [msize]; omega
    · rcases List.mem_cons.mp ha with rfl | ha
      · simp only [msize]; omega
      · cases ha

theorem implies_default_below (l r : Formula) :
    (Prog.call (mkOr [mkNot l, r]) Prog.done : Prog Formula R).CallsBelow msize
      (msize (.implies l r)) := ⟨msize_impl l r, fun _ => trivial⟩

end Pywmi.Walker
