import Mathlib.Tactic.IntervalCases
import Verif.Cli.Install

/-!
# C95: what the installation utility leaves behind
-/

namespace Pywmi

set_option linter.unusedSimpArgs false

/-! ### Specification -/

/-- SPEC: the file the server offers. -/
def JarServer.jar (net : JarServer) : List ℕ := net.blocks.flatten

/-- SPEC: the download goes through. -/
def JarServer.Up (net : JarServer) : Prop := net.reachable = true ∧ net.breaks = false

/-- SPEC: the server offers (a part of) the file `full`, all of it if the download goes through. -/
def JarServer.Offers (full : List ℕ) (net : JarServer) : Prop :=
  net.jar <+: full ∧ (net.Up → net.jar = full)

/-- SPEC: states of the file that calls of the command can leave, each of them possibly interrupted at any moment. -/
inductive JarHist (full : List ℕ) : JarFile → Prop
  | start : JarHist full none
  | run {j j' : JarFile} (found : Component → Bool) (net : JarServer) (a : InstallArgs) : JarHist full j →
      net.Offers full → j' ∈ (installMain found net j a).states j → JarHist full j'

/-- SPEC: as above, but every call runs to its end and every connection lasts. -/
inductive JarCalm (full : List ℕ) : JarFile → Prop
  | start : JarCalm full none
  | run {j : JarFile} (found : Component → Bool) (net : JarServer) (a : InstallArgs) : JarCalm full j →
      net.Offers full → net.breaks = false → JarCalm full (lastState j ((installMain found net j a).states j))

/-! ### Lemmas -/

theorem copyStates_mem {bs : List (List ℕ)} : ∀ {s : List ℕ} {x : JarFile}, x ∈ copyStates s bs →
    ∃ c, x = some c ∧ s <+: c ∧ c <+: s ++ bs.flatten := by
  induction bs with
  | nil => intro s x h; simp [copyStates] at h
  | cons b bs ih =>
    intro s x h
    simp only [copyStates, List.mem_cons] at h
    rcases h with rfl | h
    · exact ⟨_, rfl, List.prefix_append .., by simp [← List.append_assoc]⟩
    · obtain ⟨c, h1, h2, h3⟩ := ih h
      exact ⟨c, h1, (List.prefix_append s b).trans h2, by simpa [List.append_assoc] using h3⟩

theorem copyStates_last (bs : List (List ℕ)) : ∀ s : List ℕ,
    lastState (some s) (copyStates s bs) = some (s ++ bs.flatten) := by
  induction bs with
  | nil => intro s; simp [copyStates, lastState]
  | cons b bs ih =>
    intro s
    have := ih (s ++ b)
    rw [lastState] at this ⊢
    rw [copyStates, List.getLast?_cons, Option.getD_some, this]
    simp

theorem lastState_append (j : JarFile) (a b : List JarFile) : lastState j (a ++ b) = lastState (lastState j a) b := by
  simp only [lastState, List.getLast?_append]
  cases b.getLast? <;> simp

theorem lastState_cons (j x : JarFile) (b : List JarFile) : lastState j (x :: b) = lastState x b := by
  rw [show x :: b = [x] ++ b from rfl, lastState_append]; rfl

theorem download_last {net : JarServer} (j : JarFile) (h : net.reachable = true) :
    lastState j (downloadJar net).2 = some net.jar := by
  rw [downloadJar, if_pos h, lastState_cons, copyStates_last]; simp [JarServer.jar]

theorem download_mem {net : JarServer} {x : JarFile} (h : x ∈ (downloadJar net).2) :
    ∃ c, x = some c ∧ c <+: net.jar := by
  rw [downloadJar] at h
  split at h
  · simp only [List.mem_cons] at h
    rcases h with rfl | h
    · exact ⟨[], rfl, List.nil_prefix⟩
    · obtain ⟨c, h1, -, h3⟩ := copyStates_mem h
      exact ⟨c, h1, by simpa [JarServer.jar] using h3⟩
  · simp at h

theorem download_ok {net : JarServer} : (downloadJar net).1 = .ok () ↔ net.Up := by
  cases hr : net.reachable <;> cases hb : net.breaks <;> simp [downloadJar, JarServer.Up, hr, hb]

/-! ### Property theorems -/

/-- C95: a run that asks for the solver (and does not find it, or is told to replace it, or removed it before) leaves
exactly the file of the server, and reports success exactly if the download went through. -/
theorem install_complete (up rm : Bool) (net : JarServer) (j : JarFile) (h : j = none ∨ up = true ∨ rm = true) :
    ((installXadd up rm net j).result = .ok () ↔ net.Up) ∧
    ((installXadd up rm net j).result = .ok () → (installXadd up rm net j).after = some net.jar) := by
  have key : (installXadd up rm net j).result = (downloadJar net).1 ∧
      ∃ l, (installXadd up rm net j).states = l ++ (downloadJar net).2 := by
    cases up <;> cases rm <;> cases j <;> simp_all [installXadd] <;> first
      | exact ⟨[none], rfl⟩ | exact ⟨[_, none], rfl⟩ | exact ⟨[_], rfl⟩
  obtain ⟨k1, l, k2⟩ := key
  rw [k1]
  refine ⟨download_ok, fun hu => ?_⟩
  rw [InstallRun.after, k2, lastState_append]
  exact download_last _ (download_ok.mp hu).1

/-- C95: a run without `--force` and `--remove` never touches a file that is there, at no moment. -/
theorem install_keeps (net : JarServer) (c : List ℕ) : (installXadd false false net (some c)).result = .ok () ∧
    ∀ x ∈ (installXadd false false net (some c)).states, x = some c := by simp [installXadd]

/-- C95: with `--force` and a server that is not reached the old file stays, at every moment. -/
theorem install_force_unreachable (net : JarServer) (j : JarFile) (h : net.reachable = false) :
    ∀ x ∈ (installXadd true false net j).states, x = j := by simp [installXadd, downloadJar, h]

/-- C95: what any interruption can leave: the old file, no file (only after `--remove`), or a beginning of the server's
file. -/
theorem install_moments (up rm : Bool) (net : JarServer) (j x : JarFile) (h : x ∈ (installXadd up rm net j).states) :
    x = j ∨ (x = none ∧ rm = true) ∨ ∃ c, x = some c ∧ c <+: net.jar := by
  have aux : x = j ∨ (x = none ∧ rm = true) ∨ x ∈ (downloadJar net).2 := by
    cases up <;> cases rm <;> cases j <;> simp [installXadd] at h ⊢ <;> tauto
  rcases aux with h | h | h
  · exact .inl h
  · exact .inr (.inl h)
  · exact .inr (.inr (download_mem h))

/-- C95: commands other than `xadd`, the listing among them, never touch the file. -/
theorem install_others (found : Component → Bool) (net : JarServer) (j : JarFile) (a : InstallArgs)
    (h : a.solver ≠ some "xadd") : ∀ x ∈ (installMain found net j a).states j, x = j := by
  intro x hx
  unfold installMain at hx
  split at hx
  · simpa [InstallAct.states] using hx
  · simpa [h, InstallAct.states] using hx

/-- C95: after any history of calls, interrupted wherever, the file is absent or a beginning of the offered file. -/
theorem install_history {full : List ℕ} {j : JarFile} (h : JarHist full j) : ∀ c, j = some c → c <+: full := by
  induction h with
  | start => simp
  | @run j j' found net a _ ho hm ih =>
    intro c hc
    by_cases hs : a.solver = some "xadd"
    · have : j' ∈ (installXadd a.force a.remove net j).states := by
        simpa [installMain, hs, InstallAct.states] using hm
      rcases install_moments _ _ _ _ _ this with h | ⟨h, -⟩ | ⟨c', h, hp⟩
      · exact ih c (h ▸ hc)
      · rw [h] at hc; cases hc
      · rw [h] at hc; cases hc; exact hp.trans ho.1
    · exact ih c (install_others found net j a hs j' hm ▸ hc)

/-- C95, part of the claim that an installed file is complete: it is if no call is interrupted and no connection
breaks.  `install_interrupted` shows that the rest fails. -/
theorem install_calm_partial {full : List ℕ} {j : JarFile} (h : JarCalm full j) (hc : checkJar j = true) : j = some full := by
  suffices j = none ∨ j = some full by
    rcases this with h | h
    · rw [h] at hc; cases hc
    · exact h
  clear hc
  induction h with
  | start => exact .inl rfl
  | @run j found net a _ ho hb ih =>
    by_cases hs : a.solver = some "xadd"
    · have e : (installMain found net j a).states j = (installXadd a.force a.remove net j).states := by
        simp [installMain, hs, InstallAct.states]
      rw [e]
      cases hr : net.reachable with
      | false =>
        cases a.force <;> cases a.remove <;> cases j <;> simp_all [installXadd, downloadJar, lastState]
      | true =>
        have hu : net.Up := ⟨hr, hb⟩
        by_cases hk : j = none ∨ a.force = true ∨ a.remove = true
        · obtain ⟨h1, h2⟩ := install_complete a.force a.remove net j hk
          right
          have := h2 (h1.mpr hu)
          rw [ho.2 hu] at this
          rw [← this, InstallRun.after]
          cases hf : a.force <;> cases hm : a.remove <;> cases j <;>
            simp_all [installXadd, lastState_cons]
        · push Not at hk
          obtain ⟨hj, hf, hm⟩ := hk
          obtain ⟨c, rfl⟩ := Option.ne_none_iff_exists'.mp hj
          simp only [Bool.not_eq_true] at hf hm
          rw [hf, hm]
          simpa [installXadd, lastState] using ih
    · have h1 : (installMain found net j a).states j = [j] := by
        unfold installMain
        split
        · rfl
        · simp [hs, InstallAct.states]
      rw [h1]; simpa [lastState] using ih

/-- C95: an interrupted download looks installed, and stays: the check accepts every state after `open`, and calls
without options never change it again, whatever the server offers. -/
theorem install_interrupted (net : JarServer) (j : JarFile) (hr : net.reachable = true) (hj : j = none)
    (hne : net.jar ≠ []) : ∃ x ∈ (installXadd false false net j).states, x ≠ some net.jar ∧ checkJar x = true ∧
      ∀ later : JarServer, (installXadd false false later x).after = x ∧
        (installXadd false false later x).result = .ok () := by
  subst hj
  refine ⟨some [], by simp [installXadd, downloadJar, hr], fun h => hne (Option.some.inj h).symm, rfl, fun later => ?_⟩
  simp [installXadd, InstallRun.after, lastState]

/-- C95: `--force` repairs every state. -/
theorem install_force_repairs (net : JarServer) (j : JarFile) (hu : net.Up) :
    (installXadd true false net j).result = .ok () ∧ (installXadd true false net j).after = some net.jar :=
  have h := install_complete true false net j (.inr (.inl rfl))
  ⟨h.1.mpr hu, h.2 (h.1.mpr hu)⟩

/-- C95: `--remove` does not remove: with a reachable server the file is there afterwards, even if it was not before. -/
theorem install_remove_restores (up : Bool) (net : JarServer) (j : JarFile) (hr : net.reachable = true) :
    checkJar (installXadd up true net j).after = true := by
  have : (installXadd up true net j).after = some net.jar := by
    have := fun j' => download_last (net := net) j' hr
    cases up <;> cases j <;> simp [installXadd, InstallRun.after, lastState_cons, this]
  rw [this]; rfl

/-- C95, part of the claim that `--remove` removes: it does if the server is not reached, and then reports an error. -/
theorem install_remove_partial (up : Bool) (net : JarServer) (j : JarFile) (hr : net.reachable = false) :
    checkJar (installXadd up true net j).after = false ∧ (installXadd up true net j).result = .error .osError := by
  cases up <;> cases j <;> simp [installXadd, InstallRun.after, lastState, downloadJar, hr, checkJar]

/-- SPEC: the first cells of the rows that `pywmi-install --list` prints. -/
def listedNames (found : Component → Bool) (net : JarServer) (j : JarFile) : List String :=
  match installMain found net j ⟨none, false, false, true⟩ with
  | .table _ rows => rows.map fun r => r.headD ""
  | _ => []

/-- C95: the listing: a row per solver; a solver is ticked exactly if every component it lists is found; a cell is "-"
exactly if the component is not one of its own, and else ticked exactly if it is found; the headers tick the found
components. -/
theorem install_listing (found : Component → Bool) (net : JarServer) (j : JarFile) (a : InstallArgs)
    (h : a.solver = none) (hl : a.list = true) : ∃ hd rows, installMain found net j a = .table hd rows ∧
    rows.length = 4 ∧ hd.length = 6 ∧
    ∀ i < 4, ∃ s deps row, listedSolvers[i]? = some (s, deps) ∧ rows[i]? = some row ∧
      (row[0]? = some (s ++ " (v)") ↔ ∀ c ∈ deps, found c = true) ∧
      (row[0]? = some (s ++ " (x)") ↔ ∃ c ∈ deps, found c = false) ∧
      ∀ k < 5, ∃ c, componentOrder[k]? = some c ∧
        (row[k + 1]? = some "-" ↔ c ∉ deps) ∧ (row[k + 1]? = some "v" ↔ c ∈ deps ∧ found c = true) ∧
        (row[k + 1]? = some "x" ↔ c ∈ deps ∧ found c = false) ∧
        (hd[k + 1]? = some (c.name ++ " (v)") ↔ found c = true) := by
  refine ⟨_, _, by unfold installMain; rw [if_pos ⟨h, hl⟩], rfl, rfl, fun i hi => ?_⟩
  generalize hp : found .psi = p
  generalize hq : found .latte = q
  generalize hs : found .smtSolver = s
  generalize hg : found .gurobi = g
  generalize hx : found .xaddJar = x
  have hk : ∀ {P : ℕ → Prop}, P 0 → P 1 → P 2 → P 3 → P 4 → ∀ k < 5, P k := by
    intro P h0 h1 h2 h3 h4 k hk; interval_cases k <;> assumption
  interval_cases i
  all_goals
    refine ⟨_, _, _, rfl, rfl, ?_, ?_, hk ⟨_, rfl, ?_⟩ ⟨_, rfl, ?_⟩ ⟨_, rfl, ?_⟩ ⟨_, rfl, ?_⟩ ⟨_, rfl, ?_⟩⟩
  all_goals
    simp [listRow, listHeaders, listedSolvers, componentOrder, tick, Component.name, hp, hq, hs, hg, hx]
    try (clear hp hq hs hg hx; cases p <;> cases q <;> cases s <;> cases g <;> cases x <;> decide)

/-- C95, part of the claim that the listing tells which solvers can be used: it does for pa and XSDD, and for
XADD where an SMT solver is found. -/
theorem install_listing_right_partial (found : Component → Bool) (net : JarServer) (j : JarFile) :
    ("pa (v)" ∈ listedNames found net j ↔ checkPa found = true) ∧
    ("pa (x)" ∈ listedNames found net j ↔ checkPa found = false) ∧
    ("XSDD (v)" ∈ listedNames found net j ↔ found .psi = true) ∧
    ("XSDD (x)" ∈ listedNames found net j ↔ found .psi = false) ∧
    ("XADD (v)" ∈ listedNames found net j ↔ checkXadd found = true ∧ found .smtSolver = true) := by
  generalize hp : found .psi = p
  generalize hq : found .latte = q
  generalize hs : found .smtSolver = s
  generalize hg : found .gurobi = g
  generalize hx : found .xaddJar = x
  simp only [listedNames, installMain, listRow, listedSolvers, checkPa, checkXadd, List.map, List.all_cons, List.all_nil, hp, hq, hs,
    hg, hx, and_self, if_true, List.headD_cons]
  clear * -
  revert p q s g x
  decide

/-- C95: the listing ticks pyxadd without PSI, which the check for pyxadd asks for, and crosses XADD out without an SMT
solver, which neither the check nor the constructor of the engine ask for. -/
theorem install_listing_wrong : ∃ found found' : Component → Bool, ∀ (net : JarServer) (j : JarFile),
    ("pyxadd (v)" ∈ listedNames found net j ∧ checkPyxadd found = false) ∧
    ("XADD (x)" ∈ listedNames found' net j ∧ checkXadd found' = true) :=
  ⟨fun c => decide (c = .smtSolver), fun c => decide (c ≠ .smtSolver), fun _ _ => by
    simp only [listedNames, installMain, and_self, if_true]; decide⟩

/-! ### Concrete cases -/

/-- EXAMPLE: a server with a file of three blocks. -/
def jarNet : JarServer := ⟨true, [[80, 75], [3, 4], [0]], false⟩

/-- CONCRETE: the hypotheses are met: the server is up, offers its file, and a first call installs it in a calm history. -/
theorem install_concrete : jarNet.Up ∧ jarNet.Offers [80, 75, 3, 4, 0] ∧ JarCalm [80, 75, 3, 4, 0] (some [80, 75, 3, 4, 0]) ∧
    JarHist [80, 75, 3, 4, 0] (some [80, 75]) ∧ (installXadd false false jarNet none).states =
      [none, some [], some [80, 75], some [80, 75, 3, 4], some [80, 75, 3, 4, 0]] := by
  have ho : jarNet.Offers [80, 75, 3, 4, 0] := ⟨by decide, fun _ => by decide⟩
  refine ⟨⟨rfl, rfl⟩, ho, ?_, ?_, by decide⟩
  · exact JarCalm.run (fun _ => true) jarNet ⟨some "xadd", false, false, false⟩ .start ho rfl
  · exact JarHist.run (fun _ => true) jarNet ⟨some "xadd", false, false, false⟩ .start ho (by decide)

end Pywmi
