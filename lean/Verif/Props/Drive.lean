import Verif.Proofs.DriveEnd

/-!
# Properties C85-C88: the threads of the search

`DReach` are the states that any number of threads running the loop of `stabilization_search`
(src/search.cc:700-1047) can reach, in any interleaving and with a signal at any time; see Model/Drive.
-/

set_option linter.unusedSectionVars false

namespace Verif.Props
open Verif.Spec Verif.Model Verif.Proofs

variable {σ τ : ℕ → Type} [∀ i, Fintype (σ i)] [∀ i, DecidableEq (σ i)] [∀ i, DecidableEq (τ i)] {ρ : Type}

section
variable {cfg : SynCfg σ τ ρ} {n : ℕ} {opt : DriveOpt} {N : ℕ}

theorem repR_some {sh : Shared} {T : Finset ℕ} (h : ¬ ∀ l ∈ repR opt sh, ¬ l.toFinset ⊆ T) :
    opt.asConflict = true ∧ ∃ acts ∈ sh.reports, acts.toFinset ⊆ T := by
  push Not at h
  obtain ⟨l, hl, hs⟩ := h
  unfold repR at hl
  split at hl
  · rename_i hc
    exact ⟨hc, l, hl, hs⟩
  · simp at hl

/-- **C85.** In every reachable state of any number of threads: no `Claim` has failed; `solution_found` is set if
and only if a solution was reported, and then `ret_actions` is the last one reported; every reported solution
contains the given actions, consists of given actions and candidates, makes every system stabilize as required, and
contains no declared conflict and no rejected action (if `max_conflict_sz` is no smaller than those); and no conflict
in the shared database or in that of a thread is part of a solution, except for a solution that contains a reported
one when `solution_as_conflict` is set. -/
theorem C85_driver_sound (hS : OpenSetting cfg n) (h1 : 1 ≤ n) (h2 : n ≤ 2) {rng : Fin N → ρ} {s : DState σ ρ N}
    (h : DReach cfg opt n N rng s) :
    (∀ p, (s.th p).phase ≠ .abort) ∧
    (s.sh.found = true ↔ s.sh.reports ≠ []) ∧
    (s.sh.found = true → s.sh.reports.getLast? = some s.sh.ret) ∧
    (∀ acts ∈ s.sh.reports, acts.Nodup ∧ (∀ a ∈ cfg.given, a ∈ acts) ∧
      (∀ a ∈ acts, a ∈ cfg.given ∨ ∃ i < n, a ∈ cfg.cands i) ∧
      (∀ i < n, Meets ((taskOf cfg n).demand i) (acts.toFinset.biUnion (cfg.actXn i))) ∧
      ((cfg.maxConflictSz = 0 ∨ ∀ B, (taskOf cfg n).banned B → B.card ≤ cfg.maxConflictSz) →
        ∀ B, (taskOf cfg n).banned B → ¬ B ⊆ acts.toFinset)) ∧
    ∀ fam, (fam = s.sh.fam ∨ ∃ p, fam = (s.th p).g.fam) →
      ∀ B ∈ fam.sets, ∀ T, Solves (taskOf cfg n) T → B ⊆ T →
        opt.asConflict = true ∧ ∃ acts ∈ s.sh.reports, acts.toFinset ⊆ T := by
  have hI := DReach.inv hS h1 h2 h
  refine ⟨fun p => (hI.th p).noabort, hI.sh.found, hI.sh.ret, fun acts ha => ?_, fun fam hf B hB T hT hsub => ?_⟩
  · have hF := hI.sh.reports acts ha
    exact ⟨hF.nodup, fun a ha => List.mem_toFinset.1 (hF.given (List.mem_toFinset.2 ha)), fun a ha => (hF.act a ha).1,
      hF.meets, hF.legal⟩
  · have hV : Valid (ban cfg calmTick (repR opt s.sh)) n fam := by
      rcases hf with rfl | ⟨p, rfl⟩
      · exact hI.sh.valid
      · exact (hI.th p).valid
    apply repR_some
    intro hno
    have := hV T ((sol_ban h1).2 ⟨hT, hno⟩)
    rw [conflictCk_iff.2 ⟨B, hB, hsub⟩] at this
    cases this

/-- **C86.** In every reachable state, if `done_flag` is set then there was a signal, or a solution has been
reported and `try_all` is not set, or nothing is left to be found: every solution contains a reported one (with
`solution_as_conflict`), or there is none. -/
theorem C86_driver_exhaustive (hS : OpenSetting cfg n) (h1 : 1 ≤ n) (h2 : n ≤ 2) {rng : Fin N → ρ} {s : DState σ ρ N}
    (h : DReach cfg opt n N rng s) (hd : s.sh.done = true) :
    s.signal = true ∨ (s.sh.found = true ∧ opt.tryAll = false) ∨
    ∀ T, Solves (taskOf cfg n) T → opt.asConflict = true ∧ ∃ acts ∈ s.sh.reports, acts.toFinset ⊆ T := by
  rcases (DReach.inv hS h1 h2 h).sh.why hd with h | h | h
  · exact .inl h
  · exact .inr (.inl h)
  · refine .inr (.inr fun T hT => repR_some fun hno => h T ((sol_ban h1).2 ⟨hT, hno⟩))

/-- A run of `k` steps. -/
theorem reach_run {rng : Fin N → ρ} {e : ℕ → DState σ ρ N} {k : ℕ} (h0 : e 0 = driveInit cfg n N rng)
    (hk : ∀ i < k, DStep cfg opt (e i) (e (i + 1))) : ∀ i ≤ k, DReach cfg opt n N rng (e i) := by
  intro i
  induction i with
  | zero => intro _; rw [h0]; exact .refl
  | succ i ih => exact fun hi => .tail (ih (by omega)) (hk i (by omega))

/-- **C87.** Without limits on the depth and on the size of conflicts the threads end: a run of `N` threads has at
most `N * 5 * (2 ^ (number of actions) + 3) + 1` steps.  No thread is ever stuck before its end.  This holds
for every `max_height`. -/
theorem C87_driver_ends (hS : OpenSetting cfg n) (h1 : 1 ≤ n) (h2 : n ≤ 2) (hR : Restarts cfg n opt)
    {rng : Fin N → ρ} :
    (∀ (e : ℕ → DState σ ρ N) (k : ℕ), e 0 = driveInit cfg n N rng →
      (∀ i < k, DStep cfg opt (e i) (e (i + 1))) →
      k ≤ N * (5 * (2 ^ (cfg.given.toFinset ∪ (Finset.range n).biUnion fun i => (cfg.cands i).toFinset).card + 3)) + 1) ∧
    ∀ s : DState σ ρ N, DReach cfg opt n N rng s → ∀ p, (s.th p).phase.over = false →
      ∃ t, DStep cfg opt s (stepAt cfg opt t p s) := by
  constructor
  · intro e k h0 hk
    have hr := reach_run h0 hk
    have hdown : ∀ i ≤ k, i + workAll cfg n (e i) ≤ workAll cfg n (e 0) := by
      intro i
      induction i with
      | zero => intro _; omega
      | succ i ih =>
        intro hi
        have := ih (by omega)
        have := DStep.work (DReach.go hS h1 h2 hR (hr i (by omega))) (hk i (by omega))
        omega
    have hall : workAll cfg n (e 0) = N * (5 * (topTrial cfg n + 3)) + 1 := by
      rw [h0]
      unfold workAll
      rw [Finset.sum_congr rfl fun p _ => (driveInit_go hS h1 h2 rng p).2]
      simp [driveInit]
    have := hdown k (le_refl k)
    rw [hall] at this
    unfold topTrial allActs at this
    omega
  · intro s hs p hp
    refine ⟨calmTick, .run s p calmTick hp (fun _ => rfl) ?_⟩
    simp only [stepAt, Function.update_self]
    exact threadStep_calm hS h1 h2 ((DReach.inv hS h1 h2 hs).th p)

/-- **C88.** When all threads are at their end, with no limits on the trials, the depth and the size of conflicts,
and no signal, then a solution has been found if there is one.  If `try_all` is set then every solution contains a
reported one, and no reported solution contains an earlier one.  This holds for every `max_height`, in particular
for the default. -/
theorem C88_driver_complete (hS : OpenSetting cfg n) (h1 : 1 ≤ n) (h2 : n ≤ 2) (hR : Restarts cfg n opt)
    (ht : opt.ntrials = 0) (hN : 0 < N) {rng : Fin N → ρ} {s : DState σ ρ N} (h : DReach cfg opt n N rng s)
    (hend : ∀ p, (s.th p).phase.over = true) (hs : s.signal = false) :
    s.sh.done = true ∧ ((∃ T, Solves (taskOf cfg n) T) → s.sh.found = true) ∧
    (opt.tryAll = true → (∀ T, Solves (taskOf cfg n) T → ∃ acts ∈ s.sh.reports, acts.toFinset ⊆ T) ∧
      s.sh.reports.Pairwise fun a b => ¬ a.toFinset ⊆ b.toFinset) := by
  have hI := DReach.inv hS h1 h2 h
  have hfin : (s.th ⟨0, hN⟩).phase = .fin := by
    have h1 := hend ⟨0, hN⟩
    have h2 := (hI.th ⟨0, hN⟩).noabort
    revert h1 h2
    generalize (s.th ⟨0, hN⟩).phase = ph
    rcases ph with _ | _ | _ | _ | _ | _ | _ <;> simp [DPhase.over]
  have hd : s.sh.done = true := (DReach.fin hS h1 h2 h _ hfin).resolve_right (by omega)
  have hw := (C86_driver_exhaustive hS h1 h2 h hd).resolve_left (by simp [hs])
  refine ⟨hd, fun ⟨T, hT⟩ => ?_, fun ha => ⟨fun T hT => ?_, (DReach.rep hR.size h).pair (hR.all ha)⟩⟩
  · rcases hw with hw | hw
    · exact hw.1
    · obtain ⟨-, acts, ha, -⟩ := hw T hT
      exact hI.sh.found.2 (List.ne_nil_of_mem ha)
  · rcases hw with hw | hw
    · rw [ha] at hw
      cases hw.2
    · exact (hw T hT).2

/-! ### Concrete runs -/

/-- The threads run in the given order; no call of `done_ck` inside of a step returns true. -/
def runSched (cfg : SynCfg σ τ ρ) (opt : DriveOpt) (l : List (Fin N)) (s : DState σ ρ N) : DState σ ρ N :=
  l.foldl (fun s p => stepAt cfg opt calmTick p s) s

theorem stepAt_over {s : DState σ ρ N} {p : Fin N} (h : (s.th p).phase.over = true) :
    stepAt cfg opt calmTick p s = s := by
  have : threadStep cfg opt calmTick s.sh (s.th p) = (s.sh, s.th p) := by
    unfold threadStep
    revert h
    generalize (s.th p).phase = ph
    rcases ph with _ | _ | _ | _ | _ | _ | _ <;> simp [DPhase.over]
  unfold stepAt
  rw [this]
  simp

theorem runSched_reach (hS : OpenSetting cfg n) (h1 : 1 ≤ n) (h2 : n ≤ 2) {rng : Fin N → ρ} :
    ∀ (l : List (Fin N)) (s : DState σ ρ N), DReach cfg opt n N rng s → DReach cfg opt n N rng (runSched cfg opt l s) := by
  intro l
  induction l with
  | nil => exact fun _ h => h
  | cons p l ih =>
    intro s h
    refine ih _ ?_
    rcases ho : (s.th p).phase.over with _ | _
    · refine .tail h (.run s p calmTick ho (fun _ => rfl) ?_)
      simp only [stepAt, Function.update_self]
      exact threadStep_calm hS h1 h2 ((DReach.inv hS h1 h2 h).th p)
    · simp only [stepAt_over ho]
      exact h

end

/-- The problem of `C79_default_height_incomplete`, with the default `max_height` 3. -/
def deepCfg : SynCfg (fun _ => Fin 4) (fun _ => Unit) Unit := tinyCfg deepAct [0, 1, 2, 4, 5, 6, 7] [] noTrim false 3

theorem deep_open : OpenSetting deepCfg 2 := tiny_open (by decide) (by decide) (by decide)

/-- The default options, with `solution_as_conflict` for `try_all`. -/
def driveOpt (all : Bool) : DriveOpt := ⟨all, all, false, 0⟩

theorem deep_restarts (all : Bool) : Restarts deepCfg 2 (driveOpt all) :=
  ⟨rfl, rfl, ⟨0, by omega, rfl⟩, fun h => h⟩

/-- What can be seen of a state. -/
def viewOf {N : ℕ} (s : DState σ ρ N) : Bool × Bool × List (List ℕ) × List ℕ × List Bool :=
  (s.sh.done, s.sh.found, s.sh.reports, (List.finRange N).map fun p => (s.th p).trial,
    (List.finRange N).map fun p => (s.th p).phase.over)

/-- One trial is not enough (`C79_default_height_incomplete`), but the restart finds the solution; two threads find
it too. -/
example : viewOf (runSched deepCfg (driveOpt false) (List.replicate 12 (0 : Fin 1)) (driveInit deepCfg 2 1 fun _ => ())) =
    (true, true, [[6, 1, 7, 2]], [2], [true]) := by decide +kernel

example : viewOf (runSched deepCfg (driveOpt false) ((List.replicate 12 [(0 : Fin 2), 1]).flatten)
    (driveInit deepCfg 2 2 fun _ => ())) = (true, true, [[6, 1, 7, 2]], [2, 2], [true, true]) := by decide +kernel

/-- With `try_all` there are three solutions, and then the search ends. -/
theorem deep_all : viewOf (runSched deepCfg (driveOpt true) (List.replicate 26 (0 : Fin 1))
    (driveInit deepCfg 2 1 fun _ => ())) =
      (true, true, [[6, 1, 7, 2], [6, 1, 7, 4], [6, 1, 7, 5]], [5], [true]) := by decide +kernel

/-- Hence every solution of this problem contains one of the three. -/
example (T : Finset ℕ) (hT : Solves (taskOf deepCfg 2) T) :
    {6, 1, 7, 2} ⊆ T ∨ {6, 1, 7, 4} ⊆ T ∨ {6, 1, 7, 5} ⊆ T := by
  have hr : DReach deepCfg (driveOpt true) 2 1 (fun _ => ()) _ :=
    runSched_reach deep_open (by omega) (by omega) (List.replicate 26 (0 : Fin 1)) _ .refl
  have hv := deep_all
  simp only [viewOf, Prod.mk.injEq] at hv
  obtain ⟨h1, h2, h3, h4, h5⟩ := hv
  have := ((C88_driver_complete deep_open (by omega) (by omega) (deep_restarts true) rfl (by omega) hr
    (fun p => by
      have : (List.finRange 1).map (fun p => ((runSched deepCfg (driveOpt true) (List.replicate 26 (0 : Fin 1))
        (driveInit deepCfg 2 1 fun _ => ())).th p).phase.over) = [true] := h5
      have hp : p = 0 := Subsingleton.elim _ _
      subst hp
      simpa [List.finRange] using this)
    rfl).2.2 rfl).1 T hT
  rw [h3] at this
  simpa using this

/-! ### What goes wrong with limits -/

/-- Five actions of one system. -/
def trimAct : ℕ → ℕ → Finset (Fin 4 × Fin 4)
  | _, 0 => {(1, 0)}
  | _, 1 => {(2, 0)}
  | _, 2 => {(3, 0)}
  | _, 3 => {(2, 1)}
  | _, 4 => {(1, 3)}
  | _, _ => ∅

/-- Actions 0 and 1 are declared to be in conflict. -/
def trimCfg (sz : ℕ) : SynCfg (fun _ => Fin 4) (fun _ => Unit) Unit :=
  { tinyCfg trimAct [0, 1, 2, 3, 4] [] noTrim false 3 with declared := fun _ => [[0, 1]], maxConflictSz := sz }

/-- **The hypothesis of C85 on `max_conflict_sz` is needed.**  After a trial `trim(max_conflict_sz)`
(src/search.cc:988) also removes the conflicts that the user has declared: the second solution that is reported
contains both of the actions 0 and 1. -/
theorem C85_trim_forgets_declared :
    (taskOf (trimCfg 1) 1).banned {0, 1} ∧
    (runSched (trimCfg 1) (driveOpt true) (List.replicate 12 (0 : Fin 1)) (driveInit (trimCfg 1) 1 1 fun _ => ())).sh.reports =
      [[2, 0, 3], [2, 0, 1]] ∧
    (runSched (trimCfg 0) (driveOpt true) (List.replicate 12 (0 : Fin 1)) (driveInit (trimCfg 0) 1 1 fun _ => ())).sh.reports =
      [[2, 0, 3], [2, 4, 1]] :=
  ⟨⟨0, by omega, .inl ⟨[0, 1], by simp [trimCfg], rfl⟩⟩, by decide +kernel, by decide +kernel⟩

/-- The problem above with `max_depth` 1. -/
def shallowCfg : SynCfg (fun _ => Fin 4) (fun _ => Unit) Unit := { deepCfg with maxDepth := 1 }

deriving instance DecidableEq for CFam
deriving instance DecidableEq for SynG
deriving instance DecidableEq for AddOut

theorem shallow_open : OpenSetting shallowCfg 2 := by
  have h := deep_open
  exact ⟨⟨fun i hi =>
    have h := h.plain.sys i hi
    ⟨h.ident, h.prob, h.direct, h.scope, h.style, h.behav, h.uniring, h.layers, h.legit, h.pick, h.shadowAct⟩,
    h.plain.fast⟩, (by intro r b hb; simp [shallowCfg, deepCfg, tinyCfg] at hb), h.pick, h.verify, h.nodup, h.declared,
    h.given, h.cand⟩

/-- A trial that fails and learns nothing is repeated forever. -/
theorem endless {cfg : SynCfg σ τ ρ} {n : ℕ} (hS : OpenSetting cfg n) (h1 : 1 ≤ n) (h2 : n ≤ 2) {opt : DriveOpt}
    (ho : opt.ntrials = 0) {r : ρ} {ps : PSyn (SRest σ)}
    (hi : initThread cfg n r = (true, ⟨.head, ⟨CFam.empty, 0, r, false⟩, ps, 0⟩))
    (hf : addStabilization (fullEnv (cfg.withTick calmTick) ps.insts) (3 ^ candTotal ps.insts + 2)
      ⟨CFam.empty, 0, r, false⟩ ps = some (.fail ⟨CFam.empty, 0, r, false⟩))
    (hm : mergeFam cfg CFam.empty CFam.empty = CFam.empty) (k : ℕ) :
    ∃ s : DState σ ρ 1, DReach cfg opt n 1 (fun _ => r) s ∧ s.sh = ⟨false, false, [], [], CFam.empty⟩ ∧
      s.th 0 = ⟨.head, ⟨CFam.empty, 0, r, false⟩, ps, k⟩ := by
  induction k with
  | zero =>
    refine ⟨_, .refl, by simp [driveInit, hi], ?_⟩
    have : (driveInit cfg n 1 fun _ => r).th 0 = (initThread cfg n r).2 := rfl
    rw [this, hi]
  | succ k ih =>
    obtain ⟨s, q1, q2, q3⟩ := ih
    refine ⟨_, runSched_reach hS h1 h2 (List.replicate 5 (0 : Fin 1)) s q1, ?_⟩
    obtain ⟨sh, sg, th⟩ := s
    simp only at q2 q3
    subst q2
    have hs : satCk CFam.empty = true := by decide
    have hi : CFam.empty.impossible = ∅ := rfl
    simp [runSched, List.replicate, stepAt, q3, threadStep, ho, hf, critFound, hm, hs, hi]

/-- **C87 needs `max_depth` 0.**  The problem of `C79_default_height_incomplete` has a solution, but with
`max_depth` 1 every trial fails at src/search.cc:103-106 without learning anything, and the loop goes on forever. -/
theorem C87_max_depth_endless (k : ℕ) : ∃ s : DState (fun _ => Fin 4) Unit 1,
    DReach shallowCfg (driveOpt false) 2 1 (fun _ => ()) s ∧ s.sh.done = false ∧ s.sh.found = false ∧
      (s.th 0).trial = k := by
  have f1 : (initThread shallowCfg 2 ()).1 = true := by decide +kernel
  have f2 : (match (initThread shallowCfg 2 ()).2.phase with | .head => true | _ => false) = true := by decide +kernel
  have f3 : (initThread shallowCfg 2 ()).2.g = ⟨CFam.empty, 0, (), false⟩ := by decide +kernel
  have f4 : (initThread shallowCfg 2 ()).2.trial = 0 := by decide +kernel
  have f5 : addStabilization (fullEnv (shallowCfg.withTick calmTick) (initThread shallowCfg 2 ()).2.ps.insts)
      (3 ^ candTotal (initThread shallowCfg 2 ()).2.ps.insts + 2) ⟨CFam.empty, 0, (), false⟩
      (initThread shallowCfg 2 ()).2.ps = some (.fail ⟨CFam.empty, 0, (), false⟩) := by decide +kernel
  have hi : ∀ t : Bool × Thread (fun _ => Fin 4) Unit, t.1 = true →
      (match t.2.phase with | .head => true | _ => false) = true → t.2.g = ⟨CFam.empty, 0, (), false⟩ → t.2.trial = 0 →
      t = (true, ⟨.head, ⟨CFam.empty, 0, (), false⟩, t.2.ps, 0⟩) := by
    rintro ⟨ok, phase, g, ps, trial⟩ e1 e2 e3 e4
    simp only at e1 e2 e3 e4
    subst e1 e3 e4
    rcases phase with _ | _ | _ | _ | _ | _ | _ <;> simp_all
  obtain ⟨s, q1, q2, q3⟩ := endless shallow_open (by omega) (by omega) (opt := driveOpt false) rfl (hi _ f1 f2 f3 f4) f5
    (by decide +kernel) k
  exact ⟨s, q1, by rw [q2], by rw [q2], by rw [q3]⟩

example : ∃ T, Solves (taskOf shallowCfg 2) T := C79_default_height_incomplete.2.1

end Verif.Props
