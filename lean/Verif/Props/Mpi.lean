import Verif.Proofs.MpiEnd
import Verif.Props.Drive

/-!
# Properties C89-C92: the processes of the distributed search

`MReach` are the states that any number of processes running the loop of `stabilization_search`
(src/main-mpi.cc:93-366) can reach, in any interleaving, with any loss, repetition and reordering of messages and
with a signal at any time; see Model/Mpi.
-/

set_option linter.unusedSectionVars false

namespace Verif.Props
open Verif.Spec Verif.Model Verif.Proofs

variable {σ τ : ℕ → Type} [∀ i, Fintype (σ i)] [∀ i, DecidableEq (σ i)] [∀ i, DecidableEq (τ i)] {ρ : Type}

section
variable {cfg : SynCfg σ τ ρ} {n : ℕ} {opt : DriveOpt} {N : ℕ}

/-- **C89.** In every reachable state of any number of processes: no `Claim` has failed; no conflict that a process
knows or has pushed to the others is part of a solution; and the actions that a process returns or reports contain
the given actions, consist of given actions and candidates, make every system stabilize as required, and contain no
declared conflict and no rejected action.  It is not assumed that the conflicts in messages are correct. -/
theorem C89_mpi_sound (hS : OpenSetting cfg n) (h1 : 1 ≤ n) (h2 : n ≤ 2) {rng : Fin N → ρ} {s : MState σ ρ N}
    (h : MReach cfg opt n N rng s) :
    (∀ p, (s.pr p).phase ≠ .abort) ∧
    (∀ B ∈ s.pool, ∀ T, Solves (taskOf cfg n) T → ¬ B ⊆ T) ∧
    (∀ p, ∀ B ∈ (s.pr p).g.fam.sets, ∀ T, Solves (taskOf cfg n) T → ¬ B ⊆ T) ∧
    ∀ p acts, (acts ∈ (s.pr p).reports ∨ ((s.pr p).found = true ∧ acts = (s.pr p).ret)) →
      acts.Nodup ∧ (∀ a ∈ cfg.given, a ∈ acts) ∧
      (∀ a ∈ acts, a ∈ cfg.given ∨ ∃ i < n, a ∈ cfg.cands i) ∧
      (∀ i < n, Meets ((taskOf cfg n).demand i) (acts.toFinset.biUnion (cfg.actXn i))) ∧
      ∀ B, (taskOf cfg n).banned B → ¬ B ⊆ acts.toFinset := by
  have hI := MReach.inv hS h1 h2 h
  refine ⟨fun p => (hI.pr p).noabort, hI.pool, fun p B hB T hT hsub => ?_, fun p acts ha => ?_⟩
  · have := (hI.pr p).valid T ((sol_nil h1).2 hT)
    rw [conflictCk_iff.2 ⟨B, hB, hsub⟩] at this
    cases this
  · have hF : MFound cfg n acts := by
      rcases ha with ha | ⟨hf, rfl⟩
      · exact (hI.pr p).reports acts ha
      · exact ((hI.pr p).ret hf).1
    exact ⟨hF.nodup, fun a ha => List.mem_toFinset.1 (hF.given (List.mem_toFinset.2 ha)), fun a ha => (hF.act a ha).1,
      hF.meets, hF.legal⟩

/-- **C90.** Without `try_all`, and without limits on the depth and on the size of conflicts, every process ends: it
makes at most `4 * (2 ^ (number of actions) + 3)` steps, whatever the other processes do in between and whether
or not messages arrive.  With a limit on the number of trials the bound is `4 * (ntrials + 3)`, for all other
options.  No process is ever stuck before its end. -/
theorem C90_mpi_ends (hS : OpenSetting cfg n) (h1 : 1 ≤ n) (h2 : n ≤ 2) {rng : Fin N → ρ} (p : Fin N) :
    (∀ (e : ℕ → MState σ ρ N) (k : ℕ), e 0 = mpiInit cfg n N rng →
      (∀ i < k, ∃ u t, Relation.ReflTransGen (MStep cfg opt) (e i) u ∧ (u.pr p).phase.over = false ∧
        MStep cfg opt u (mpiAt cfg opt t p u) ∧ e (i + 1) = mpiAt cfg opt t p u) →
      (Restarts cfg n opt → opt.tryAll = false →
        k ≤ 4 * (2 ^ (cfg.given.toFinset ∪ (Finset.range n).biUnion fun i => (cfg.cands i).toFinset).card + 3)) ∧
      (0 < opt.ntrials → k ≤ 4 * (opt.ntrials + 3))) ∧
    ∀ s : MState σ ρ N, MReach cfg opt n N rng s → (s.pr p).phase.over = false →
      ∃ t, MStep cfg opt s (mpiAt cfg opt t p s) := by
  refine ⟨fun e k h0 hk => ⟨fun hR hta => ?_, fun hn => ?_⟩, fun s hs hp => ?_⟩
  · refine mpi_bound hS h1 h2 (M := topTrial cfg n) p (fun s hs hp => ?_) h0 hk
    have := MReach.go hS h1 h2 hR hta hs p
    unfold ProcGo at this
    rw [hp] at this
    exact this.1
  · refine mpi_bound hS h1 h2 (M := opt.ntrials) p (fun s hs hp => ?_) h0 hk
    have := MReach.count hS h1 h2 hn hs p
    unfold ProcCount at this
    rw [hp] at this
    exact Nat.le_of_lt this
  · exact ⟨calmTick, .run s p calmTick hp (fun _ b hb => by simp [calmTick] at hb) (fun _ h => by simp [calmTick] at h)⟩

/-- **C91.** The choice at the end: all processes compute the same number; it is -1 if no process has found a
solution; otherwise, if the number of layers of every solution is positive, it is the number of a process that
has found a solution, with the fewest layers, and the first such process. -/
theorem C91_elect (x : Fin N → Bool × ℕ) (hpos : ∀ q, (x q).1 = true → 0 < (x q).2) (p : Fin N) :
    (∀ q, elect x p = elect x q) ∧ (elect x p = -1 ↔ ∀ q, (x q).1 = false) ∧
    ∀ q : Fin N, elect x p = q.val ↔ (x q).1 = true ∧
      ∀ r, (x r).1 = true → (x q).2 < (x r).2 ∨ ((x q).2 = (x r).2 ∧ q ≤ r) := by
  have key : (∀ q, (x q).1 = false) ∨ ∃ q, (x q).1 = true := by
    by_cases h : ∃ q, (x q).1 = true
    · exact .inr h
    · push Not at h
      exact .inl fun q => by simpa using h q
  refine ⟨elect_same x p, ⟨fun h => key.resolve_right fun hq => ?_, elect_none x p⟩, fun q => ⟨fun h => ?_, fun h => ?_⟩⟩
  · obtain ⟨q, h1, -⟩ := elect_some x hpos p hq
    rw [h] at h1
    omega
  · rcases key with hno | hq
    · rw [elect_none x p hno] at h
      omega
    · obtain ⟨q', h1, h2⟩ := elect_some x hpos p hq
      have : q' = q := Fin.ext (by omega)
      exact this ▸ h2
  · obtain ⟨q', h1, h2, h3⟩ := elect_some x hpos p ⟨q, h.1⟩
    have a := h.2 q' h2
    have b := h3 q h.1
    have : q' = q := Fin.ext (by
      rw [Fin.le_def] at a b
      omega)
    rw [h1, this]

/-- What a process contributes to the choice. -/
def bid (s : MState σ ρ N) (q : Fin N) : Bool × ℕ := ((s.pr q).found, (s.pr q).nlayers)

/-- **C92.** When one process is at its end, without `try_all`, without a limit on the trials and without a signal,
then some process has found a solution or there is none.  When the choice is made after that, its result is -1 only if
no process has found anything and there is no solution, and otherwise the number of a process whose `ret_actions`
contain the given actions, make every system stabilize as required and contain no declared conflict and no
rejected action.  This holds for every `max_height`. -/
theorem C92_mpi_complete (hS : OpenSetting cfg n) (h1 : 1 ≤ n) (h2 : n ≤ 2) (hta : opt.tryAll = false)
    (ht : opt.ntrials = 0) {rng : Fin N → ρ} {s : MState σ ρ N} (h : MReach cfg opt n N rng s) {p : Fin N}
    (hend : (s.pr p).phase.over = true) (hs : s.signal = false) :
    ((∃ T, Solves (taskOf cfg n) T) → ∃ q, (s.pr q).found = true) ∧
    (elect (bid s) p = -1 → (∀ q, (s.pr q).found = false) ∧ ¬ ∃ T, Solves (taskOf cfg n) T) ∧
    (elect (bid s) p ≠ -1 → ∃ q : Fin N, elect (bid s) p = q.val ∧ (∀ a ∈ cfg.given, a ∈ (s.pr q).ret) ∧
      (∀ i < n, Meets ((taskOf cfg n).demand i) ((s.pr q).ret.toFinset.biUnion (cfg.actXn i))) ∧
      ∀ B, (taskOf cfg n).banned B → ¬ B ⊆ (s.pr q).ret.toFinset) := by
  have hI := MReach.inv hS h1 h2 h
  have hfin : (s.pr p).phase = .fin := by
    have h2 := (hI.pr p).noabort
    revert hend h2
    generalize (s.pr p).phase = ph
    rcases ph with _ | _ | _ | _ | _ | _ <;> simp [MPhase.over]
  have hterm : s.term = true := (hI.pr p).stop ((MReach.fin hS h1 h2 h p hfin).resolve_right (by omega))
  have hpos : ∀ q, (bid s q).1 = true → 0 < (bid s q).2 := fun q hq => ((hI.pr q).ret hq).2
  have himp : (∃ T, Solves (taskOf cfg n) T) → ∃ q, (s.pr q).found = true := by
    rintro ⟨T, hT⟩
    rcases hI.why hterm with h | h | h | h
    · rw [hs] at h; cases h
    · exact h.2
    · rw [hta] at h; cases h.1
    · exact absurd hT (h T)
  have hno := (C91_elect (bid s) hpos p).2.1
  refine ⟨himp, fun he => ?_, fun he => ?_⟩
  · have hall : ∀ q, (s.pr q).found = false := hno.1 he
    refine ⟨hall, fun hT => ?_⟩
    obtain ⟨q, hq⟩ := himp hT
    rw [hall q] at hq
    cases hq
  · rw [ne_eq, hno] at he
    push Not at he
    obtain ⟨q, hq⟩ := he
    obtain ⟨q, q1, q2, -⟩ := elect_some (bid s) hpos p ⟨q, by simpa using hq⟩
    have hF := ((hI.pr q).ret q2).1
    exact ⟨q, q1, fun a ha => List.mem_toFinset.1 (hF.given (List.mem_toFinset.2 ha)), hF.meets, hF.legal⟩

/-- **C92 needs that `try_all` is not set.**  With `try_all`, no limit on the trials and no signal, a process never
ends if there is a solution: a solution becomes a conflict in `conflicts`, which the search does not look at
(it uses `synctx.conflicts`), so nothing is ever exhausted.  The threads of the other driver do end (C87, C88). -/
theorem C92_try_all_endless (hS : OpenSetting cfg n) (h1 : 1 ≤ n) (h2 : n ≤ 2) (hta : opt.tryAll = true)
    (ht : opt.ntrials = 0) (hT : ∃ T, Solves (taskOf cfg n) T) {rng : Fin N → ρ} {s : MState σ ρ N}
    (h : MReach cfg opt n N rng s) (hs : s.signal = false) (p : Fin N) :
    (s.pr p).phase.over = false ∧ s.term = false := by
  have hI := MReach.inv hS h1 h2 h
  obtain ⟨T, hT⟩ := hT
  have hterm : ¬ s.term = true := by
    intro hterm
    rcases hI.why hterm with h | h | h | h
    · rw [hs] at h; cases h
    · rw [hta] at h; cases h.1
    · omega
    · exact h T hT
  refine ⟨?_, by simpa using hterm⟩
  have h2' := (hI.pr p).noabort
  have h3 : (s.pr p).phase ≠ .fin := fun hf =>
    hterm ((hI.pr p).stop ((MReach.fin hS h1 h2 h p hf).resolve_right (by omega)))
  revert h2' h3
  generalize (s.pr p).phase = ph
  rcases ph with _ | _ | _ | _ | _ | _ <;> simp [MPhase.over]

/-- **C91 needs that the number of layers is positive.**  A process that has found a solution with
`solution_nlayers_sum` 0 is not chosen: the result is -1, as if there were no solution.  This is so with
`RankShuffleSearch` and with the task `VerifyTask`, which do not set `optimal_nlayers_sum`. -/
theorem C91_zero_layers : elect (fun _ : Fin 2 => (true, 0)) 0 = -1 ∧
    elect (fun q : Fin 2 => if q = 0 then (true, 0) else (true, 3)) 0 = -1 := by decide

example : elect (fun q : Fin 4 => ([(false, 0), (true, 5), (true, 3), (true, 3)] : List _)[q]) 0 = 2 := by decide

/-! ### Concrete runs -/

/-- The processes run in the given order; `true` means that everything that has been pushed is delivered. -/
def mpiSched (cfg : SynCfg σ τ ρ) (opt : DriveOpt) (l : List (Fin N × Bool)) (s : MState σ ρ N) : MState σ ρ N :=
  l.foldl (fun s x => mpiAt cfg opt (fun r => (r, if x.2 then s.pool else [], s.term)) x.1 s) s

theorem mpiAt_over {t : ρ → ρ × List (Finset ℕ) × Bool} {s : MState σ ρ N} {p : Fin N}
    (h : (s.pr p).phase.over = true) : mpiAt cfg opt t p s = s := by
  have : mpiStep cfg opt t (s.pr p) = (false, s.pr p) := by
    unfold mpiStep
    revert h
    generalize (s.pr p).phase = ph
    rcases ph with _ | _ | _ | _ | _ | _ <;> simp [MPhase.over]
  unfold mpiAt
  rw [this]
  simp

theorem mpiSched_reach {rng : Fin N → ρ} : ∀ (l : List (Fin N × Bool)) (s : MState σ ρ N), MReach cfg opt n N rng s →
    MReach cfg opt n N rng (mpiSched cfg opt l s) := by
  intro l
  induction l with
  | nil => exact fun _ h => h
  | cons x l ih =>
    intro s h
    refine ih _ ?_
    rcases ho : (s.pr x.1).phase.over with _ | _
    · refine .tail h (.run s x.1 _ ho (fun _ b hb => ?_) fun _ h => h)
      simp only at hb
      split at hb
      · exact hb
      · simp at hb
    · simp only [mpiAt_over ho]
      exact h

/-- What can be seen of a state. -/
def mpiView (s : MState σ ρ N) : Bool × List (Bool × List ℕ × ℕ) × List ℕ × List Bool :=
  (s.term, (List.finRange N).map fun p => ((s.pr p).found, (s.pr p).ret, (s.pr p).nlayers),
    (List.finRange N).map fun p => (s.pr p).trial, (List.finRange N).map fun p => (s.pr p).phase.over)

end

/-- Two processes; the first one has made its first trial, which fails with the default `max_height`, and has
learned that action 0 is useless. -/
def triedState : MState (fun _ => Fin 4) Unit 2 :=
  mpiSched deepCfg (driveOpt false) [(0, false), (0, false)] (mpiInit deepCfg 2 2 fun _ => ())

/-- Then it pushes that. -/
def toldState : MState (fun _ => Fin 4) Unit 2 := { triedState with pool := [{0}] }

theorem told_reach : MReach deepCfg (driveOpt false) 2 2 (fun _ => ()) toldState := by
  have hr : MReach deepCfg (driveOpt false) 2 2 (fun _ => ()) triedState := mpiSched_reach _ _ .refl
  have h1 : (triedState.pr 0).phase.over = false := by decide +kernel
  have h2 : ({0} : Finset ℕ) ∈ (mpiStep deepCfg (driveOpt false) calmTick (triedState.pr 0)).2.g.fam.sets := by
    decide +kernel
  have := Relation.ReflTransGen.tail hr (.emit triedState 0 calmTick {0} h1 (fun _ b hb => by simp [calmTick] at hb)
    ⟨{0}, h2, Finset.Subset.refl _⟩)
  exact this

/-- The second process receives it, and finds a solution in its first trial; then both end. -/
def doneState : MState (fun _ => Fin 4) Unit 2 :=
  mpiSched deepCfg (driveOpt false) [(1, true), (1, true), (1, true), (0, false), (1, false), (0, false), (1, false), (0, false)]
    toldState

theorem done_view : mpiView doneState =
    (true, [(false, [], 0), (true, [6, 1, 7, 2], 8)], [1, 1], [true, true]) := by decide +kernel

/-- Without the message it fails. -/
example : mpiView (mpiSched deepCfg (driveOpt false) [(1, false), (1, false), (1, false)] toldState) =
    (false, [(false, [], 0), (false, [], 0)], [0, 0], [false, false]) := by decide +kernel

theorem done_reach : MReach deepCfg (driveOpt false) 2 2 (fun _ => ()) doneState := mpiSched_reach _ _ told_reach

/-- The hypotheses of C89 and C92 hold here, and both processes know that the second one has a solution. -/
example : (elect (bid doneState) 0 = 1 ∧ elect (bid doneState) 1 = 1) ∧
    ∀ i < 2, Meets ((taskOf deepCfg 2).demand i) (({6, 1, 7, 2} : Finset ℕ).biUnion (deepCfg.actXn i)) := by
  have h0 : (doneState.pr 1).found = true := by decide +kernel
  have h1 : (doneState.pr 1).ret = [6, 1, 7, 2] := by decide +kernel
  refine ⟨by decide +kernel, fun i hi => ?_⟩
  have := ((C89_mpi_sound deep_open (by omega) (by omega) done_reach).2.2.2 1 _ (.inr ⟨h0, rfl⟩)).2.2.2.1 i hi
  rw [h1] at this
  simpa using this

example : (∃ T, Solves (taskOf deepCfg 2) T) → ∃ q, (doneState.pr q).found = true :=
  (C92_mpi_complete deep_open (by omega) (by omega) rfl rfl done_reach (p := 0) (by decide +kernel) (by decide +kernel)).1

/-- C90 for this problem: a process makes at most 524 steps. -/
example (e : ℕ → MState (fun _ => Fin 4) Unit 2) (k : ℕ) (h0 : e 0 = mpiInit deepCfg 2 2 fun _ => ())
    (hk : ∀ i < k, ∃ u t, Relation.ReflTransGen (MStep deepCfg (driveOpt false)) (e i) u ∧ (u.pr 0).phase.over = false ∧
      MStep deepCfg (driveOpt false) u (mpiAt deepCfg (driveOpt false) t 0 u) ∧
      e (i + 1) = mpiAt deepCfg (driveOpt false) t 0 u) : k ≤ 524 :=
  (((C90_mpi_ends deep_open (by omega) (by omega) 0).1 e k h0 hk).1 (deep_restarts false) rfl).trans (by decide +kernel)

/-- With `try_all` the search for the solutions of this problem does not end, though there are only three that do not
contain another one (`deep_all`).  The process finds the same one again and again. -/
example {s : MState (fun _ => Fin 4) Unit 2} (h : MReach deepCfg (driveOpt true) 2 2 (fun _ => ()) s)
    (hs : s.signal = false) : (s.pr 0).phase.over = false :=
  (C92_try_all_endless deep_open (by omega) (by omega) rfl rfl C79_default_height_incomplete.2.1 h hs 0).1

example : mpiView (mpiSched deepCfg (driveOpt true) (List.replicate 24 ((0 : Fin 1), true)) (mpiInit deepCfg 2 1 fun _ => ())) =
      (false, [(true, [6, 1, 7, 2], 8)], [6], [false]) ∧
    ((mpiSched deepCfg (driveOpt true) (List.replicate 24 ((0 : Fin 1), true)) (mpiInit deepCfg 2 1 fun _ => ())).pr 0).reports =
      [[6, 1, 7, 2]] := by decide +kernel

end Verif.Props
