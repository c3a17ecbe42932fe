import Verif.Model.Drive

/-!
Model of the driver of the distributed search: `stabilization_search` of src/main-mpi.cc:93-366, for the task
`SearchTask` with the method `BacktrackSearch`.

The processes share no memory.  They exchange conflicts and the order to terminate with `MpiDissem` (library `cx`,
not available).  What is assumed of it: `xtest` delivers only messages that some process has pushed, `done_ck`
returns true only if some process has called `terminate`, and after a call of `terminate` the `done_ck` of the same
process returns true.  Messages may be lost, repeated and reordered, and nothing is said about when `done_ck`
returns true in other processes.

A step of a process is one of the parts of its loop.  A process receives and pushes messages in the middle of a step,
when it calls `done_ck`, so steps of different processes do not simply follow each other.  A push in the middle of a step
is a step `emit` of its own: a beginning of the step is carried out (the calls of `done_ck` return true from some
point on), a conflict that is known then is pushed, and the process stays where it is.  The step itself is
placed at its end.

Left out: conflicts read from a file and written to one (`conflicts_xfilepath`, `conflicts_ofilepath`),
`solution_guesses`, `optimize_soln`, `RankShuffleSearch`, the other tasks, and what is printed.
-/

set_option linter.unusedSectionVars false

namespace Verif.Model

variable {σ τ : ℕ → Type} [∀ i, Fintype (σ i)] [∀ i, DecidableEq (σ i)] [∀ i, DecidableEq (τ i)] {ρ : Type}

/-- Where a process is: at the test of the loop (src/main-mpi.cc:182), before the choice of the method (186), behind the
search with its result (221), before the end of the loop (284), behind the loop; `abort` is a failed `Claim`. -/
inductive MPhase where
  | head
  | search
  | tried (out : Option (List ℕ))
  | prune
  | fin
  | abort

/-- The variables of a process: `synctx` without `base_partial`, `base_partial`, `trial_idx`, `solution_found`,
`ret_actions`, `solution_nlayers_sum`, `conflicts`; `reports` lists the actions that are counted as solutions and,
with `try_all`, written to files (src/main-mpi.cc:224-246). -/
structure Proc (σ : ℕ → Type) [∀ i, Fintype (σ i)] [∀ i, DecidableEq (σ i)] (ρ : Type) where
  phase : MPhase
  g : SynG ρ
  ps : PSyn (SRest σ)
  trial : ℕ
  found : Bool
  ret : List ℕ
  nlayers : ℕ
  own : CFam
  reports : List (List ℕ)

/-- `mpi_dissem->terminate()`: from now on `done_ck` returns true in this process. -/
def Proc.halt (l : Proc σ ρ) : Proc σ ρ := { l with g := { l.g with stop := true } }

/-- src/main-mpi.cc:223-259, after the call of `done_ck` returned false; also whether `terminate` is called. -/
def mpiFound (cfg : SynCfg σ τ ρ) (opt : DriveOpt) (out : Option (List ℕ)) (l : Proc σ ρ) : Bool × Proc σ ρ :=
  match out with
  | none => if satCk l.g.fam then (false, l) else (true, l.halt)
  | some acts =>
    if opt.asConflict && conflictCk l.own acts.toFinset then (false, l)
    else
      let l := { l with
        own := if opt.asConflict then cfg.learn acts.toFinset l.own else l.own
        reports := l.reports ++ [acts] }
      if opt.tryAll then (false, l) else (true, l.halt)

/-- One step of a process that is not at its end, and whether it calls `terminate`.  `t` tells what the calls of
`done_ck` do during the step. -/
def mpiStep (cfg : SynCfg σ τ ρ) (opt : DriveOpt) (t : ρ → ρ × List (Finset ℕ) × Bool) (l : Proc σ ρ) : Bool × Proc σ ρ :=
  match l.phase with
  | .fin => (false, l)
  | .abort => (false, l)
  | .head => -- src/main-mpi.cc:182, 297-298
    let r := pollG (cfg.withTick t) l.g
    if r.2 ∨ (0 < opt.ntrials ∧ opt.ntrials ≤ l.trial) then (opt.tryAll, { l with g := r.1, phase := .fin })
    else (false, { l with g := r.1, phase := .search })
  | .search => -- src/main-mpi.cc:207-219
    match addStabilization (fullEnv (cfg.withTick t) l.ps.insts) (3 ^ candTotal l.ps.insts + 2) l.g l.ps with
    | none => (false, { l with phase := .abort })
    | some (.fail g) => (false, { l with g := g, phase := .tried none })
    | some (.found g acts) =>
      (false, { l with
        g := { g with optimal := 0 }
        phase := .tried (some acts)
        found := true
        ret := acts
        nlayers := g.optimal })
  | .tried out => -- src/main-mpi.cc:221-259
    let r := pollG (cfg.withTick t) l.g
    if r.2 then (false, { l with g := r.1, phase := .prune })
    else mpiFound cfg opt out { l with g := r.1, phase := .prune }
  | .prune => -- src/main-mpi.cc:284-294
    let r := pollG (cfg.withTick t) l.g
    let imp := r.1.fam.impossible ∩ (((l.ps.insts.head?).map fun x => x.rest.2.cands).getD []).toFinset
    if r.2 ∨ imp = ∅ then (false, { l with g := r.1, phase := .head, trial := l.trial + 1 })
    else
      match reviseActions (synEnv (cfg.withTick t) l.ps.insts) (candTotal l.ps.insts + 1) r.1 l.ps ∅ imp with
      | none => (false, { l with phase := .abort })
      | some (g, ok, ps, _) =>
        let l := { l with g := g, ps := ps, phase := .head, trial := l.trial + 1 }
        if ok then (false, l) else (true, l.halt)

/-- The state of `N` processes: `term` says whether some process has called `terminate`, `signal` whether one was told to
from outside (src/main-mpi.cc:21-27, 111-112, or the file "kill-protocon", 58-61), `pool` is what has been pushed. -/
structure MState (σ : ℕ → Type) [∀ i, Fintype (σ i)] [∀ i, DecidableEq (σ i)] (ρ : Type) (N : ℕ) where
  term : Bool
  signal : Bool
  pool : List (Finset ℕ)
  pr : Fin N → Proc σ ρ

/-- A process after its initialization, src/main-mpi.cc:104-144.  Until then `done_ck` is not called. -/
def mpiProc (cfg : SynCfg σ τ ρ) (n : ℕ) (rng : ρ) : Bool × Proc σ ρ :=
  let r := initThread cfg n rng
  let l : Proc σ ρ := ⟨match r.2.phase with | .head => .head | _ => .abort, r.2.g, r.2.ps, 0, false, [], 0, CFam.empty, []⟩
  (r.1, if r.1 then l else l.halt)

/-- All processes after their initialization. -/
def mpiInit (cfg : SynCfg σ τ ρ) (n N : ℕ) (rng : Fin N → ρ) : MState σ ρ N where
  term := decide (∃ p, (mpiProc cfg n (rng p)).1 = false)
  signal := false
  pool := []
  pr p := (mpiProc cfg n (rng p)).2

/-- A process is at its end. -/
def MPhase.over : MPhase → Bool
  | .fin => true
  | .abort => true
  | _ => false

/-- Process `p` makes a step. -/
def mpiAt {N : ℕ} (cfg : SynCfg σ τ ρ) (opt : DriveOpt) (t : ρ → ρ × List (Finset ℕ) × Bool) (p : Fin N)
    (s : MState σ ρ N) : MState σ ρ N :=
  let r := mpiStep cfg opt t (s.pr p)
  ⟨s.term || r.1, s.signal, s.pool, Function.update s.pr p r.2⟩

/-- What can happen: a signal, a push during a step, or a step. -/
inductive MStep {N : ℕ} (cfg : SynCfg σ τ ρ) (opt : DriveOpt) : MState σ ρ N → MState σ ρ N → Prop where
  | signal (s : MState σ ρ N) (h : s.signal = false) : MStep cfg opt s { s with term := true, signal := true }
  | emit (s : MState σ ρ N) (p : Fin N) (t : ρ → ρ × List (Finset ℕ) × Bool) (B : Finset ℕ)
    (h : (s.pr p).phase.over = false) (pushed : ∀ r, ∀ b ∈ (t r).2.1, b ∈ s.pool)
    (known : ∃ A ∈ (mpiStep cfg opt t (s.pr p)).2.g.fam.sets, A ⊆ B) : MStep cfg opt s { s with pool := B :: s.pool }
  | run (s : MState σ ρ N) (p : Fin N) (t : ρ → ρ × List (Finset ℕ) × Bool) (h : (s.pr p).phase.over = false)
    (pushed : ∀ r, ∀ b ∈ (t r).2.1, b ∈ s.pool)
    (truthful : ∀ r, (t r).2.2 = true → s.term = true) : MStep cfg opt s (mpiAt cfg opt t p s)

/-- The states that can occur. -/
def MReach (cfg : SynCfg σ τ ρ) (opt : DriveOpt) (n N : ℕ) (rng : Fin N → ρ) (s : MState σ ρ N) : Prop :=
  Relation.ReflTransGen (MStep cfg opt) (mpiInit cfg n N rng) s

/-! ### The choice of the process that reports -/

/-- `MPI_Allreduce` with `MPI_MAX`. -/
def allMax {N : ℕ} (f : Fin N → ℤ) (p : Fin N) : ℤ := (List.finRange N).foldl (fun m q => max m (f q)) (f p)

/-- `MPI_Allreduce` with `MPI_MIN`. -/
def allMin {N : ℕ} (f : Fin N → ℤ) (p : Fin N) : ℤ := (List.finRange N).foldl (fun m q => min m (f q)) (f p)

/-- The end of `stabilization_search`, src/main-mpi.cc:337-360, in process `p`: the number of the process that found the
best solution, from `solution_found` and `solution_nlayers_sum` of each process (`int` is taken to be unbounded). -/
def elect {N : ℕ} (x : Fin N → Bool × ℕ) (p : Fin N) : ℤ :=
  let send q := if (x q).1 then ((x q).2 : ℤ) else -1
  let send2 q := if (x q).1 then send q else allMax send q + 1
  if allMin send2 p = 0 then -1
  else allMin (fun q => if send2 q = allMin send2 q then (q.val : ℤ) else (N : ℤ)) p

end Verif.Model
