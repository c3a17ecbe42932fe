import Verif.Model.Synth

/-!
Model of the driver of the search: the threads of `stabilization_search`, src/search.cc:700-1047, for the task
`SearchTask` with the method `BacktrackSearch`.

The variables `done_flag`, `solution_found`, `ret_actions` and `conflicts` are shared.  Each thread owns a
`SynthesisCtx` (conflicts, random numbers) and its `base_partial`.  A step of the model is one of the parts of
the loop of one thread: the test of the loop, the call of `AddStabilization`, the two halves of the critical
section, and the end of the loop.  Steps of different threads may be interleaved in any way; this includes
interleavings of critical sections that OpenMP rules out.

While a thread is inside `AddStabilization` or `revise_actions` the others go on.  All that it sees of them is
`done_flag`, through `done_ck`.  What the calls of `done_ck` return is a parameter of the step (`tick`); the only
condition is that the flag is set if one of them returned true.  A call of `AddStabilization` touches no shared
variable, so its step can be placed behind the one that sets the flag.  For `revise_actions` at the end of the loop
this leaves out one case: the flag is set by another thread between the test at src/search.cc:1014 and the end of
the call.  Then the flag stays set and the thread leaves the loop at once.

Left out: conflicts read from a file (`conflicts_xfilepath`), `solution_guesses`, `known_solution`,
`optimize_soln`, `RankShuffleSearch`, and what is printed.
-/

set_option linter.unusedSectionVars false

namespace Verif.Model

variable {σ τ : ℕ → Type} [∀ i, Fintype (σ i)] [∀ i, DecidableEq (σ i)] [∀ i, DecidableEq (τ i)] {ρ : Type}

/-- The options that only the driver uses: `try_all`, `solution_as_conflict`, `ntrials` (src/synthesis.hh:58-115)
and whether `conflicts_ofilepath` is set. -/
structure DriveOpt where
  tryAll : Bool
  asConflict : Bool
  writes : Bool
  ntrials : ℕ

/-- The shared variables, src/search.cc:374, 708-711: `done_flag`, `solution_found`, `ret_actions`, `conflicts`.
`reports` lists the actions for which "SOLUTION FOUND!" is printed, src/search.cc:937-948; with `try_all` each is
written to a file of its own. -/
structure Shared where
  done : Bool
  found : Bool
  ret : List ℕ
  reports : List (List ℕ)
  fam : CFam

/-- Where a thread is: at the test of the loop (src/search.cc:882), before the choice of the method (886), before
the critical section (912) with the result of the search, before the second half of it (967), after it (1014),
behind the loop; `abort` is a failed `Claim`. -/
inductive DPhase where
  | head
  | search
  | tried (out : Option (List ℕ))
  | merge
  | prune
  | fin
  | abort

/-- The variables of a thread: `synctx` without `base_partial`, `base_partial` (also called `synlvl`), `trial_idx`. -/
structure Thread (σ : ℕ → Type) [∀ i, Fintype (σ i)] [∀ i, DecidableEq (σ i)] (ρ : Type) where
  phase : DPhase
  g : SynG ρ
  ps : PSyn (SRest σ)
  trial : ℕ

/-- The same input, with other answers of `done_ck`. -/
def SynCfg.withTick (cfg : SynCfg σ τ ρ) (t : ρ → ρ × List (Finset ℕ) × Bool) : SynCfg σ τ ρ := { cfg with tick := t }

/-- `done_ck` is not called: `done_ck_fn` is set after the initialization, src/search.cc:757-762. -/
def calmTick (r : ρ) : ρ × List (Finset ℕ) × Bool := (r, [], false)

/-- The initialization of a thread, src/search.cc:748-768, and whether it succeeds. -/
def initThread (cfg : SynCfg σ τ ρ) (n : ℕ) (rng : ρ) : Bool × Thread σ ρ :=
  match startUp (cfg.withTick calmTick) n (((List.range n).map fun i => (cfg.cands i).length).sum + 1) rng with
  | none => (false, ⟨.abort, ⟨CFam.empty, 0, rng, false⟩, ⟨0, [], []⟩, 0⟩)
  | some (g, ok, ps, _) => (ok, ⟨.head, g, ps, 0⟩)

/-- The first half of the critical section, src/search.cc:915-958. -/
def critFound (cfg : SynCfg σ τ ρ) (opt : DriveOpt) (out : Option (List ℕ)) (sh : Shared) : Shared :=
  match out with
  | none => sh
  | some acts =>
    if sh.done then sh
    else if opt.asConflict && conflictCk sh.fam acts.toFinset then sh
    else
      { done := !opt.tryAll
        found := true
        ret := acts
        reports := sh.reports ++ [acts]
        fam := if opt.asConflict then cfg.learn acts.toFinset sh.fam else sh.fam }

/-- `synctx.conflicts` after merging, src/search.cc:977-988. -/
def mergeFam (cfg : SynCfg σ τ ρ) (shared fam : CFam) : CFam :=
  trim cfg.maxConflictSz (addFamily (fun a b => cfg.le a b = true) shared fam)

/-- One step of a thread that is not at its end. -/
def threadStep (cfg : SynCfg σ τ ρ) (opt : DriveOpt) (t : ρ → ρ × List (Finset ℕ) × Bool) (sh : Shared)
    (l : Thread σ ρ) : Shared × Thread σ ρ :=
  match l.phase with
  | .fin => (sh, l)
  | .abort => (sh, l)
  | .head => -- src/search.cc:882
    if sh.done ∨ (0 < opt.ntrials ∧ opt.ntrials ≤ l.trial) then (sh, { l with phase := .fin })
    else (sh, { l with phase := .search })
  | .search => -- src/search.cc:907-910
    match addStabilization (fullEnv (cfg.withTick t) l.ps.insts) (3 ^ candTotal l.ps.insts + 2) l.g l.ps with
    | none => (sh, { l with phase := .abort })
    | some (.fail g) => (sh, { l with g := g, phase := .tried none })
    | some (.found g acts) => (sh, { l with g := g, phase := .tried (some acts) })
  | .tried out => -- src/search.cc:912-965
    (critFound cfg opt out sh, { l with g := { l.g with optimal := 0 }, phase := .merge })
  | .merge => -- src/search.cc:967-992
    if sh.done = false ∨ opt.writes then
      ({ sh with
          done := sh.done || !satCk (mergeFam cfg sh.fam l.g.fam)
          fam := mergeFam cfg sh.fam l.g.fam },
        { l with g := { l.g with fam := mergeFam cfg sh.fam l.g.fam }, phase := .prune })
    else (sh, { l with phase := .prune })
  | .prune => -- src/search.cc:1014-1024
    let imp := l.g.fam.impossible ∩ (((l.ps.insts.head?).map fun x => x.rest.2.cands).getD []).toFinset
    if sh.done ∨ imp = ∅ then (sh, { l with phase := .head, trial := l.trial + 1 })
    else
      match reviseActions (synEnv (cfg.withTick t) l.ps.insts) (candTotal l.ps.insts + 1) l.g l.ps ∅ imp with
      | none => (sh, { l with phase := .abort })
      | some (g, ok, ps, _) => ({ sh with done := sh.done || !ok }, ⟨.head, g, ps, l.trial + 1⟩)

/-- The state of `N` threads; `signal` says whether the flag was set from outside (`set_done_flag` as signal
handler, src/search.cc:715-716, or the file "kill-protocon", src/search.cc:384-400). -/
structure DState (σ : ℕ → Type) [∀ i, Fintype (σ i)] [∀ i, DecidableEq (σ i)] (ρ : Type) (N : ℕ) where
  sh : Shared
  signal : Bool
  th : Fin N → Thread σ ρ

/-- After the barrier at src/search.cc:778: every thread is initialized. -/
def driveInit (cfg : SynCfg σ τ ρ) (n N : ℕ) (rng : Fin N → ρ) : DState σ ρ N where
  sh := ⟨decide (∃ p, (initThread cfg n (rng p)).1 = false), false, [], [], CFam.empty⟩
  signal := false
  th p := (initThread cfg n (rng p)).2

/-- Thread `p` makes a step. -/
def stepAt {N : ℕ} (cfg : SynCfg σ τ ρ) (opt : DriveOpt) (t : ρ → ρ × List (Finset ℕ) × Bool) (p : Fin N)
    (s : DState σ ρ N) : DState σ ρ N :=
  let r := threadStep cfg opt t s.sh (s.th p)
  ⟨r.1, s.signal, Function.update s.th p r.2⟩

/-- A thread is at its end. -/
def DPhase.over : DPhase → Bool
  | .fin => true
  | .abort => true
  | _ => false

/-- What can happen: a signal, or a step of a thread that is not at its end. -/
inductive DStep {N : ℕ} (cfg : SynCfg σ τ ρ) (opt : DriveOpt) : DState σ ρ N → DState σ ρ N → Prop where
  | signal (s : DState σ ρ N) (h : s.signal = false) :
    DStep cfg opt s { s with sh := { s.sh with done := true }, signal := true }
  | run (s : DState σ ρ N) (p : Fin N) (t : ρ → ρ × List (Finset ℕ) × Bool) (h : (s.th p).phase.over = false)
    (silent : ∀ r, (t r).2.1 = [])
    (truthful : ((stepAt cfg opt t p s).th p).g.stop = true → s.sh.done = true) :
    DStep cfg opt s (stepAt cfg opt t p s)

/-- The states that can occur. -/
def DReach (cfg : SynCfg σ τ ρ) (opt : DriveOpt) (n N : ℕ) (rng : Fin N → ρ) (s : DState σ ρ N) : Prop :=
  Relation.ReflTransGen (DStep cfg opt) (driveInit cfg n N rng) s

end Verif.Model
