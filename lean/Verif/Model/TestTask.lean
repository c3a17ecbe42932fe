import Verif.Model.Drive

/-!
Model of the task `TestTask`: the threads of `stabilization_search` test whether the protocols in
`solution_guesses` (read from the files given with `-x-try` and `-x-try-subset`, src/opt.cc:539-558) can be found by
the synthesizer, src/search.cc:831-880.

As in Model/Drive a step is one part of the loop of one thread, steps of different threads are interleaved in any
way, and what `done_ck` answers inside of a step is a parameter.  A test touches no shared variable.
-/

set_option linter.unusedSectionVars false

namespace Verif.Model

universe u v

section
variable {γ : Type u} {α : Type v}

/-- `candidate_ck`, src/synthesis.hh:188-197: is the action a candidate of some instance? -/
def candidateCk (env : SearchEnv γ α) (ps : PSyn α) (a : ℕ) : Bool :=
  ps.insts.any fun x => decide (a ∈ env.candidates x.rest)

/-- `delegate_ck`, src/synthesis.hh:198-204: is the action one of the actions of the first instance? -/
def delegateCk (ps : PSyn α) (a : ℕ) : Bool :=
  match ps.insts with
  | [] => false
  | x :: _ => decide (a ∈ x.actions)

/-- `pick_actions_separately`, src/synthesis.cc:1553-1583. -/
def pickSeparately (env : SearchEnv γ α) (fuel : ℕ) (addMissing : Bool) : List ℕ → γ → PSyn α →
    Option (γ × Bool × PSyn α)
  | [], g, ps => some (g, true, ps)
  | a :: l, g, ps =>
    if candidateCk env ps a = false ∧ (addMissing = false ∨ delegateCk ps a = true) then
      pickSeparately env fuel addMissing l g ps
    else
      match pickAction env fuel g ps a with
      | none => none
      | some (g, false, ps) => some (g, false, ps)
      | some (g, true, ps) => pickSeparately env fuel addMissing l g ps

end

variable {σ τ : ℕ → Type} [∀ i, Fintype (σ i)] [∀ i, DecidableEq (σ i)] [∀ i, DecidableEq (τ i)] {ρ : Type}

/-- The test of one guess, src/search.cc:845-864: the actions that are found if the guess is accepted.  `ps` is
`base_partial`. -/
def testGuess (cfg : SynCfg σ τ ρ) (subset : Bool) (guess : List ℕ) (g : SynG ρ) (ps : PSyn (SRest σ)) :
    Option (SynG ρ × Option (List ℕ)) :=
  let env := fullEnv cfg ps.insts
  match pickSeparately env (candTotal ps.insts + 1) (!subset) guess g ps with
  | none => none
  | some (g, false, _) => some ({ g with optimal := 0 }, none)
  | some (g, true, p) =>
    if deadlocksCk env p then some ({ g with optimal := 0 }, none)
    else
      match addStabilization env (3 ^ candTotal ps.insts + 2) g p with
      | none => none
      | some (.fail g) => some ({ g with optimal := 0 }, none)
      | some (.found g acts) =>
        some ({ g with optimal := 0 },
          if acts.toFinset ⊆ guess.toFinset ∧ (subset = true ∨ guess.toFinset ⊆ acts.toFinset) then some acts else none)

/-- The options of the task, src/synthesis.hh:89-90: `solution_guesses`, `subset_solution_guesses`, and the shuffling
at src/search.cc:845-847 (which does nothing if `randomize_pick` is not set). -/
structure TestOpt (ρ : Type) where
  guesses : List (List ℕ)
  subset : ℕ → Bool
  shuffle : ρ → List ℕ → ρ × List ℕ

/-- The shared variables, src/search.cc:374, 708-710: `done_flag`, `solution_found`, `ret_actions`. -/
structure TShared where
  done : Bool
  found : Bool
  ret : List ℕ
deriving DecidableEq

/-- Where a thread is: at the test of the loop (src/search.cc:833-835), before the test of a guess (838), before the
critical section (865) with the result; behind the loop; `abort` is a failed `Claim`. -/
inductive TPhase where
  | head
  | test
  | crit (out : Option (List ℕ))
  | fin
  | abort
deriving DecidableEq

/-- A thread is at its end. -/
def TPhase.over : TPhase → Bool
  | .fin => true
  | .abort => true
  | _ => false

/-- The variables of a thread: `synctx` without `base_partial`, `base_partial`, `trial_idx`. -/
structure TThread (σ : ℕ → Type) [∀ i, Fintype (σ i)] [∀ i, DecidableEq (σ i)] (ρ : Type) where
  phase : TPhase
  g : SynG ρ
  ps : PSyn (SRest σ)
  trial : ℕ

/-- The critical section, src/search.cc:865-878. -/
def testCrit (out : Option (List ℕ)) (sh : TShared) : TShared :=
  if sh.done then sh
  else
    match out with
    | none => ⟨true, false, []⟩
    | some acts => if sh.found then sh else { sh with found := true, ret := acts }

/-- One step of thread `p` of `N`, src/search.cc:831-880. -/
def testStep (cfg : SynCfg σ τ ρ) (opt : TestOpt ρ) (N p : ℕ) (t : ρ → ρ × List (Finset ℕ) × Bool) (sh : TShared)
    (l : TThread σ ρ) : TShared × TThread σ ρ :=
  match l.phase with
  | .fin => (sh, l)
  | .abort => (sh, l)
  | .head => -- src/search.cc:833-836
    if sh.done = false ∧ N * l.trial + p < opt.guesses.length then (sh, { l with phase := .test })
    else (sh, { l with phase := .fin })
  | .test => -- src/search.cc:838-864
    match opt.guesses[N * l.trial + p]? with
    | none => (sh, { l with phase := .abort })
    | some guess =>
      let r := opt.shuffle l.g.rng guess
      match testGuess (cfg.withTick t) (opt.subset (N * l.trial + p)) r.2 { l.g with rng := r.1 } l.ps with
      | none => (sh, { l with phase := .abort })
      | some (g, out) => (sh, { l with g := g, phase := .crit out })
  | .crit out => -- src/search.cc:865-879
    (testCrit out sh, { l with phase := .head, trial := l.trial + 1 })

/-- The initialization of a thread, src/search.cc:748-768; see `initThread`. -/
def initTest (cfg : SynCfg σ τ ρ) (n : ℕ) (rng : ρ) : TThread σ ρ :=
  let l := (initThread cfg n rng).2
  ⟨match l.phase with | .abort => .abort | _ => .head, l.g, l.ps, 0⟩

/-- The state of `N` threads; `signal` says whether the flag was set from outside. -/
structure TState (σ : ℕ → Type) [∀ i, Fintype (σ i)] [∀ i, DecidableEq (σ i)] (ρ : Type) (N : ℕ) where
  sh : TShared
  signal : Bool
  th : Fin N → TThread σ ρ

/-- After the barriers at src/search.cc:778, 832: every thread is initialized. -/
def testInit (cfg : SynCfg σ τ ρ) (n N : ℕ) (rng : Fin N → ρ) : TState σ ρ N where
  sh := ⟨decide (∃ p, (initThread cfg n (rng p)).1 = false), false, []⟩
  signal := false
  th p := initTest cfg n (rng p)

/-- Thread `p` makes a step, src/search.cc:831-880. -/
def testAt {N : ℕ} (cfg : SynCfg σ τ ρ) (opt : TestOpt ρ) (t : ρ → ρ × List (Finset ℕ) × Bool) (p : Fin N)
    (s : TState σ ρ N) : TState σ ρ N :=
  let r := testStep cfg opt N p t s.sh (s.th p)
  ⟨r.1, s.signal, Function.update s.th p r.2⟩

/-- What can happen: a signal (src/search.cc:374-400), or a step of a thread that is not at its end. -/
inductive TStep {N : ℕ} (cfg : SynCfg σ τ ρ) (opt : TestOpt ρ) : TState σ ρ N → TState σ ρ N → Prop where
  | signal (s : TState σ ρ N) (h : s.signal = false) :
    TStep cfg opt s { s with sh := { s.sh with done := true }, signal := true }
  | run (s : TState σ ρ N) (p : Fin N) (t : ρ → ρ × List (Finset ℕ) × Bool) (h : (s.th p).phase.over = false)
    (silent : ∀ r, (t r).2.1 = [])
    (truthful : ((testAt cfg opt t p s).th p).g.stop = true → s.sh.done = true) :
    TStep cfg opt s (testAt cfg opt t p s)

/-- The states that can occur, src/search.cc:831-880. -/
def TReach (cfg : SynCfg σ τ ρ) (opt : TestOpt ρ) (n N : ℕ) (rng : Fin N → ρ) (s : TState σ ρ N) : Prop :=
  Relation.ReflTransGen (TStep cfg opt) (testInit cfg n N rng) s

end Verif.Model
