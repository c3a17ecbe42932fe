import Verif.Model.Stab
import Verif.Model.OneCycle
import Verif.Model.Conflict

/-!
Model of the task `VerifyTask` (option `-verify`): the threads of `stabilization_search` check the protocols in the
files `xfilepaths`, src/search.cc:653-698, 782-797, 1031-1034.

A file is what reading it results in: its system, its relations and the actions in it.  The relation that is checked
(src/stabilization.cc:535-557) depends on the options.
-/

set_option linter.unusedSectionVars false

namespace Verif.Model

universe u v

section
variable {σ : Type u} [Fintype σ] [DecidableEq σ] {τ : Type v} [DecidableEq τ]

/-- What `stabilization_ck` leaves in `info`, src/stabilization.cc:277-380: `some none` if `livelock_exists` is not
set, else `some (some R)` with `livelock_actions = R`.  The tests before the one for livelocks are those of `stabCk`.
`find` is `info->find_livelock_actions`, `actions` is `info->actions`. -/
def stabInfo (fuel : ℕ) (pick : Finset σ → Option σ) (sys : Sys σ τ) (opt : StabOpt) (lo hi : Finset (σ × σ))
    (ps : List (Finset (σ × σ))) (find : Bool) (act : ℕ → Finset (σ × σ)) (actions : List ℕ) :
    Option (Option (Finset ℕ)) :=
  if sys.invariant ∩ sys.closedAssume = ∅ then some none
  else if sys.probabilistic = false ∧
      (restr (lo ∩ sys.identXn) sys.closedAssume).Nonempty then some none
  else if sys.closedAssume ≠ Finset.univ ∧
      (img lo sys.closedAssume \ sys.closedAssume).Nonempty then some none
  else if ¬ sys.invariantᶜ ∩ sys.closedAssume ⊆ dom hi then some none
  else
    match stabCycles fuel sys opt lo ps with
    | none => none
    | some .failed => some none
    | some (.ok (scc, nlayers)) =>
      if opt.maxNlayers > 0 ∧ nlayers > opt.maxNlayers then some none
      else if scc ⊆ sys.invariant then some none
      else if find = false then some (some ∅)
      else if sys.probabilistic then some (some actions.toFinset)
      else (findLivelockActions fuel pick lo scc sys.invariant act actions).map some

/-- A file that was read: the system; `sys.direct_pfmla` with the parts `puppet_xn` of the processes; the relations of
all actions with their parts; `sys.actions`; the relation for synchronous steps (`Net::sync_xn` of `sys.actions`);
and what `pick_pre` picks. -/
structure VFile (σ : Type u) [Fintype σ] [DecidableEq σ] (τ : Type v) where
  sys : Sys σ τ
  direct : Finset (σ × σ)
  directParts : List (Finset (σ × σ))
  act : ℕ → Finset (σ × σ)
  actParts : List (Finset (σ × σ))
  actions : List ℕ
  sync : Finset (σ × σ)
  pick : Finset σ → Option σ

/-- The relation that is checked, src/stabilization.cc:535-557 with `info` given. -/
def VFile.rel (f : VFile σ τ) (sync light : Bool) : Finset (σ × σ) :=
  if sync then f.sync else if light then f.direct else f.actions.toFinset.biUnion f.act

/-- Its parts; for synchronous steps `lo_xfmlae` is empty (src/stabilization.cc:486). -/
def VFile.parts (f : VFile σ τ) (sync light : Bool) : List (Finset (σ × σ)) :=
  if sync then [] else if light then f.directParts else f.actParts

/-- `multi_verify_stabilization` for a file that can be read, src/search.cc:670-694: whether the system is stabilizing,
and the conflict that is added.  `light` is `lightweight`: no file for conflicts is to be written. -/
def verifyFile (fuel : ℕ) (opt : StabOpt) (sync light : Bool) (f : VFile σ τ) : Option (Bool × Option (Finset ℕ)) :=
  match stabCk fuel f.sys opt (f.rel sync light) (f.rel sync light) (f.parts sync light) with
  | none => none
  | some .abort => none
  | some (.accept _) => some (true, none)
  | some .reject =>
    if light then some (false, none)
    else (stabInfo fuel f.pick f.sys opt (f.rel sync light) (f.rel sync light) (f.parts sync light) true f.act
      f.actions).map fun c => (false, c)

end

variable {σ τ : ℕ → Type} [∀ i, Fintype (σ i)] [∀ i, DecidableEq (σ i)] [∀ i, DecidableEq (τ i)]

/-- The options: the stabilization options of the first instance, whether no conflicts are to be written, the order of
conflicts in a `ConflictFamily`, `max_conflict_sz`; `files i` is `none` if the `i`-th file cannot be read. -/
structure VOpt (σ : ℕ → Type) [∀ i, Fintype (σ i)] [∀ i, DecidableEq (σ i)] (τ : ℕ → Type) where
  stab : StabOpt
  sync : Bool
  light : Bool
  le : Finset ℕ → Finset ℕ → Bool
  maxConflictSz : ℕ
  count : ℕ
  files : (i : ℕ) → Option (VFile (σ i) (τ i))
  fuel : ℕ → ℕ

/-- `solution_found`, `ret_actions`, and `synctx.conflicts` of each thread. -/
structure VState where
  found : Bool
  ret : List ℕ
  fams : ℕ → CFam

/-- A round of the loop, src/search.cc:785-791, for a file `i` taken by thread `p`; `done` is the answer of
`done_ck`. -/
def verifyRound (opt : VOpt σ τ) (p i : ℕ) (done : Bool) (s : VState) : Option VState :=
  if done then some s
  else
    match opt.files i with
    | none => some s
    | some f =>
      match verifyFile (opt.fuel i) opt.stab opt.sync opt.light f with
      | none => none
      | some (true, _) => some { s with found := true, ret := f.actions }
      | some (false, none) => some s
      | some (false, some c) =>
        some { s with fams := Function.update s.fams p (addConflict (fun a b => opt.le a b = true) c (s.fams p)) }

/-- The rounds in the order in which they write `solution_found`: the thread, the file, the answer of `done_ck`. -/
def verifyRounds (opt : VOpt σ τ) : List (ℕ × ℕ × Bool) → VState → Option VState
  | [], s => some s
  | (p, i, done) :: l, s => (verifyRound opt p i done s).bind (verifyRounds opt l)

/-- `VerifyTask` as a whole: `solution_found`, `ret_actions` and the `conflicts` that are written.  `file` are the
conflicts read from a file (src/search.cc:455-470), `order` are the threads in the order in which they reach the
critical section at src/search.cc:793-797. -/
def verifyTask (opt : VOpt σ τ) (file : CFam) (rounds : List (ℕ × ℕ × Bool)) (order : List ℕ) :
    Option (Bool × List ℕ × CFam) :=
  let fam0 := trim opt.maxConflictSz file
  (verifyRounds opt rounds ⟨false, [], fun _ => fam0⟩).map fun s =>
    (s.found, s.ret, trim opt.maxConflictSz
      (order.foldl (fun sh p => addFamily (fun a b => opt.le a b = true) (s.fams p) sh) fam0))

end Verif.Model
