import Verif.Model.Drive

/-!
Model of the task `MinimizeConflictsTask`: conflicts are read from a file, made smaller by several threads, and
written again.  src/search.cc:455-515 (`initialize_conflicts`), 744-830 and 1031-1034 (`stabilization_search`).

Left out: reading and writing the file (Model/Conflict has `xget` and `oput`), what is printed, `known_solution`.
-/

set_option linter.unusedSectionVars false

namespace Verif.Model

variable {σ τ : ℕ → Type} [∀ i, Fintype (σ i)] [∀ i, DecidableEq (σ i)] [∀ i, DecidableEq (τ i)] {ρ : Type}

/-- `ProtoconOpt::MinimizeConflictsOrder`, src/opt.hh:48-52. -/
inductive ConfOrder where
  | lohi
  | hilo
  | random

/-- One round of the first loop, src/search.cc:490-495: `sized_conflicts` grows as needed, and the conflict is
pushed to the table of its size. -/
def bucketPush (t : List (List (Finset ℕ))) (b : Finset ℕ) : List (List (Finset ℕ)) :=
  let t := if t.length ≤ b.card then t ++ List.replicate (1 + b.card - t.length) [] else t
  t.modify b.card (· ++ [b])

/-- `flat_conflicts` in the order in which the threads take them, src/search.cc:475-513; `shuffle` stands for
`URandom::shuffle` (cx library). -/
def flatConflicts (shuffle : List (Finset ℕ) → List (Finset ℕ)) (order : ConfOrder) (fam : CFam) :
    List (Finset ℕ) :=
  match order with
  | .random => shuffle fam.sets
  | .lohi => (fam.sets.foldl bucketPush []).flatten
  | .hilo => (fam.sets.foldl bucketPush []).reverse.flatten

/-- One conflict, src/search.cc:800-819: nothing happens if `done_ck` returns true or the conflict has at most one
action, otherwise `add_small_conflict_set` is called with it on `base_partial`. -/
def minOne (cfg : SynCfg σ τ ρ) (base : List (SInst (SRest σ))) (g : SynG ρ) (b : Finset ℕ) : SynG ρ :=
  match pollG cfg g with
  | (g, true) => g
  | (g, false) => if 1 < b.card then smallSet cfg base ⟨0, arr b, base⟩ g else g

/-- `stabilization_search_init` in a thread that starts with the conflicts `fam0`, src/search.cc:748-757. -/
def minInit (cfg : SynCfg σ τ ρ) (n : ℕ) (fam0 : CFam) (rng : ρ) :
    Option (SynG ρ × Bool × PSyn (SRest σ) × Option ℕ) :=
  startUpFrom (cfg.withTick calmTick) n (((List.range n).map fun i => (cfg.cands i).length).sum + 1) rng fam0

/-- Whether the initialization of a thread makes it set `done_flag`, src/search.cc:763-767. -/
def minBad (cfg : SynCfg σ τ ρ) (n : ℕ) (fam0 : CFam) (rng : ρ) : Bool :=
  match minInit cfg n fam0 rng with
  | some (_, true, _, _) => false
  | _ => true

/-- `synctx.conflicts` of a thread behind the loop, src/search.cc:748-820; `part` are the conflicts that it takes,
`done` says whether `done_flag` is set when the loop begins. -/
def minThread (cfg : SynCfg σ τ ρ) (n : ℕ) (fam0 : CFam) (done : Bool) (rng : ρ) (part : List (Finset ℕ)) :
    Option CFam :=
  match minInit cfg n fam0 rng with
  | none => none
  | some (g, _, ps, _) => some (if done then g.fam else (part.foldl (minOne cfg ps.insts) g).fam)

/-- Merging, src/search.cc:822-826, of the threads `ts` (in the order in which they reach the critical section) into
`conflicts`. -/
def minMerge (cfg : SynCfg σ τ ρ) (n : ℕ) (fam0 : CFam) (done : Bool) :
    List (ρ × List (Finset ℕ)) → CFam → Option CFam
  | [], sh => some sh
  | t :: ts, sh =>
    match minThread cfg n fam0 done t.1 t.2 with
    | none => none
    | some f => minMerge cfg n fam0 done ts (addFamily (fun a b => cfg.le a b = true) f sh)

/-- `conflicts` at the end of `stabilization_search` for `MinimizeConflictsTask`; `file` is what was read from the
file.  Each thread is given by its random numbers and the conflicts it takes.  `none` is a failed `Claim` during
the initialization. -/
def minimize (cfg : SynCfg σ τ ρ) (n : ℕ) (file : CFam) (ts : List (ρ × List (Finset ℕ))) : Option CFam :=
  let fam0 := trim cfg.maxConflictSz file
  (minMerge cfg n fam0 (ts.any fun t => minBad cfg n fam0 t.1) ts fam0).map (trim cfg.maxConflictSz)

end Verif.Model
