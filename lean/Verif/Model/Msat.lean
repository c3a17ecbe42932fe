import Verif.Model.Verify

/-!
Model of the synthesis with a satisfiability solver, src/msat.cc (without `WITH_PRE`).

Variable `a` of the solver stands for the action `a`.  The solver is a parameter.  Left out: reading the file, the
messages, the set `tried` (it is used for a message only) and writing the result.
-/

set_option linter.unusedSectionVars false

namespace Verif.Model

/-- The clauses for pairs of actions, src/msat.cc:108-121; a literal is a variable with the value that makes it true
(`mkLit(a, MTRUE)` is `(a, true)`). -/
def msatPairs (coexist : ℕ → ℕ → Bool) : List ℕ → List (List (ℕ × Bool))
  | [] => []
  | a :: l => (l.filter fun b => !coexist a b).map (fun b => [(a, false), (b, false)]) ++ msatPairs coexist l

/-- The clauses at the start, src/msat.cc:68-74, 108-121. -/
def msatClauses (coexist : ℕ → ℕ → Bool) (cands dels rejs : List ℕ) : List (List (ℕ × Bool)) :=
  rejs.map (fun a => [(a, false)]) ++ dels.map (fun a => [(a, false)]) ++ msatPairs coexist cands

section
variable {σ τ : Type} [Fintype σ] [DecidableEq σ] [DecidableEq τ]

/-- The clause for a set of actions that is rejected, src/msat.cc:157-179; `c` is `livelock_actions` if
`livelock_exists`. -/
def msatClause (n : ℕ) (cands : List ℕ) (T : Finset ℕ) (c : Option (Finset ℕ)) : List (ℕ × Bool) :=
  match c with
  | some R => ((List.range n).filter fun a => a ∈ R).map fun a => (a, false)
  | none => cands.map fun a => (a, decide (a ∉ T))

/-- The loop, src/msat.cc:123-188: `some (some actions)` if a solution is written, `some none` if the loop ends without
one, `none` for a failed `Claim` and for non-termination.  `f` is the system with the transitions of all actions. -/
def msatLoop (n : ℕ) (f : VFile σ τ) (fuel : ℕ) (opt : StabOpt) (cands : List ℕ)
    (solve : List (List (ℕ × Bool)) → Option (Finset ℕ)) (okay : List (List (ℕ × Bool)) → Bool) :
    ℕ → List (List (ℕ × Bool)) → Option (Option (List ℕ))
  | 0, _ => none
  | k + 1, cls =>
    match solve cls with
    | none => some none
    | some T =>
      match verifyFile fuel opt false false { f with actions := (List.range n).filter fun a => a ∈ T } with
      | none => none
      | some (true, _) => some (some ((List.range n).filter fun a => a ∈ T))
      | some (false, c) =>
        if okay (cls ++ [msatClause n cands T c]) then
          msatLoop n f fuel opt cands solve okay k (cls ++ [msatClause n cands T c])
        else some none

/-- `main` of src/msat.cc after reading the file; `ok`, `cands`, `dels`, `rejs` are the results of
`candidate_actions`. -/
def msat (n : ℕ) (f : VFile σ τ) (fuel : ℕ) (opt : StabOpt) (coexist : ℕ → ℕ → Bool) (ok : Bool)
    (cands dels rejs : List ℕ) (solve : List (List (ℕ × Bool)) → Option (Finset ℕ))
    (okay : List (List (ℕ × Bool)) → Bool) : Option (Option (List ℕ)) :=
  if !ok then none
  else msatLoop n f fuel opt cands solve okay (2 ^ n + 1) (msatClauses coexist cands dels rejs)

end

end Verif.Model
