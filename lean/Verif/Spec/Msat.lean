import Verif.Model.Stab
import Verif.Spec.Trans

/-!
Specification vocabulary for the synthesis by satisfiability.
-/

namespace Verif.Spec
open Verif.Model

variable {σ τ : Type} [Fintype σ] [DecidableEq σ]

/-- What a protocol without shadow variables has to fulfil. -/
structure MsGoal (sys : Sys σ τ) (xn : Finset (σ × σ)) : Prop where
  stab : SelfStab xn sys.closedAssume (sys.invariant ∩ sys.closedAssume)
  noSelf : ∀ s ∈ sys.closedAssume, ¬ Step xn s s
  shadow : sys.style ≠ .closed → ∀ s ∈ sys.invariant ∩ sys.closedAssume, ∀ t, Step xn s t ↔ Step sys.shadowXn s t
  silent : sys.behav = .silent → ∀ e, InfExec xn e → e 0 ∉ sys.closedAssume
  active : sys.behav = .activeShadow ∨ sys.style = .activeShadow →
    ∀ s ∈ sys.invariant ∩ sys.closedAssume, ¬ Deadlock xn s

/-- `T` makes a clause true; a literal is a variable with the value that makes it true. -/
def ClauseSat (T : Finset ℕ) (c : List (ℕ × Bool)) : Prop := ∃ l ∈ c, (l.1 ∈ T ↔ l.2 = true)

/-- `solve` is a correct and complete solver for clauses over the variables below `n`; `okay` is false only if there
is no solution. -/
structure SatSolver (n : ℕ) (solve : List (List (ℕ × Bool)) → Option (Finset ℕ)) (okay : List (List (ℕ × Bool)) → Bool) :
    Prop where
  sound : ∀ cls T, solve cls = some T → T ⊆ Finset.range n ∧ ∀ c ∈ cls, ClauseSat T c
  complete : ∀ cls, solve cls = none → ∀ T, T ⊆ Finset.range n → ¬ ∀ c ∈ cls, ClauseSat T c
  okay : ∀ cls, okay cls = false → ∀ T, T ⊆ Finset.range n → ¬ ∀ c ∈ cls, ClauseSat T c

end Verif.Spec
