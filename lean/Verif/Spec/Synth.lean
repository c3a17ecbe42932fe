import Verif.Spec.Trans
import Mathlib.Data.Finset.Union

/-!
Specification vocabulary for the synthesis problem: several systems have the same actions; choose a set of
actions such that every system stabilizes.
-/

namespace Verif.Spec

/-- The requirements on the behavior of one system. -/
structure Demand (S : Type) where
  /-- the legitimate states -/
  legit : Finset S
  /-- the states that are considered at all -/
  assume : Finset S
  /-- transitions of the specified behavior: where one starts, the protocol must be able to move -/
  shadow : Finset (S × S)
  /-- infinite executions are forbidden -/
  silent : Prop

/-- The states in which the protocol must be able to move. -/
def Demand.Must {S : Type} (d : Demand S) (s : S) : Prop :=
  s ∈ d.assume ∧ (s ∉ d.legit ∨ ∃ t, Step d.shadow s t)

/-- The protocol `xn` meets the requirements. -/
structure Meets {S : Type} (d : Demand S) (xn : Finset (S × S)) : Prop where
  stab : SelfStab xn d.assume d.legit
  noSelf : ∀ s ∈ d.assume, ¬ Step xn s s
  quiet : d.silent → ∀ e, InfExec xn e → e 0 ∉ d.assume
  awake : ∀ s, d.Must s → ¬ Deadlock xn s

/-- A synthesis problem for the systems `0, …, n-1`. -/
structure Task (S : ℕ → Type) where
  n : ℕ
  demand : ∀ i, Demand (S i)
  /-- the transitions of an action in a system -/
  act : ∀ i, ℕ → Finset (S i × S i)
  /-- the actions that are offered for a system -/
  offered : ℕ → ℕ → Prop
  /-- the actions that must be used -/
  given : Finset ℕ
  /-- the second action must not be used together with the first -/
  clash : ℕ → ℕ → ℕ → Prop
  /-- sets of actions that must not be used together -/
  banned : Finset ℕ → Prop

/-- `T` solves the problem.  Actions that are not offered may only be used where they are useless: they must
not move in any state where a move is required. -/
structure Solves {S : ℕ → Type} [∀ i, DecidableEq (S i)] (p : Task S) (T : Finset ℕ) : Prop where
  given : p.given ⊆ T
  offered : ∀ i < p.n, ∀ a ∈ T, p.offered i a ∨ ∀ s t, Step (p.act i a) s t → ¬ (p.demand i).Must s
  apart : ∀ i < p.n, ∀ a ∈ T, ∀ b ∈ T, a ≠ b → ¬ p.clash i a b
  allowed : ∀ B, p.banned B → ¬ B ⊆ T
  meets : ∀ i < p.n, Meets (p.demand i) (T.biUnion (p.act i))

end Verif.Spec
