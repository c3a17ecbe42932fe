import Verif.Spec.Synth

/-!
Specification vocabulary for the test of a given set of actions.
-/

namespace Verif.Spec

/-- The actions `T` make a correct protocol: they contain the given ones, are allowed, and every system stabilizes as
required.  (A solution in the sense of `Solves` is also made of offered actions that do not clash.) -/
structure Works {S : ℕ → Type} [∀ i, DecidableEq (S i)] (p : Task S) (T : Finset ℕ) : Prop where
  given : p.given ⊆ T
  allowed : ∀ B, p.banned B → ¬ B ⊆ T
  meets : ∀ i < p.n, Meets (p.demand i) (T.biUnion (p.act i))

/-- `acts` confirms the guess: it makes a correct protocol out of actions of the guess; out of all of them if the
guess is not marked as containing a solution. -/
structure Confirms {S : ℕ → Type} [∀ i, DecidableEq (S i)] (p : Task S) (subset : Bool) (guess acts : List ℕ) :
    Prop where
  sub : ∀ a ∈ acts, a ∈ guess
  all : subset = false → ∀ a ∈ guess, a ∈ acts
  works : Works p acts.toFinset

theorem Solves.works {S : ℕ → Type} [∀ i, DecidableEq (S i)] {p : Task S} {T : Finset ℕ} (h : Solves p T) :
    Works p T := ⟨h.given, h.allowed, h.meets⟩

end Verif.Spec
