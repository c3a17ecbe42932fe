import Verif.Spec.Trans
import Mathlib.Data.Finset.Union

/-!
Specification vocabulary for conflicts learned from livelocks.
-/

namespace Verif.Spec

variable {σ : Type} [DecidableEq σ]

/-- No protocol that has the actions `B` stabilizes, from the states `A`, to a set of states in `inv`. -/
def Excludes (act : ℕ → Finset (σ × σ)) (A inv : Finset σ) (B : Finset ℕ) : Prop :=
  ∀ T, B ⊆ T → ∀ I, I ⊆ inv → ¬ SelfStab (T.biUnion act) A I

/-- The only thing wrong with the protocol `xn` is a livelock: there are legitimate states, the assumed states `A` are
closed, no transition leaves a state unchanged, no illegitimate state is a deadlock, but there is an illegitimate
state on a cycle. -/
structure Livelocked (xn : Finset (σ × σ)) (A inv : Finset σ) : Prop where
  legit : (inv ∩ A).Nonempty
  noSelf : ∀ s ∈ A, ¬ Step xn s s
  closed : Closed xn A
  progress : ∀ s ∈ A, s ∉ inv → ¬ Deadlock xn s
  cycle : ∃ s ∈ A, s ∉ inv ∧ OnCycle xn s

end Verif.Spec
