import Verif.Spec.Trans
import Verif.Spec.Ring

/-!
Specification vocabulary for synthesized unidirectional rings: every process runs the same actions,
given as triples (value of the predecessor, own value, new own value).
-/

namespace Verif.Spec

variable {n : ℕ}

/-- The protocol in which every process has the actions `acts`. -/
def ActProtocol (acts : List (ℕ × ℕ × ℕ)) : ZMod n → ℕ → ℕ → ℕ → Prop :=
  fun _ a b c => (a, b, c) ∈ acts

/-- Every adjacent pair satisfies the legitimacy relation. -/
def LegitRing (legits : List (ℕ × ℕ)) (x : ZMod n → ℕ) : Prop := ∀ i, (x (i - 1), x i) ∈ legits

/-- No process can act. -/
def SilentRing (f : ZMod n → ℕ → ℕ → ℕ → Prop) (x : ZMod n → ℕ) : Prop := ∀ y, ¬ RStep f x y

/-- An endless walk in the relation `L` starts at `v`. -/
def Live (L : Finset (ℕ × ℕ)) (v : ℕ) : Prop :=
  ∃ w : ℕ → ℕ, w 0 = v ∧ ∀ t, (w t, w (t + 1)) ∈ L

/-- The condition for a synthesized protocol to be correct: there is a least value `g` that may be
next to itself, and each value reachable from it along endless walks leads back to it. -/
def GenCondition (L : Finset (ℕ × ℕ)) (M : ℕ) : Prop :=
  ∃ g < M, (g, g) ∈ L ∧ (∀ i < g, (i, i) ∉ L) ∧
    ∀ v, Reach L g v → Live L v → Reach L v g

end Verif.Spec
