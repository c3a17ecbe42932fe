import Verif.Spec.Synth

/-!
Specification vocabulary for the choice of candidate actions: which actions can never be used.
-/

namespace Verif.Spec

/-- An action of a system. -/
structure Offer (S : Type) where
  /-- the transitions of all processes that it stands for -/
  steps : Finset (S × S)
  /-- the transitions of the representative process -/
  own : Finset (S × S)
  /-- what the user forbids -/
  forbidden : Finset (S × S)
  /-- what the user permits; nothing stands for everything -/
  permitted : Finset (S × S)
  /-- it does nothing but repeat the values that it reads -/
  repeats : Prop

/-- The user does not want the action. -/
def Offer.Refused {S : Type} (o : Offer S) : Prop :=
  o.own ⊆ o.forbidden ∨ o.permitted.Nonempty ∧ ¬ o.own ⊆ o.permitted

/-- The action leaves the considered states or the legitimate states, or, if the behavior there is prescribed,
does something else in a legitimate state. -/
def Offer.Breaks {S : Type} (o : Offer S) (d : Demand S) (prescribed : Option (Finset (S × S))) : Prop :=
  ∃ s t, Step o.steps s t ∧
    (s ∈ d.assume ∧ t ∉ d.assume ∨ s ∈ d.legit ∧ t ∉ d.legit ∨ s ∈ d.legit ∧ ∃ x ∈ prescribed, (s, t) ∉ x)

/-- The action must not be used. -/
def Offer.Improper {S : Type} (o : Offer S) (d : Demand S) (prescribed : Option (Finset (S × S))) : Prop :=
  o.Refused ∨ o.repeats ∨ o.Breaks d prescribed

/-- The action can move in some considered state. -/
def Offer.Moves {S : Type} (o : Offer S) (d : Demand S) : Prop := ∃ s t, Step o.steps s t ∧ s ∈ d.assume

/-- A synthesis problem before any choice of candidates: every action may be used unless the user refuses it. -/
structure Problem (S : ℕ → Type) where
  n : ℕ
  demand : ∀ i, Demand (S i)
  offer : ∀ i, ℕ → Offer (S i)
  /-- the actions of a system, each by its representative -/
  known : ℕ → ℕ → Prop
  /-- the actions that must be used -/
  given : Finset ℕ
  /-- sets of actions that must not be used together -/
  banned : Finset ℕ → Prop

/-- `T` is an answer to the problem. -/
structure Answers {S : ℕ → Type} [∀ i, DecidableEq (S i)] (p : Problem S) (T : Finset ℕ) : Prop where
  given : p.given ⊆ T
  wanted : ∀ i < p.n, ∀ a ∈ T, p.known i a → (p.offer i a).steps.Nonempty → ¬ (p.offer i a).Refused
  allowed : ∀ B, p.banned B → ¬ B ⊆ T
  meets : ∀ i < p.n, Meets (p.demand i) (T.biUnion fun a => (p.offer i a).steps)

end Verif.Spec
