import Verif.Model.Conflict

/-! Specification vocabulary for the conflict database: client histories and what they teach. -/

namespace Verif.Spec

/-- A client operation that only adds knowledge.  `table` is the overload taking a table with
possible repetitions, `fam` merges another database that stores the sets `l`, `flat` delivers a
length-prefixed message made from the given sets, `flush` and `discard` are the two ways to empty
the outbox. -/
inductive COp where
  | add (b : Finset ℕ)
  | table (b : List ℕ)
  | single (e : ℕ)
  | fam (l : List (Finset ℕ))
  | flat (l : List (List ℕ))
  | flush
  | discard

/-- The conflicts that an operation announces, in order. -/
def COp.learned : COp → List (Finset ℕ)
  | .add b => [b]
  | .table b => [b.toFinset]
  | .single e => [{e}]
  | .fam l => l
  | .flat l => l.map List.toFinset
  | .flush => []
  | .discard => []

/-- The conflicts announced by a history. -/
def learnedAll (h : List COp) : List (Finset ℕ) := h.flatMap COp.learned

/-- `S` contains a conflict of `L`. -/
def Forbidden (L : List (Finset ℕ)) (S : Finset ℕ) : Prop := ∃ b ∈ L, b ⊆ S

/-- The conflicts of a sequence that say something new when they are announced: those that do not
contain a conflict of `known` or an earlier one of the sequence. -/
def news (known : List (Finset ℕ)) : List (Finset ℕ) → List (Finset ℕ)
  | [] => []
  | b :: l =>
    if ∃ a ∈ known, a ⊆ b then news known l
    else b :: news (known ++ [b]) l

end Verif.Spec
