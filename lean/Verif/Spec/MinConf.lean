import Verif.Spec.Synth
import Mathlib.Data.List.Sort

/-!
What it means that a set of actions is to blame for nothing by itself, and that a list is sorted stably.
-/

namespace Verif.Spec

/-- Nothing forbidden can happen in `xn`, whatever is added to it: the legitimate states are not left, and cycles
consist of legitimate states; if infinite executions are forbidden there are no cycles. -/
structure Blameless {S : Type} (d : Demand S) (xn : Finset (S × S)) : Prop where
  closed : Closed xn d.legit
  cycles : ∀ s ∈ d.assume, OnCycle xn s → s ∈ d.legit
  quiet : d.silent → ∀ s ∈ d.assume, ¬ OnCycle xn s

/-- `l'` has the members of `l` sorted by `f` in the order `r`; members with the same value stay in order. -/
def StableSort {α : Type} (f : α → ℕ) (r : ℕ → ℕ → Prop) (l l' : List α) : Prop :=
  l'.Perm l ∧ l'.Pairwise (fun a b => r (f a) (f b)) ∧ ∀ k, l'.filter (f · = k) = l.filter (f · = k)

end Verif.Spec
