import Mathlib.Algebra.BigOperators.Group.Finset.Basic
import Mathlib.Data.Fintype.Card
import Mathlib.Order.Interval.Finset.Nat
import Verif.Spec.Trans

/-! Specification of the choice of the next action (C81, C82), without ranks, lists or maps. -/

namespace Verif.Spec
open scoped BigOperators

/-- What the choice is about in one system: its unresolved deadlocks, the candidate actions, and which action
resolves which deadlock.  `whole` is false for a system that is only used for verification. -/
structure Waiting where
  State : Type
  whole : Prop
  dead : State → Prop
  cands : Finset ℕ
  resolves : ℕ → State → Prop

/-- The number of candidates that resolve a deadlock. -/
noncomputable def Waiting.options (w : Waiting) (s : w.State) : ℕ :=
  have := Classical.decPred fun a => w.resolves a s
  (w.cands.filter fun a => w.resolves a s).card

/-- A deadlock that must be and can be resolved. -/
def Waiting.Open (w : Waiting) (s : w.State) : Prop := w.whole ∧ w.dead s ∧ ∃ a ∈ w.cands, w.resolves a s

/-- The action resolves a most constrained deadlock: there is a deadlock that it resolves and no other one, in
no system, has fewer candidates. -/
def MostConstrained (l : List Waiting) (a : ℕ) : Prop :=
  ∃ w ∈ l, ∃ s, w.Open s ∧ a ∈ w.cands ∧ w.resolves a s ∧ ∀ v ∈ l, ∀ t, v.Open t → w.options s ≤ v.options t

section
variable {S : Type} [DecidableEq S] (pre : ℕ → Finset S)

/-- The number of candidates that resolve a state. -/
def resolvedBy (C : Finset ℕ) (s : S) : ℕ := (C.filter fun a => s ∈ pre a).card

/-- The candidates that resolve some deadlock of rank `k`, that is, one with exactly `k` candidates. -/
def atRank (C : Finset ℕ) (D : Finset S) (k : ℕ) : Finset ℕ :=
  C.filter fun a => ∃ s ∈ D, resolvedBy pre C s = k ∧ s ∈ pre a

/-- The two actions resolve a common deadlock of rank `k`. -/
def Together (C : Finset ℕ) (D : Finset S) (k a b : ℕ) : Prop :=
  ∃ s ∈ D, resolvedBy pre C s = k ∧ s ∈ pre a ∧ s ∈ pre b

instance (C : Finset ℕ) (D : Finset S) (k a b : ℕ) : Decidable (Together pre C D k a b) := by
  unfold Together; infer_instance

/-- The weight of an action in the greedy method: the sum of the ranks from `k` on at which it resolves
something. -/
def rankSum (C : Finset ℕ) (D : Finset S) (k a : ℕ) : ℕ :=
  ∑ j ∈ (Finset.Icc k C.card).filter (fun j => a ∈ atRank pre C D j), j

/-- The weight of an action in the slow greedy method: the number of other actions, for each rank from `k` on,
with which it resolves a common deadlock. -/
def rivals (C : Finset ℕ) (D : Finset S) (k a : ℕ) : ℕ :=
  ∑ j ∈ Finset.Icc k C.card, (C.filter fun b => b ≠ a ∧ Together pre C D j a b).card

/-- What is left for the other deadlocks when `a` is added: the number of candidates of each rank, summed. -/
def leftWith (C : Finset ℕ) (D : Finset S) (a : ℕ) : ℕ :=
  ∑ j ∈ Finset.Icc 1 C.card, (atRank pre (C.erase a) (D.filter fun s => s ∉ pre a) j).card

end

/-- `t` are the elements of `c` with the greatest value. -/
def MaxOf (f : ℕ → ℕ) (c t : Finset ℕ) : Prop := ∀ a, a ∈ t ↔ a ∈ c ∧ ∀ b ∈ c, f b ≤ f a

/-- `t` are the elements of `c` with the least value. -/
def MinOf (f : ℕ → ℕ) (c t : Finset ℕ) : Prop := ∀ a, a ∈ t ↔ a ∈ c ∧ ∀ b ∈ c, f a ≤ f b

end Verif.Spec
