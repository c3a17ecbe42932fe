import Mathlib.Data.Finset.Basic
import Mathlib.Logic.Relation

/-!
# Specification vocabulary for finite transition systems

Small and independent of the model of the C++ code: steps, reachability, cycles, closed
sets, maximal executions, self-stabilization.
-/

namespace Verif.Spec

universe u
variable {σ : Type u}

/-- `t` is a successor of `s`. -/
def Step (xn : Finset (σ × σ)) (s t : σ) : Prop := (s, t) ∈ xn

/-- A finite, possibly empty, sequence of transitions leads from `s` to `t`. -/
def Reach (xn : Finset (σ × σ)) (s t : σ) : Prop := Relation.ReflTransGen (Step xn) s t

/-- `s` lies on a cycle (a nonempty sequence of transitions leads back to `s`). -/
def OnCycle (xn : Finset (σ × σ)) (s : σ) : Prop := Relation.TransGen (Step xn) s s

/-- `s` lies on a cycle all of whose states are in `A`. -/
def OnCycleIn (xn : Finset (σ × σ)) (A : Finset σ) (s : σ) : Prop :=
  Relation.TransGen (fun a b => Step xn a b ∧ a ∈ A ∧ b ∈ A) s s

/-- A path from `s` to `t` all of whose states are in `A`. -/
def ReachIn (xn : Finset (σ × σ)) (A : Finset σ) (s t : σ) : Prop :=
  s ∈ A ∧ Relation.ReflTransGen (fun a b => Step xn a b ∧ b ∈ A) s t

/-- No transition leaves `A`. -/
def Closed (xn : Finset (σ × σ)) (A : Finset σ) : Prop :=
  ∀ s ∈ A, ∀ t, Step xn s t → t ∈ A

/-- No transition starts at `s`. -/
def Deadlock (xn : Finset (σ × σ)) (s : σ) : Prop := ∀ t, ¬ Step xn s t

/-- `StepN xn n s t`: exactly `n` transitions lead from `s` to `t`. -/
def StepN (xn : Finset (σ × σ)) : ℕ → σ → σ → Prop
  | 0, s, t => s = t
  | n + 1, s, t => ∃ u, Step xn s u ∧ StepN xn n u t

/-- An infinite execution: each state is followed by one of its successors. -/
def InfExec (xn : Finset (σ × σ)) (e : ℕ → σ) : Prop := ∀ n, Step xn (e n) (e (n + 1))

/-- A maximal execution.  A finite one, which must end in a deadlock state, is padded by
repeating that last state forever. -/
def MaxExec (xn : Finset (σ × σ)) (e : ℕ → σ) : Prop :=
  ∀ n, Step xn (e n) (e (n + 1)) ∨ (Deadlock xn (e n) ∧ e (n + 1) = e n)

/-- Self-stabilization of `xn` from the assumed states `A` to the states `I`. -/
structure SelfStab (xn : Finset (σ × σ)) (A I : Finset σ) : Prop where
  nonempty : I.Nonempty
  subset : I ⊆ A
  closed_assume : Closed xn A
  closed : Closed xn I
  converges : ∀ e, MaxExec xn e → e 0 ∈ A → ∃ n, ∀ m, n ≤ m → e m ∈ I

end Verif.Spec
