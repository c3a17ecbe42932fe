import Verif.Spec.Trans

/-! Specification vocabulary for randomized protocols under adversarial scheduling. -/

namespace Verif.Spec

universe u
variable {σ : Type u}

/-- Process `p` has a transition at `s`. -/
def Enabled (p : Finset (σ × σ)) (s : σ) : Prop := ∃ t, (s, t) ∈ p

/-- Whatever enabled process the scheduler picks at each step, some random outcomes lead from `s`
into `I` within `n` steps. -/
def MayReach (ps : List (Finset (σ × σ))) (I : Finset σ) : ℕ → σ → Prop
  | 0, s => s ∈ I
  | n + 1, s => s ∈ I ∨ ((∃ p ∈ ps, Enabled p s) ∧
      ∀ p ∈ ps, Enabled p s → ∃ t, (s, t) ∈ p ∧ MayReach ps I n t)

/-- Histories (latest state first) that follow the scheduler `sch`, which picks a process from the
history so far. -/
inductive Follows (sch : List σ → Finset (σ × σ)) (s0 : σ) : List σ → Prop
  | start : Follows sch s0 [s0]
  | step {s t : σ} {h : List σ} : Follows sch s0 (s :: h) → (s, t) ∈ sch (s :: h) →
      Follows sch s0 (t :: s :: h)

end Verif.Spec
