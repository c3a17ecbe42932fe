import Verif.Spec.Trans

/-! Specification vocabulary for convergence and simulation. -/

namespace Verif.Spec

universe u v
variable {σ : Type u} {τ : Type v}

/-- From `s`, at most `n` transitions, all through states of `A`, lead into `I`. -/
def DistLe (xn : Finset (σ × σ)) (A I : Finset σ) : ℕ → σ → Prop
  | 0, s => s ∈ A ∧ s ∈ I
  | n + 1, s => DistLe xn A I n s ∨ (s ∈ A ∧ ∃ t, Step xn s t ∧ DistLe xn A I n t)

/-- `sh` performs a specified shadow transition between the shadow views of `s` and `t`. -/
def ShadowStep (sh : Finset (σ × σ)) (view : σ → τ) (s t : σ) : Prop :=
  ∃ e ∈ sh, view e.1 = view s ∧ view e.2 = view t

/-- Some shadow transition is specified from the shadow view of `s`. -/
def ShadowEnabled (sh : Finset (σ × σ)) (view : σ → τ) (s : σ) : Prop :=
  ∃ e ∈ sh, view e.1 = view s

/-- From the protocol state `s`, the maximal execution `e` eventually behaves like the shadow
specification: after some point every step keeps the shadow view or performs a specified shadow
transition, and if the view never changes again then no shadow transition is specified there. -/
def EventuallySimulates (sh : Finset (σ × σ)) (view : σ → τ) (xn : Finset (σ × σ))
    (e : ℕ → σ) : Prop :=
  ∃ n, (∀ m, n ≤ m → Step xn (e m) (e (m + 1)) →
      view (e (m + 1)) = view (e m) ∨ ShadowStep sh view (e m) (e (m + 1))) ∧
    ∀ k, n ≤ k → (∀ m, k ≤ m → view (e (m + 1)) = view (e m)) → ¬ ShadowEnabled sh view (e k)

end Verif.Spec
