import Verif.Proofs.Weak

/-! # Properties C09, C10: weak convergence checks of `src/stabilization.cc` -/

set_option linter.unusedSectionVars false

namespace Verif.Props
open Verif.Spec Verif.Model

universe u
variable {σ : Type u} [Fintype σ] [DecidableEq σ]

/-- **C09.** The 2-argument weak convergence check terminates and says exactly whether every
state can reach the invariant. -/
theorem C09_weak_convergence_exact (xn : Finset (σ × σ)) (I : Finset σ) (fuel : ℕ)
    (hf : Fintype.card σ < fuel) :
    ∃ b, weakConv2 fuel xn I = some b ∧ (b = true ↔ ∀ s, ∃ t ∈ I, Reach xn s t) := by
  obtain ⟨r, hr, h⟩ := preReach_total xn I fuel hf
  refine ⟨decide (r = Finset.univ), by simp [weakConv2, hr], ?_⟩
  rw [decide_eq_true_iff]
  constructor
  · intro hu s
    exact (h s).1 (by simp [hu])
  · intro hall
    ext s
    simp [(h s).2 (hall s)]

/-- `0 → 1 → 2 → 1`, `3 → 0`: everything can reach `{2}`; only `0, 3` can reach `{0}`. -/
example : weakConv2 5 ({(0, 1), (1, 2), (2, 1), (3, 0)} : Finset (Fin 4 × Fin 4)) {2} = some true ∧
    weakConv2 5 ({(0, 1), (1, 2), (2, 1), (3, 0)} : Finset (Fin 4 × Fin 4)) {0} = some false := by
  decide

/-- **C10.** The 4-argument check terminates.  With `K` the largest (finite) distance to `I`
inside `A`: if the limit `m` is absent (`0`) or at least `K + 1`, the verdict says exactly
whether every state of `A` reaches `I` inside `A`, and the reported layer count is `K + 1`.
Otherwise the check gives up with `false` and `m + 1`.  A null pointer behaves like no limit. -/
theorem C10_weak_convergence_layers_exact (xn : Finset (σ × σ)) (I A : Finset σ) (fuel : ℕ)
    (hf : Fintype.card σ < fuel) :
    (∃ n, ∃ b, weakConv4 fuel none xn I A = some (b, n) ∧
      (b = true ↔ ∀ s ∈ A, ∃ t ∈ I, ReachIn xn A s t)) ∧
    ∃ K, (∀ s, (∃ t ∈ I, ReachIn xn A s t) → DistLe xn A I K s) ∧
      (∀ j < K, ∃ s, DistLe xn A I (j + 1) s ∧ ¬ DistLe xn A I j s) ∧
      ∀ m, ∃ r, weakConv4 fuel (some m) xn I A = some r ∧
        ((m = 0 ∨ K + 1 ≤ m) → r.2 = K + 1 ∧
          (r.1 = true ↔ ∀ s ∈ A, ∃ t ∈ I, ReachIn xn A s t)) ∧
        (¬ (m = 0 ∨ K + 1 ≤ m) → r = (false, m + 1)) := by
  have hempty : ∀ k, spanW xn A I k = spanW xn A I (k + 1) →
      (spanW xn A I k = ∅ ↔ ∀ s ∈ A, ∃ t ∈ I, ReachIn xn A s t) := by
    intro k hk
    rw [Finset.eq_empty_iff_forall_notMem]
    constructor
    · intro h s hs
      by_contra hc
      exact h s ((spanW_final hk s).2 ⟨hs, hc⟩)
    · intro h s hs
      obtain ⟨h1, h2⟩ := (spanW_final hk s).1 hs
      exact h2 (h s h1)
  constructor
  · obtain ⟨r, hr, hp⟩ := weakConv4_total xn A I none fuel hf
    rcases hp with ⟨m, hm, _⟩ | ⟨k, hk, _, h3, _⟩
    · cases hm
    · refine ⟨r.2, r.1, hr, ?_⟩
      rw [h3, decide_eq_true_iff]
      exact hempty k hk
  · obtain ⟨K, hK, hK2⟩ : ∃ K, spanW xn A I K = spanW xn A I (K + 1) ∧
        ∀ j < K, spanW xn A I j ≠ spanW xn A I (j + 1) := by
      obtain ⟨r, _, hp⟩ := weakConv4_total xn A I none fuel hf
      rcases hp with ⟨m, hm, _⟩ | ⟨k, hk, hk2, _⟩
      · cases hm
      · exact ⟨k, hk, hk2⟩
    refine ⟨K, ?_, ?_, ?_⟩
    · intro s hs
      have hsA : s ∈ A := by obtain ⟨_, _, h, _⟩ := hs; exact h
      by_contra hd
      exact ((spanW_final hK s).1 (mem_spanW.2 ⟨hsA, hd⟩)).2 hs
    · intro j hj
      by_contra hcon
      push Not at hcon
      apply hK2 j hj
      ext s
      simp only [mem_spanW]
      constructor
      · rintro ⟨h1, h2⟩; exact ⟨h1, fun h => h2 (hcon s h)⟩
      · rintro ⟨h1, h2⟩; exact ⟨h1, fun h => h2 (Or.inl h)⟩
    · intro m
      obtain ⟨r, hr, hp⟩ := weakConv4_total xn A I (some m) fuel hf
      have huniq : ∀ k, spanW xn A I k = spanW xn A I (k + 1) →
          (∀ j < k, spanW xn A I j ≠ spanW xn A I (j + 1)) → k = K := by
        intro k h1 h2
        rcases Nat.lt_trichotomy k K with h | h | h
        · exact absurd h1 (hK2 k h)
        · exact h
        · exact absurd hK (h2 K h)
      refine ⟨r, hr, ?_, ?_⟩
      · intro hm
        rcases hp with ⟨m', hm', h0, _, h2⟩ | ⟨k, hk, hk2, h3, h4⟩
        · cases hm'
          rcases hm with hm | hm
          · omega
          · exact absurd hK (h2 K (by omega))
        · have := huniq k hk hk2
          subst this
          refine ⟨(h4 m rfl).1, ?_⟩
          rw [h3, decide_eq_true_iff]
          exact hempty k hk
      · intro hm
        rcases hp with ⟨m', hm', h0, h1, h2⟩ | ⟨k, hk, hk2, h3, h4⟩
        · cases hm'; exact h1
        · have := huniq k hk hk2
          subst this
          exact absurd (h4 m rfl).2 hm

/-- `4 → 3 → 2 → 1 → 0`, but `1 ∉ A`: from `A = {0,2,3,5}` with invariant `{0, 2}` the state `5`
has no path; from `{0,2,3}` the largest distance is one, so two layers. -/
example : weakConv4 7 (some 0) ({(4, 3), (3, 2), (2, 1), (1, 0)} : Finset (Fin 6 × Fin 6)) {0, 2}
      {0, 2, 3, 5} = some (false, 2) ∧
    weakConv4 7 (some 0) ({(4, 3), (3, 2), (2, 1), (1, 0)} : Finset (Fin 6 × Fin 6)) {0, 2}
      {0, 2, 3} = some (true, 2) ∧
    weakConv4 7 (some 1) ({(4, 3), (3, 2), (2, 1), (1, 0)} : Finset (Fin 6 × Fin 6)) {0, 2}
      {0, 2, 3} = some (false, 2) := by decide

end Verif.Props
