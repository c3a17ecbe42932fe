import Verif.Proofs.StabProb

/-! # Property C53: the stabilization check for randomized protocols -/

set_option linter.unusedSectionVars false

namespace Verif.Props
open Verif.Spec Verif.Model

universe u v
variable {σ : Type u} [Fintype σ] [DecidableEq σ] {τ : Type v} [DecidableEq τ]

/-- **C53.** For a protocol with random assignments the check terminates without assertion
failure; and an accepted protocol is weakly self-stabilizing against every scheduler: the
reported invariant is nonempty, closed, part of the specified one, and from each assumed state,
whatever process the scheduler picks at each step, random outcomes leading into the invariant
within `card σ` steps exist.  `ps` are the transitions by process, `xn` is their union. -/
theorem C53_probabilistic_accept (sys : Sys σ τ) (hp : sys.probabilistic = true) (opt : StabOpt)
    (xn : Finset (σ × σ)) (ps : List (Finset (σ × σ))) (hx : ∀ e, e ∈ xn ↔ ∃ p ∈ ps, e ∈ p)
    (fuel : ℕ) (hf : Fintype.card σ + 1 < fuel) :
    (∃ v, stabCk fuel sys opt xn xn ps = some v ∧ v ≠ .abort) ∧
    ∀ I n, stabCk fuel sys opt xn xn ps = some (.accept (I, n)) →
      I.Nonempty ∧ I ⊆ sys.invariant ∩ sys.closedAssume ∧ Closed xn sys.closedAssume ∧
      Closed xn I ∧ ∀ s ∈ sys.closedAssume, MayReach ps I (Fintype.card σ) s := by
  have hps : ∀ p ∈ ps, p ⊆ xn := fun p hp e he => (hx e).2 ⟨p, hp, he⟩
  obtain ⟨v, h1, h2, h3⟩ := stabCk_prob hp (opt := opt) (lo := xn) (hi := xn) hps hf
  refine ⟨⟨v, h1, h2⟩, ?_⟩
  intro I n hacc
  rw [h1, Option.some.injEq, h3] at hacc
  obtain ⟨scc, hs, _, ha⟩ := hacc
  obtain ⟨X, Y, hY, hX, hXmax, hYX, hYmax⟩ := stabCycles_prob hp (opt := opt) hps hf
  have hsY : scc = Y := by rw [hY] at hs; cases hs; rfl
  subst hsY
  obtain ⟨H, hHI, hIs, _, hIc, hne, _⟩ := accept_core ha (hYX.trans hX.1)
  refine ⟨hne.mono hHI, hIs, ha.closedA, hIc, ?_⟩
  apply mayReach_of_noTrap
  · intro s hs p hp t ht
    exact ha.closedA s hs t (hps p hp ht)
  · intro s hs hsI
    obtain ⟨t, ht⟩ := mem_dom.1 (ha.deadlock' s hs hsI)
    obtain ⟨p, hp, h⟩ := (hx _).1 ht
    exact ⟨p, hp, t, h⟩
  · exact no_trap_outside hp hps hXmax hX.1 hYX hYmax ha

/-- **C53, for history-dependent schedulers.** Every scheduler that picks enabled processes admits
a history from `s` into the invariant, of at most `card σ` steps. -/
theorem C53_every_scheduler (ps : List (Finset (σ × σ))) (A I : Finset σ)
    (hcl : ∀ s ∈ A, ∀ p ∈ ps, ∀ t, (s, t) ∈ p → t ∈ A) (sch : List σ → Finset (σ × σ))
    (hsch : ∀ s h, s ∈ A → s ∉ I → sch (s :: h) ∈ ps ∧ Enabled (sch (s :: h)) s)
    (s : σ) (hs : s ∈ A) (n : ℕ) (hm : MayReach ps I n s) :
    ∃ t h, Follows sch s (t :: h) ∧ t ∈ I ∧ h.length ≤ n := by
  have key : ∀ n s' h, s' ∈ A → MayReach ps I n s' → Follows sch s (s' :: h) →
      ∃ t h', Follows sch s (t :: h') ∧ t ∈ I ∧ h'.length ≤ h.length + n := by
    intro n
    induction n with
    | zero => intro s' h _ hm hf; exact ⟨s', h, hf, hm, by omega⟩
    | succ n ih =>
      intro s' h hA hm hf
      by_cases hI : s' ∈ I
      · exact ⟨s', h, hf, hI, by omega⟩
      · rcases hm with hm | ⟨_, hm⟩
        · exact absurd hm hI
        · obtain ⟨h1, h2⟩ := hsch s' h hA hI
          obtain ⟨t, ht, hmt⟩ := hm _ h1 h2
          obtain ⟨t', h', h3, h4, h5⟩ := ih t (s' :: h) (hcl s' hA _ h1 t ht) hmt (.step hf ht)
          exact ⟨t', h', h3, h4, by simp at h5; omega⟩
  obtain ⟨t, h, h1, h2, h3⟩ := key n s [] hs hm .start
  exact ⟨t, h, h1, h2, by simpa using h3⟩

/-- Randomized protocol on `{0, 1, 2}`: legitimate state `2`; process one moves from `0` to `1` or
`2` at random, process two from `1` to `0`.  The deterministic check would find the cycle
`0 → 1 → 0`; the randomized protocol is accepted, and without the random outcome rejected. -/
def exProb : Sys (Fin 3) (Fin 3) where
  invariant := {2}
  closedAssume := Finset.univ
  shadowXn := ∅
  identXn := {(0, 0), (1, 1), (2, 2)}
  proj := id
  shadowPuppet := false
  probabilistic := true
  style := .closed
  scope := .direct
  behav := .shadow

example : (∀ e, e ∈ ({(0, 1), (0, 2), (1, 0)} : Finset (Fin 3 × Fin 3)) ↔
      ∃ p ∈ [({(0, 1), (0, 2)} : Finset (Fin 3 × Fin 3)), {(1, 0)}], e ∈ p) ∧
    stabCk 6 exProb ⟨0, false, false⟩ {(0, 1), (0, 2), (1, 0)} {(0, 1), (0, 2), (1, 0)}
      [{(0, 1), (0, 2)}, {(1, 0)}] = some (.accept ({2}, 1)) ∧
    stabCk 6 exProb ⟨0, false, false⟩ {(0, 1), (0, 2), (1, 0)} {(0, 1), (0, 2), (1, 0)}
      [{(0, 1)}, {(0, 2)}, {(1, 0)}] = some .reject := by
  decide +kernel

end Verif.Props
