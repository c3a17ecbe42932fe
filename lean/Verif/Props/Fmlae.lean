import Verif.Proofs.Fmlae

/-! # Properties C07, C08: process-wise cycle checks of `src/xfmlae.cc` -/

set_option linter.unusedSectionVars false

namespace Verif.Props
open Verif.Spec Verif.Model

universe u
variable {σ : Type u} [Fintype σ] [DecidableEq σ]

/-- **C07.** The process-wise cycle check terminates for every assumed set (closed or not);
without layer limit its verdict is exact, and the reported set consists of exactly the states on
a path, inside `A`, from a cycle inside `A` to a cycle inside `A`. `xn` is the union of the
process relations. -/
theorem C07_process_cycle_ck_exact (ps : List (Finset (σ × σ))) (xn : Finset (σ × σ))
    (hx : ∀ e, e ∈ xn ↔ ∃ p ∈ ps, e ∈ p) (A : Finset σ) (inv : Option (Finset σ)) (lim : Option ℕ)
    (hlim : lim = none ∨ lim = some 0) (fuel : ℕ) (hf : Fintype.card σ < fuel) :
    ∃ r scc, fcycleCk fuel ps lim inv (some A) = some r ∧ r.scc = some scc ∧
      (r.ret = true ↔ ∃ s, OnCycleIn xn A s) ∧
      (∀ s, OnCycleIn xn A s → s ∈ scc) ∧
      ∀ s, s ∈ scc ↔
        (∃ c, OnCycleIn xn A c ∧
          Relation.ReflTransGen (fun a b => Step xn a b ∧ a ∈ A ∧ b ∈ A) c s) ∧
        (∃ c, OnCycleIn xn A c ∧
          Relation.ReflTransGen (fun a b => Step xn a b ∧ a ∈ A ∧ b ∈ A) s c) := by
  obtain ⟨r, hr, hp⟩ := fcycle_total hx lim inv (some A) fuel hf
  rcases hp with ⟨m, hm, h0, _⟩ | ⟨G, h1, h2, h3⟩
  · rcases hlim with h | h
    · rw [h] at hm; cases hm
    · rw [h] at hm; cases hm; omega
  · simp only [Option.getD_some] at h3
    refine ⟨r, G, hr, h1, ?_, ?_, ?_⟩
    · rw [h2, decide_eq_true_iff, h3]
      constructor
      · rintro ⟨s, hs⟩
        obtain ⟨⟨c, hc, _⟩, _⟩ := mem_between.1 hs
        exact ⟨c, hc⟩
      · rintro ⟨s, hs⟩
        exact ⟨s, mem_between.2 ⟨⟨s, hs, Relation.ReflTransGen.refl⟩, s, hs, Relation.ReflTransGen.refl⟩⟩
    · intro s hs
      rw [h3]
      exact mem_between.2 ⟨⟨s, hs, Relation.ReflTransGen.refl⟩, s, hs, Relation.ReflTransGen.refl⟩
    · intro s; rw [h3]; exact mem_between

/-- Two processes, `0 → 1` and `1 → 0, 1 → 2`; the assumed set `{0,1}` is not closed. -/
example : fcycleCk 4 [({(0, 1)} : Finset (Fin 3 × Fin 3)), {(1, 0), (1, 2)}] none none (some {0, 1})
      = some ⟨true, some {0, 1}, 0⟩ ∧
    fcycleCk 4 [({(0, 1)} : Finset (Fin 3 × Fin 3)), {(1, 0), (1, 2)}] none none (some {0})
      = some ⟨false, some ∅, 0⟩ := by decide

/-- The English notion of an adversarial trap: a set inside `A` in which a scheduler can always
pick an enabled process that surely stays in the set and surely makes no progress. -/
def IsTrap (ps : List (Finset (σ × σ))) (progress : Finset (σ × σ)) (A X : Finset σ) : Prop :=
  X ⊆ A ∧ ∀ s ∈ X, ∃ p ∈ ps, (∃ t, (s, t) ∈ p) ∧ ∀ t, (s, t) ∈ p → (s, t) ∉ progress ∧ t ∈ X

/-- **C08.** The probabilistic livelock check terminates.  Without the `scc` output it computes
the largest trap; its verdict (nonemptiness) is therefore exact, and requesting the `scc` output
yields a trap with the same verdict.  `g` is the global relation passed by the callers, which
contains the process relations. -/
theorem C08_probabilistic_livelock_exact (ps : List (Finset (σ × σ))) (progress : Finset (σ × σ))
    (A : Finset σ) (g : Finset (σ × σ)) (hg : ∀ p ∈ ps, p ⊆ g) (fuel : ℕ)
    (hf : Fintype.card σ + 1 < fuel) :
    ∃ X Y, probLivelock fuel ps false A progress (some g) = some X ∧
      probLivelock fuel ps true A progress (some g) = some Y ∧
      IsTrap ps progress A X ∧ (∀ Z, IsTrap ps progress A Z → Z ⊆ X) ∧
      Y ⊆ X ∧ IsTrap ps progress A Y ∧
      (X.Nonempty ↔ ∃ Z, Z.Nonempty ∧ IsTrap ps progress A Z) ∧ (X.Nonempty ↔ Y.Nonempty) := by
  obtain ⟨X, hX, hX1, hX2⟩ := plBody1_total (ps := ps) (progress := progress) (A := A) (S1 := dom g)
    (by
      intro X hX s hs
      obtain ⟨p, hp, ⟨t, ht⟩, _⟩ := hX.2 s hs
      exact mem_dom.2 ⟨t, hg p hp ht⟩) fuel hf
  obtain ⟨Y, hY, hY1, hY2, hY3⟩ := plBody2_total (xn := g) (X := X) fuel hf
  have hYtrap : IsTrap ps progress A Y := by
    refine ⟨hY1.trans hX1.1, ?_⟩
    intro s hs
    obtain ⟨p, hp, h1, h2⟩ := hX1.2 s (hY1 hs)
    refine ⟨p, hp, h1, fun t ht => ⟨(h2 t ht).1, ?_⟩⟩
    have : insert t Y ⊆ Y := by
      apply hY3
      · intro x hx
        rcases Finset.mem_insert.1 hx with rfl | hx
        · exact (h2 _ ht).2
        · exact hY1 hx
      · intro x hx
        rcases Finset.mem_insert.1 hx with rfl | hx
        · exact ⟨s, Finset.mem_insert_of_mem hs, hg p hp ht⟩
        · obtain ⟨y, hy, hyx⟩ := hY2 x hx
          exact ⟨y, Finset.mem_insert_of_mem hy, hyx⟩
    exact this (Finset.mem_insert_self _ _)
  refine ⟨X, Y, ?_, ?_, hX1, hX2, hY1, hYtrap, ?_, ?_⟩
  · simp [probLivelock, hX]
  · simp [probLivelock, hX, hY]
  · exact ⟨fun h => ⟨X, h, hX1⟩, fun ⟨Z, ⟨s, hs⟩, hZ⟩ => ⟨s, hX2 Z hZ hs⟩⟩
  · constructor
    · rintro ⟨s, hs⟩
      have hsucc : HasSucc g X := by
        intro s hs
        obtain ⟨p, hp, ⟨t, ht⟩, h2⟩ := hX1.2 s hs
        exact ⟨t, (h2 t ht).2, hg p hp ht⟩
      obtain ⟨c, _, hc, _⟩ := exists_cycle_of_succ hsucc hs
      refine ⟨c, hY3 (between g X) (fun x hx => between_mem hx) between_hasPred ?_⟩
      exact mem_between.2 ⟨⟨c, hc, Relation.ReflTransGen.refl⟩, c, hc, Relation.ReflTransGen.refl⟩
    · rintro ⟨s, hs⟩; exact ⟨s, hY1 hs⟩

/-- Two processes on `{0,1,2}`: process one moves `0 → 1` (or, randomly, `0 → 2`), process two
moves `1 → 0`.  The random choice breaks the livelock; without it there is one. -/
example : probLivelock 5 [({(0, 1), (0, 2)} : Finset (Fin 3 × Fin 3)), {(1, 0)}] true {0, 1} ∅
      (some {(0, 1), (0, 2), (1, 0)}) = some ∅ ∧
    probLivelock 5 [({(0, 1)} : Finset (Fin 3 × Fin 3)), {(1, 0)}] true {0, 1} ∅
      (some {(0, 1), (1, 0)}) = some {0, 1} := by decide

end Verif.Props
