import Verif.Proofs.Interactive
import Mathlib.Data.Fintype.Prod
import Mathlib.Data.Fintype.Powerset

/-! Properties C45 and C63: the interactive simulator. -/

set_option linter.unusedSectionVars false

namespace Verif.Props
open Verif.Model Verif.Proofs

variable {n : ℕ} {dom : Fin n → ℕ}

/-- Specification: `t` can be offered in `s`: another state inside the mask, related by the
transition relation (forward or backward). -/
def Offer (xn : Finset (ISt n dom × ISt n dom)) (mask : Finset (ISt n dom)) (fwd : Bool)
    (s t : ISt n dom) : Prop :=
  t ≠ s ∧ (if fwd then (s, t) ∈ xn else (t, s) ∈ xn) ∧ t ∈ mask

/-- **C45.** Whatever states the backend picks, `next_options` terminates, and its lines, when
applied to the state, give each successor (predecessor) inside the mask other than the state
itself exactly once and nothing else; no line repeats; each line assigns exactly the variables
that change. -/
theorem C45_next_options (pick : Finset (ISt n dom) → ISt n dom)
    (hpick : ∀ P, P.Nonempty → pick P ∈ P) (xn : Finset (ISt n dom × ISt n dom))
    (mask : Finset (ISt n dom)) (fwd : Bool) (s : ISt n dom) :
    ∃ lines, (∀ fuel, mask.card < fuel → nextOptions pick xn mask fwd fuel s = some lines) ∧
      lines.Nodup ∧ (lines.map (assignLine s)).Nodup ∧
      (∀ t, t ∈ lines.map (assignLine s) ↔ Offer xn mask fwd s t) ∧
      ∀ line ∈ lines, ∀ i, i ∈ line.map Prod.fst ↔ assignLine s line i ≠ s i := by
  obtain ⟨xs, h1, h2, h3⟩ := nextOptions_spec pick hpick xn mask fwd (mask.card + 1) s (by omega)
  have hmap : (xs.map (optLine s)).map (assignLine s) = xs := by
    rw [List.map_map]
    conv_rhs => rw [← List.map_id xs]
    apply List.map_congr_left
    intro x _
    exact assign_optLine s x
  refine ⟨xs.map (optLine s), fun fuel hf => ?_, ?_, ?_, ?_, ?_⟩
  · obtain ⟨ys, g1, g2, g3⟩ := nextOptions_spec pick hpick xn mask fwd fuel s hf
    -- more fuel does not change the result
    rw [← h1]
    unfold nextOptions
    have : ∀ (l : List (Fin n)) (next : Finset (ISt n dom)) lines, next.card ≤ mask.card →
        optVbls pick s fuel l next lines = optVbls pick s (mask.card + 1) l next lines := by
      intro l
      induction l with
      | nil => intros; rfl
      | cons v l ih =>
        intro next lines hle
        have hle1 : (next.filter fun x => x v ≠ s v).card ≤ mask.card :=
          le_trans (Finset.card_filter_le _ _) hle
        have e : optLoop pick s fuel (next.filter fun x => x v ≠ s v) lines =
            optLoop pick s (mask.card + 1) (next.filter fun x => x v ≠ s v) lines := by
          obtain ⟨zs, z1, -⟩ := optLoop_spec pick hpick s (mask.card + 1) (next.filter fun x => x v ≠ s v)
            lines (by omega)
          rw [z1]
          unfold optLoop at z1 ⊢
          exact loopFuel_mono (by omega) _ _ z1
        rw [optVbls, optVbls, e]
        congr 1
        funext ls
        exact ih _ ls (le_trans (Finset.card_filter_le _ _) hle)
    exact this _ _ _ (Finset.card_le_card Finset.inter_subset_right)
  · apply List.Nodup.of_map (assignLine s)
    rw [hmap]; exact h2
  · rw [hmap]; exact h2
  · intro t; rw [hmap]; exact h3 t
  · intro line hl i
    obtain ⟨x, -, rfl⟩ := List.mem_map.1 hl
    rw [assign_optLine]
    constructor
    · intro h
      obtain ⟨a, ha, rfl⟩ := List.mem_map.1 h
      exact (mem_optLine.1 ha).1
    · intro h
      exact List.mem_map.2 ⟨(i, (x i).val), mem_optLine.2 ⟨h, rfl⟩, rfl⟩

/-- **C63, steps.** The command `step k` never fails, and visits a path of offered states
of at most `k` steps; it is shorter only if the last state offers nothing. -/
theorem C63_step (pick : Finset (ISt n dom) → ISt n dom)
    (hpick : ∀ P, P.Nonempty → pick P ∈ P) (xn : Finset (ISt n dom × ISt n dom))
    (mask : Finset (ISt n dom)) (fwd : Bool) (rnd : ℕ → ℕ → ℕ) (hr : ∀ k m, 0 < m → rnd k m < m)
    (fuel : ℕ) (hf : mask.card < fuel) :
    ∀ (k : ℕ) (s : ISt n dom), ∃ path, stepCmd pick xn mask fwd fuel rnd k s = some path ∧
      path.head? = some s ∧ path.IsChain (Offer xn mask fwd) ∧ path.length ≤ k + 1 ∧
      (path.length < k + 1 → ∀ t ∈ path.getLast?, ∀ u, ¬ Offer xn mask fwd t u) := by
  intro k
  induction k with
  | zero => intro s; exact ⟨[s], rfl, rfl, by simp, by simp, by simp⟩
  | succ k ih =>
    intro s
    obtain ⟨xs, h1, h2, h3⟩ := nextOptions_spec pick hpick xn mask fwd fuel s hf
    unfold stepCmd
    rw [h1]
    cases xs with
    | nil =>
      simp only [List.map_nil]
      refine ⟨[s], rfl, rfl, by simp, by simp, fun _ t ht u hu => ?_⟩
      simp only [List.getLast?_singleton, Option.mem_def, Option.some.injEq] at ht
      subst ht
      have := (h3 u).2 hu
      simp at this
    | cons x xs =>
      simp only [List.map_cons]
      have hlt := hr k (optLine s x :: xs.map (optLine s)).length (by simp)
      rw [List.getElem?_eq_getElem hlt]
      simp only
      have hm := List.getElem_mem hlt
      generalize (optLine s x :: xs.map (optLine s))[rnd k (optLine s x :: xs.map (optLine s)).length] = line
        at hm ⊢
      rw [← List.map_cons, List.mem_map] at hm
      obtain ⟨y, hy, rfl⟩ := hm
      rw [assign_optLine]
      obtain ⟨path, p1, p2, p3, p4, p5⟩ := ih y
      refine ⟨s :: path, by rw [p1]; rfl, rfl, ?_, by simp; omega, ?_⟩
      · rw [List.isChain_cons]
        refine ⟨fun z hz => ?_, p3⟩
        rw [p2] at hz
        simp only [Option.mem_def, Option.some.injEq] at hz
        subst hz
        exact (h3 y).1 hy
      · intro hl t ht
        cases path with
        | nil => simp at p2
        | cons z path =>
          rw [List.getLast?_cons_cons] at ht
          exact p5 (by simpa using hl) t ht

/-- **C63, randomize.** In a nonempty mask `randomize` always succeeds with a state of the mask; with
an empty mask the state is kept. -/
theorem C63_randomize (rnd : ℕ → ℕ → ℕ) (hr : ∀ k m, 0 < m → rnd k m < m) (idcs : List (Fin n))
    (hidcs : ∀ i, i ∈ idcs) (mask : Finset (ISt n dom)) (s : ISt n dom) :
    ∃ r, randomizeState rnd idcs mask s = some r ∧ (mask.Nonempty → r ∈ mask) ∧ (mask = ∅ → r = s) := by
  unfold randomizeState
  split
  · rename_i hne
    obtain ⟨r, h1, h2⟩ := randLoop_mem rnd hr idcs mask s hne (fun x _ i hi => absurd (hidcs i) hi)
    exact ⟨r, h2, fun _ => h1, fun h => by rw [h] at hne; simp at hne⟩
  · rename_i hne
    exact ⟨s, rfl, fun h => absurd h hne, fun _ => rfl⟩

/-- **C63, randomize reaches every state.** Each state of the mask is the result for some random
numbers, whatever the order of the variables. -/
theorem C63_randomize_all (idcs : List (Fin n)) (hidcs : ∀ i, i ∈ idcs) (mask : Finset (ISt n dom))
    (s t : ISt n dom) (ht : t ∈ mask) :
    ∃ rnd : ℕ → ℕ → ℕ, (∀ k m, 0 < m → rnd k m < m) ∧ randomizeState rnd idcs mask s = some t := by
  obtain ⟨rnd, h1, h2⟩ := randLoop_all idcs mask s t ht (fun i hi => absurd (hidcs i) hi)
  refine ⟨rnd, h1, ?_⟩
  unfold randomizeState
  rw [if_pos ⟨t, ht⟩, h2]

/-! ### A concrete case: two bits, from (0,0) to all states -/

def exI : Finset (ISt 2 fun _ => 2) := Finset.univ

def exXn : Finset (ISt 2 (fun _ => 2) × ISt 2 (fun _ => 2)) := Finset.univ

def exS : ISt 2 fun _ => 2 := fun _ => 0

/-- A backend picking states in a fixed order. -/
def exPick (P : Finset (ISt 2 fun _ => 2)) : ISt 2 fun _ => 2 :=
  ([fun _ => 0, fun i => if i = 0 then 1 else 0, fun i => if i = 0 then 0 else 1, fun _ => 1].find?
    (· ∈ P)).getD fun _ => 0

theorem exPick_mem : ∀ P, P.Nonempty → exPick P ∈ P := by decide +kernel

example : nextOptions exPick exXn exI true 5 exS = some [[(0, 1)], [(0, 1), (1, 1)], [(1, 1)]] := by
  decide +kernel

example : ∃ lines, (∀ fuel, exI.card < fuel → nextOptions exPick exXn exI true fuel exS = some lines) ∧
    lines.Nodup ∧ (lines.map (assignLine exS)).Nodup ∧
    (∀ t, t ∈ lines.map (assignLine exS) ↔ Offer exXn exI true exS t) ∧
    ∀ line ∈ lines, ∀ i, i ∈ line.map Prod.fst ↔ assignLine exS line i ≠ exS i :=
  C45_next_options exPick exPick_mem exXn exI true exS

example : randomizeState (fun _ m => m - 1) [1, 0] exI exS = some fun _ => 1 := by decide +kernel

end Verif.Props
