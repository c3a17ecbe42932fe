import Verif.Proofs.OneCycle
import Verif.Spec.CycleList
import Mathlib.Data.Fintype.Pi
import Mathlib.Data.Fin.VecNotation

/-! Properties C15 and C60: explanations of livelocks. -/

set_option linter.unusedSectionVars false

namespace Verif.Props
open Verif.Model Verif.Spec Verif.Proofs

universe u
variable {σ : Type u} [Fintype σ] [DecidableEq σ]

/-- `pick_pre` chooses some state of a nonempty set. -/
def Picks (pick : Finset σ → Option σ) : Prop := ∀ S : Finset σ, S.Nonempty → ∃ s ∈ S, pick S = some s

/-- C15: if every state of `scc`, and every state of `initial`, has a successor in `scc`, then
`find_one_cycle` stops and returns a cycle inside `scc`. -/
theorem C15_find_one_cycle {pick : Finset σ → Option σ} (hp : Picks pick) {xn : Finset (σ × σ)}
    {scc initial : Finset σ} (hsucc : ∀ s ∈ scc, ∃ t ∈ scc, Step xn s t) (hne : initial.Nonempty)
    (hini : ∀ s ∈ initial, ∃ t ∈ scc, Step xn s t) {fuel : ℕ} (hf : Fintype.card σ < fuel) :
    ∃ l, findOneCycle fuel pick xn scc initial = some l ∧ CycleList xn scc l := by
  obtain ⟨c, t, h1, h2, h3, h4⟩ := findOneCycle_spec hp hsucc hne hini fuel hf
  refine ⟨_, h1, by simp, by rw [← List.cons_append, List.getLast?_concat]; rfl, ?_, ?_, ?_⟩
  · intro i a b ha hb
    rw [List.isChain_iff_getElem] at h2
    obtain ⟨hi, rfl⟩ := List.getElem?_eq_some_iff.1 ha
    obtain ⟨hi', rfl⟩ := List.getElem?_eq_some_iff.1 hb
    exact h2 i hi'
  · intro s hs
    apply h4
    simp only [List.mem_cons, List.mem_append, List.not_mem_nil, or_false] at hs ⊢
    tauto
  · rw [List.tail_cons, List.nodup_append]
    rw [List.nodup_cons] at h3
    refine ⟨h3.2, by simp, fun a ha b hb => ?_⟩
    rw [List.mem_singleton] at hb
    rintro rfl
    subst hb
    exact h3.1 ha

/-- C60: the actions returned by `find_livelock_actions` are among the given ones, and every relation
that contains their transitions still has an infinite walk in both directions through a state
outside the invariant; if the invariant is closed under that relation it has a cycle outside. -/
theorem C60_livelock_actions {pick : Finset σ → Option σ} (hp : Picks pick) {xn : Finset (σ × σ)}
    {scc inv : Finset σ} (hsucc : ∀ s ∈ scc, ∃ t ∈ scc, Step xn s t)
    (hpred : ∀ t ∈ scc, ∃ s ∈ scc, Step xn s t) (hout : ¬ scc ⊆ inv)
    {actXn : ℕ → Finset (σ × σ)} {actions : List ℕ}
    (hxn : ∀ s t, Step xn s t → ∃ a ∈ actions, Step (actXn a) s t)
    {fuel : ℕ} (hf : Fintype.card σ < fuel) :
    ∃ R, findLivelockActions fuel pick xn scc inv actXn actions = some R ∧
      (∀ a ∈ R, a ∈ actions) ∧
      ∀ xn' : Finset (σ × σ), (∀ a ∈ R, actXn a ⊆ xn') →
        (∃ w : ℤ → σ, w 0 ∉ inv ∧ ∀ i, Step xn' (w i) (w (i + 1))) ∧
        (Closed xn' inv → ∃ s, s ∉ inv ∧ OnCycle xn' s) := by
  classical
  have hne : (scc \ inv).Nonempty := by
    rw [Finset.sdiff_nonempty]; exact hout
  obtain ⟨c, t, h1, h2, h3, h4⟩ := findOneCycle_spec hp hsucc hne
    (fun s hs => hsucc s (Finset.mem_sdiff.1 hs).1) fuel hf
  -- a set with predecessors and successors
  have walk : ∀ (xn' : Finset (σ × σ)) (G : Finset σ), (∀ s ∈ G, ∃ t ∈ G, (s, t) ∈ xn') →
      (∀ t ∈ G, ∃ s ∈ G, (s, t) ∈ xn') → ∀ s ∈ G, s ∉ inv →
      (∃ w : ℤ → σ, w 0 ∉ inv ∧ ∀ i, Step xn' (w i) (w (i + 1))) ∧
      (Closed xn' inv → ∃ s, s ∉ inv ∧ OnCycle xn' s) := by
    intro xn' G hS hP s hs hsi
    constructor
    · choose! f hf1 hf2 using hS
      choose! g hg1 hg2 using hP
      have hfm : ∀ n : ℕ, f^[n] s ∈ G := by
        intro n
        induction n with
        | zero => exact hs
        | succ n ih => rw [Function.iterate_succ_apply']; exact hf1 _ ih
      have hgm : ∀ n : ℕ, g^[n] s ∈ G := by
        intro n
        induction n with
        | zero => exact hs
        | succ n ih => rw [Function.iterate_succ_apply']; exact hg1 _ ih
      refine ⟨fun i => if 0 ≤ i then f^[i.toNat] s else g^[(-i).toNat] s, by simpa using hsi, fun i => ?_⟩
      show Step xn' (if 0 ≤ i then f^[i.toNat] s else g^[(-i).toNat] s)
        (if 0 ≤ i + 1 then f^[(i + 1).toNat] s else g^[(-(i + 1)).toNat] s)
      rcases Int.lt_or_le i 0 with hi | hi
      · rw [if_neg (by omega)]
        obtain ⟨n, rfl⟩ : ∃ n : ℕ, i = -((n : ℤ) + 1) := ⟨(-i - 1).toNat, by omega⟩
        have e1 : (-(-((n : ℤ) + 1))).toNat = n + 1 := by omega
        rw [e1, Function.iterate_succ_apply']
        by_cases h0 : n = 0
        · subst h0
          simpa [Step] using hg2 s hs
        · rw [if_neg (by omega)]
          have e2 : (-(-((n : ℤ) + 1) + 1)).toNat = n := by omega
          rw [e2]
          exact hg2 _ (hgm n)
      · rw [if_pos hi, if_pos (by omega)]
        have e1 : (i + 1).toNat = i.toNat + 1 := by omega
        rw [e1, Function.iterate_succ_apply']
        exact hf2 _ (hfm _)
    · intro hcl
      obtain ⟨c, -, hc1, hc2⟩ := exists_cycle_of_pred hP hs
      refine ⟨c, fun hci => hsi ?_, hc1⟩
      clear hc1 hs hsi
      induction hc2 with
      | refl => exact hci
      | tail _ h ih => exact hcl _ ih _ h
  have hdl : (t :: (c ++ [t])).dropLast = t :: c := by
    rw [← List.cons_append]; exact List.dropLast_concat
  unfold findLivelockActions
  rw [h1]
  simp only
  split
  · rename_i hfound
    rw [hdl, List.any_eq_true] at hfound
    obtain ⟨s, hs, hsi⟩ := hfound
    have hsi : s ∉ inv := by simpa using hsi
    refine ⟨_, rfl, fun a ha => by simpa using (Finset.mem_filter.1 ha).1, fun xn' hx' => ?_⟩
    have hch : List.IsChain (Step xn') (t :: (c ++ [t])) := by
      apply chain_of_zip_tail
      intro e he
      obtain ⟨a, ha, hst⟩ := hxn _ _ (zip_tail_mem_of_chain h2 e he)
      refine hx' a (Finset.mem_filter.2 ⟨List.mem_toFinset.2 ha, e, he, e.2, ?_⟩) hst
      simp only [Finset.mem_inter, mem_img_singleton, Finset.mem_singleton, and_true]
      exact hst
    have hcy := onCycle_of_chain hch hs
    refine ⟨(walk xn' (Finset.univ.filter fun s => OnCycle xn' s) ?_ ?_ s (by simpa using hcy) hsi).1,
      fun _ => ⟨s, hsi, hcy⟩⟩
    · intro s hs
      obtain ⟨d, h1, h2, -⟩ := onCycle_succ (by simpa using hs)
      exact ⟨d, by simpa using h2, h1⟩
    · intro s hs
      obtain ⟨d, h1, h2, -⟩ := onCycle_pred (by simpa using hs)
      exact ⟨d, by simpa using h2, h1⟩
  · refine ⟨_, rfl, fun a ha => by simpa using (Finset.mem_filter.1 ha).1, fun xn' hx' => ?_⟩
    obtain ⟨s, hs⟩ := hne
    rw [Finset.mem_sdiff] at hs
    have hin : ∀ s ∈ scc, ∀ t ∈ scc, Step xn s t → (s, t) ∈ xn' := by
      intro s hs t ht hst
      obtain ⟨a, ha, hst'⟩ := hxn s t hst
      refine hx' a (Finset.mem_filter.2 ⟨List.mem_toFinset.2 ha, t, Finset.mem_inter.2 ⟨?_, ht⟩⟩) hst'
      simp only [img, Finset.mem_filter, Finset.mem_univ, true_and]
      exact ⟨s, hs, hst'⟩
    refine walk xn' scc (fun s hs => ?_) (fun t ht => ?_) s hs.1 hs.2
    · obtain ⟨t, ht, h⟩ := hsucc s hs
      exact ⟨t, ht, hin s hs t ht h⟩
    · obtain ⟨s, hs, h⟩ := hpred t ht
      exact ⟨s, hs, hin s hs t ht h⟩

/-! Examples -/

/-- Picks the first state of the given list that is in the set. -/
def firstOf (L : List σ) (S : Finset σ) : Option σ := L.find? (· ∈ S)

theorem firstOf_picks (L : List σ) (h : ∀ s, s ∈ L) : Picks (firstOf L) := by
  intro S ⟨s, hs⟩
  unfold firstOf
  cases hf : L.find? (· ∈ S) with
  | none =>
    rw [List.find?_eq_none] at hf
    exact absurd hs (by simpa using hf s (h s))
  | some t => exact ⟨t, by simpa using List.find?_some hf, rfl⟩

/-- Two cycles, 0-1 and 2-3-4, and a transition from the first to the second. -/
def sampleXn5 : Finset (Fin 5 × Fin 5) := {(0, 1), (1, 0), (1, 2), (2, 3), (3, 4), (4, 2)}

theorem sample5_cycle : findOneCycle 6 (firstOf [3, 2, 1, 0, 4]) sampleXn5 Finset.univ {0, 1} =
    some [2, 3, 4, 2] := by decide +kernel

example : CycleList sampleXn5 Finset.univ [2, 3, 4, 2] := by
  obtain ⟨l, h1, h2⟩ := C15_find_one_cycle (firstOf_picks [3, 2, 1, 0, 4] (by decide))
    (xn := sampleXn5) (scc := Finset.univ) (initial := {0, 1}) (by unfold Step; decide) (by decide)
    (by unfold Step; decide) (fuel := 6) (by decide)
  rw [sample5_cycle, Option.some.injEq] at h1
  exact h1 ▸ h2

/-- The actions of the sample: action 0 does the first cycle, action 1 the crossing, 2 the second
cycle and 3 nothing. -/
def sampleAct5 : ℕ → Finset (Fin 5 × Fin 5)
  | 0 => {(0, 1), (1, 0)}
  | 1 => {(1, 2)}
  | 2 => {(2, 3), (3, 4), (4, 2)}
  | _ => ∅

example : findLivelockActions 6 (firstOf [3, 2, 1, 0, 4]) sampleXn5 Finset.univ {0, 1, 2} sampleAct5
    [0, 1, 2, 3] = some {2} := by decide +kernel

/-- The second branch: the walk from 1 enters the cycle 2-3-4 inside the invariant. -/
example : findLivelockActions 6 (firstOf [3, 2, 1, 0, 4]) sampleXn5 Finset.univ {2, 3, 4} sampleAct5
    [0, 1, 2, 3] = some {0, 1, 2} := by decide +kernel

/-- The hypotheses of `C60_livelock_actions` hold for the sample. -/
example : (∀ s ∈ (Finset.univ : Finset (Fin 5)), ∃ t ∈ Finset.univ, Step sampleXn5 s t) ∧
    (∀ t ∈ (Finset.univ : Finset (Fin 5)), ∃ s ∈ Finset.univ, Step sampleXn5 s t) ∧
    (∀ s t, Step sampleXn5 s t → ∃ a ∈ [0, 1, 2, 3], Step (sampleAct5 a) s t) := by
  unfold Step; decide

/-- In a synchronous system the relation is not the union of the actions' transitions, and the
explanation is wrong.  Two processes flip their bits together: the livelock 00, 11 is explained by
the empty set of actions, although without actions nothing moves (`stabilization_ck`,
src/stabilization.cc:375, does not exclude synchronous systems; the empty set then becomes a
conflict at src/search.cc:132,301,692). -/
theorem C60_synchronous_limit :
    let act : ℕ → Finset ((Fin 2 × Fin 2) × (Fin 2 × Fin 2)) := fun a =>
      if a = 0 then Finset.univ.filter fun e => e.2 = (e.1.1 + 1, e.1.2)
      else Finset.univ.filter fun e => e.2 = (e.1.1, e.1.2 + 1)
    let both : Finset ((Fin 2 × Fin 2) × (Fin 2 × Fin 2)) :=
      Finset.univ.filter fun e => e.2 = (e.1.1 + 1, e.1.2 + 1)
    findLivelockActions 5 (firstOf [(0, 0), (0, 1), (1, 0), (1, 1)]) both Finset.univ ∅ act [0, 1] =
      some ∅ := by decide +kernel

end Verif.Props
