import Verif.Proofs.RankActs
import Verif.Spec.Synth

/-! Property C105: the ranking of actions for `RankShuffleSearch`. -/

set_option linter.unusedSectionVars false

namespace Verif.Props
open Verif.Model Verif.Spec

universe u
variable {σ : Type u} [Fintype σ] [DecidableEq σ]

/-- The least number of transitions that lead from `s` into `legit` is `n`. -/
def Away (xn : Finset (σ × σ)) (legit : Finset σ) (n : ℕ) (s : σ) : Prop :=
  (∃ t ∈ legit, StepN xn n s t) ∧ ∀ m < n, ¬ ∃ t ∈ legit, StepN xn m s t

/-- **C105, states.** `rank_states` terminates; layer `j` has exactly the states whose least number of transitions
into `legit` is `j`; there is a layer for every such number; the result is true exactly if `legit` can be
reached from every state. -/
theorem C105_states (xn : Finset (σ × σ)) (legit : Finset σ) (fuel : ℕ) (hf : Fintype.card σ < fuel) :
    ∃ L b, rkStates fuel xn legit = some (L, b) ∧
      (∀ (j : ℕ) (P : Finset σ), L[j]? = some P → ∀ s, s ∈ P ↔ Away xn legit j s) ∧
      (∀ s j, Away xn legit j s → j < L.length) ∧
      (∀ P ∈ L.tail, P.Nonempty) ∧
      (b = true ↔ ∀ s, ∃ t ∈ legit, Reach xn s t) := by
  obtain ⟨L, b, h1, -, h3, h4, h5, h6⟩ := rkStates_total xn legit fuel hf
  refine ⟨L, b, h1, h3, h4, ?_, h6.trans (forall_congr' fun s => exists_distN)⟩
  intro P hP
  obtain ⟨j, hj⟩ := List.mem_iff_getElem?.1 hP
  rw [List.getElem?_tail] at hj
  obtain ⟨s, hs⟩ := h5 (j + 1) (by omega) (List.getElem?_eq_some_iff.1 hj).1
  exact ⟨s, (h3 _ _ hj s).2 hs⟩

/-- The action takes some state with distance `j` to a state with distance `j - 1`. -/
def Helps (xn : Finset (σ × σ)) (legit : Finset σ) (x : Finset (σ × σ)) (j : ℕ) : Prop :=
  1 ≤ j ∧ ∃ s t, (s, t) ∈ x ∧ Away xn legit j s ∧ Away xn legit (j - 1) t

/-- **C105, actions.** `rank_actions` fails exactly if `legit` cannot be reached from some state.  Otherwise layer `j`,
except the last one, has exactly the candidates, in their order, that take some state with distance `j` to
distance `j - 1` and do this for no smaller `j`; the last layer has the candidates that do this for no `j`. -/
theorem C105_actions (act : ℕ → Finset (σ × σ)) (cands : List ℕ) (xn : Finset (σ × σ)) (legit : Finset σ)
    (fuel : ℕ) (hf : Fintype.card σ < fuel) :
    ∃ r, rkActions fuel act cands xn legit = some r ∧
      (r = none ↔ ¬ ∀ s, ∃ t ∈ legit, Reach xn s t) ∧
      ∀ T, r = some T → ∃ n, T.length = n + 1 ∧ (∀ s j, Away xn legit j s → j < n) ∧
        (∀ j ≤ n, ∃ l, T[j]? = some l ∧ l.Sublist cands) ∧
        (∀ (j : ℕ) (l : List ℕ), j < n → T[j]? = some l → ∀ a, a ∈ l ↔ a ∈ cands ∧ Helps xn legit (act a) j ∧
          ∀ i < j, ¬ Helps xn legit (act a) i) ∧
        (∀ l, T[n]? = some l → ∀ a, a ∈ l ↔ a ∈ cands ∧ ∀ j, ¬ Helps xn legit (act a) j) ∧
        T.flatten.Perm cands := by
  obtain ⟨L, b, h1, h2, h3, h4, -, h6⟩ := rkStates_total xn legit fuel hf
  have h6' : b = true ↔ ∀ s, ∃ t ∈ legit, Reach xn s t := h6.trans (forall_congr' fun s => exists_distN)
  unfold rkActions
  rw [h1, Option.map_some]
  refine ⟨_, rfl, ?_, ?_⟩
  · rw [← h6']
    simp only
    split <;> simp_all
  intro T hT
  simp only at hT
  split at hT
  swap
  · cases hT
  cases hT
  obtain ⟨hl, ht⟩ := rkTable (fun a => rkPlace L (act a)) (L.length + 1) cands
    (List.replicate (L.length + 1) []) (by simp)
  have hget : ∀ j ≤ L.length, (cands.foldl (fun t a => t.modify (rkPlace L (act a)) (· ++ [a]))
      (List.replicate (L.length + 1) []))[j]? = some (cands.filter fun a => decide (rkPlace L (act a) = j)) := by
    intro j hj
    rw [ht j [] (by rw [List.getElem?_replicate, if_pos (by omega)]), List.nil_append]
  have hov : ∀ (a j : ℕ), 1 ≤ j → j < L.length →
      ((img (act a) (L.getD j ∅) ∩ L.getD (j - 1) ∅).Nonempty ↔ Helps xn legit (act a) j) := by
    intro a j hj1 hj2
    have e1 : ∀ k < L.length, ∀ s, s ∈ L.getD k ∅ ↔ Away xn legit k s := by
      intro k hk s
      rw [List.getD_eq_getElem?_getD, List.getElem?_eq_getElem hk]
      exact h3 k _ (List.getElem?_eq_getElem hk) s
    constructor
    · rintro ⟨t, ht⟩
      rw [Finset.mem_inter, mem_img, e1 _ (by omega)] at ht
      obtain ⟨⟨s, hs, he⟩, ht⟩ := ht
      exact ⟨hj1, s, t, he, (e1 _ hj2 s).1 hs, ht⟩
    · rintro ⟨-, s, t, he, hs, ht⟩
      refine ⟨t, ?_⟩
      rw [Finset.mem_inter, mem_img, e1 _ (by omega)]
      exact ⟨⟨s, (e1 _ hj2 s).2 hs, he⟩, ht⟩
  have hbig : ∀ a j, Helps xn legit (act a) j → j < L.length := fun a j ⟨_, s, _, _, hs, _⟩ => h4 s j hs
  have hpl : ∀ a, (rkPlace L (act a) < L.length ∧ Helps xn legit (act a) (rkPlace L (act a)) ∧
      ∀ i < rkPlace L (act a), ¬ Helps xn legit (act a) i) ∨
      (rkPlace L (act a) = L.length ∧ ∀ i, ¬ Helps xn legit (act a) i) := by
    intro a
    rcases rkPlace_spec L (act a) h2 with ⟨p1, p2, p3, p4⟩ | ⟨p1, p2⟩
    · refine .inl ⟨p2, (hov a _ p1 p2).1 p3, fun i hi hh => ?_⟩
      exact p4 i hh.1 hi ((hov a i hh.1 (by omega)).2 hh)
    · exact .inr ⟨p1, fun i hh => p2 i hh.1 (hbig a i hh) ((hov a i hh.1 (hbig a i hh)).2 hh)⟩
  refine ⟨L.length, hl, h4, fun j hj => ⟨_, hget j hj, List.filter_sublist⟩, ?_, ?_, ?_⟩
  · intro j l hj hjl a
    rw [hget j hj.le] at hjl
    cases hjl
    rw [List.mem_filter, decide_eq_true_eq]
    refine and_congr_right fun _ => ?_
    rcases hpl a with ⟨q1, q2, q3⟩ | ⟨q1, q2⟩
    · constructor
      · rintro rfl; exact ⟨q2, q3⟩
      · rintro ⟨r1, r2⟩
        rcases lt_trichotomy (rkPlace L (act a)) j with h | h | h
        · exact absurd q2 (r2 _ h)
        · exact h
        · exact absurd r1 (q3 _ h)
    · exact ⟨fun h => by omega, fun h => absurd h.1 (q2 j)⟩
  · intro l hnl a
    rw [hget _ le_rfl] at hnl
    cases hnl
    rw [List.mem_filter, decide_eq_true_eq]
    refine and_congr_right fun _ => ?_
    rcases hpl a with ⟨q1, q2, q3⟩ | ⟨q1, q2⟩
    · exact ⟨fun h => by omega, fun h => absurd q2 (h _)⟩
    · exact ⟨fun _ => q2, fun _ => q1⟩
  · have he : cands.foldl (fun t a => t.modify (rkPlace L (act a)) (· ++ [a]))
        (List.replicate (L.length + 1) []) =
        (List.range (L.length + 1)).map fun j => cands.filter fun a => decide (rkPlace L (act a) = j) := by
      refine List.ext_getElem? fun j => ?_
      rcases lt_or_ge j (L.length + 1) with hj | hj
      · rw [hget j (by omega), List.getElem?_map, List.getElem?_range hj]
        rfl
      · rw [List.getElem?_eq_none (by omega), List.getElem?_eq_none (by simpa using hj)]
    rw [he]
    refine parts_perm _ _ _ fun a _ => ?_
    rcases hpl a with ⟨q1, -⟩ | ⟨q1, -⟩ <;> omega

/-- **C105, order.** Whatever the shuffles are, a trial has every candidate exactly as often as before. -/
theorem C105_order (act : ℕ → Finset (σ × σ)) (cands : List ℕ) (xn : Finset (σ × σ)) (legit : Finset σ)
    (fuel : ℕ) (hf : Fintype.card σ < fuel) (T : List (List ℕ)) (h : rkActions fuel act cands xn legit = some (some T))
    (shuffle : ℕ → List ℕ → List ℕ) (hs : ∀ i l, (shuffle i l).Perm l) :
    (rkOrder shuffle T).Perm cands := by
  obtain ⟨r, h1, -, h2⟩ := C105_actions act cands xn legit fuel hf
  rw [h] at h1
  cases h1
  obtain ⟨n, -, -, -, -, -, hp⟩ := h2 T rfl
  exact (rkOrder_perm shuffle hs T).trans hp

/-- **C105, refusal (partial).** If the assumption holds in every state and the ranking fails for the
transitions `xn`, no protocol that only has transitions from `xn` meets the requirements.  (The program passes
the transitions of all actions that are chosen or still candidates.)  The full statement, for every
assumption, is false: see `C105_refused_solution`. -/
theorem C105_refusal_partial {σ : Type} [Fintype σ] [DecidableEq σ] (act : ℕ → Finset (σ × σ)) (cands : List ℕ)
    (xn : Finset (σ × σ)) (d : Demand σ) (hall : d.assume = Finset.univ) (fuel : ℕ) (hf : Fintype.card σ < fuel)
    (h : rkActions fuel act cands xn d.legit = some none) (A : Finset ℕ)
    (hA : A.biUnion act ⊆ xn) : ¬ Meets d (A.biUnion act) := by
  intro hm
  obtain ⟨r, h1, h2, -⟩ := C105_actions act cands xn d.legit fuel hf
  rw [h] at h1
  cases h1
  refine h2.1 rfl fun s => ?_
  classical
  -- some maximal execution starts in `s`
  let nx : σ → σ := fun s => if hs : ∃ t, Step (A.biUnion act) s t then hs.choose else s
  have hnx : ∀ s, Step (A.biUnion act) s (nx s) ∨ (Deadlock (A.biUnion act) s ∧ nx s = s) := by
    intro s
    by_cases hs : ∃ t, Step (A.biUnion act) s t
    · left
      simp only [nx, dif_pos hs]
      exact hs.choose_spec
    · right
      exact ⟨fun t ht => hs ⟨t, ht⟩, by simp only [nx, dif_neg hs]⟩
  let e : ℕ → σ := fun n => nx^[n] s
  have he : MaxExec (A.biUnion act) e := by
    intro n
    simp only [e, Function.iterate_succ_apply']
    exact hnx _
  obtain ⟨n, hn⟩ := hm.stab.converges e he (by rw [hall]; exact Finset.mem_univ _)
  refine ⟨e n, hn n le_rfl, ?_⟩
  have hre : ∀ n, Reach xn s (e n) := by
    intro n
    induction n with
    | zero => exact Relation.ReflTransGen.refl
    | succ n ih =>
      rcases he n with h3 | ⟨-, h3⟩
      · refine Relation.ReflTransGen.tail ih ?_
        exact hA h3
      · rw [h3]; exact ih
  exact hre n

/-- State 2 is excluded by the assumption and no action moves there. -/
def islandDemand : Demand (Fin 3) := ⟨{0}, {0, 1}, ∅, False⟩

/-- The only action leads from 1 to 0. -/
def islandAct : ℕ → Finset (Fin 3 × Fin 3) := fun _ => {(1, 0)}

/-- **C105 fails with an assumption.**  The action is a solution but the ranking fails (src/search.cc:326 asks for
all states instead of the assumed ones), and the search gives up before its first trial. -/
theorem C105_refused_solution :
    rkActions 4 islandAct [0] (([0] : List ℕ).toFinset.biUnion islandAct) islandDemand.legit = some none ∧
    Meets islandDemand ((([0] : List ℕ).toFinset).biUnion islandAct) := by
  refine ⟨by decide +kernel, ?_⟩
  have hx : (([0] : List ℕ).toFinset).biUnion islandAct = {(1, 0)} := by decide
  rw [hx]
  have hst : ∀ s t : Fin 3, Step {(1, 0)} s t → s = 1 ∧ t = 0 := by
    intro s t h
    simpa [Step] using h
  refine ⟨⟨⟨0, by decide⟩, by decide, ?_, ?_, ?_⟩, ?_, fun h => h.elim, ?_⟩
  · intro s _ t h
    obtain ⟨-, rfl⟩ := hst s t h
    decide
  · intro s _ t h
    obtain ⟨-, rfl⟩ := hst s t h
    decide
  · intro e he h0
    have hz : ∀ n, e n = 0 → ∀ m, n ≤ m → e m = 0 := by
      intro n hn m hm
      induction m, hm using Nat.le_induction with
      | base => exact hn
      | succ k _ ih =>
        rcases he k with h | ⟨-, h⟩
        · exact (hst _ _ h).2
        · rw [h]; exact ih
    have h01 : e 0 = 0 ∨ e 0 = 1 := by
      have h0' : e 0 ∈ ({0, 1} : Finset (Fin 3)) := h0
      simpa using h0'
    rcases h01 with h1 | h1
    · exact ⟨0, fun m hm => by rw [hz 0 h1 m hm]; decide⟩
    · rcases he 0 with h | ⟨h, -⟩
      · exact ⟨1, fun m hm => by rw [hz 1 (hst _ _ h).2 m hm]; decide⟩
      · exact absurd (show Step {(1, 0)} (e 0) 0 by rw [h1]; exact Finset.mem_singleton_self _) (h 0)
  · intro s _ h
    obtain ⟨h1, h2⟩ := hst s s h
    rw [h1] at h2
    exact absurd h2 (by decide)
  · rintro s ⟨hs, h | ⟨t, ht⟩⟩ hd
    · have key : ∀ s : Fin 3, s ∈ ({0, 1} : Finset (Fin 3)) → s ∉ ({0} : Finset (Fin 3)) → s = 1 := by decide
      have h1 : s = 1 := key s hs h
      subst h1
      exact hd 0 (Finset.mem_singleton_self _)
    · exact absurd ht (by simp [Step, islandDemand])

/-- A chain `3 → 2 → 1 → 0` and a shortcut from 2 to 0: action 0 helps at distance 1 already, action 1 at distance
2, action 2 nowhere. -/
def chainAct : ℕ → Finset (Fin 4 × Fin 4)
  | 0 => {(2, 0), (2, 1)}
  | 1 => {(3, 2)}
  | 2 => {(1, 3)}
  | _ => {(1, 0)}

example : rkActions 5 chainAct [0, 1, 2, 3] {(3, 2), (2, 1), (1, 0), (2, 0)} {0} =
    some (some [[], [0, 3], [1], [2]]) := by decide +kernel

example : rkStates 5 ({(3, 2), (2, 1), (1, 0), (2, 0)} : Finset (Fin 4 × Fin 4)) {0} =
    some ([{0}, {1, 2}, {3}], true) := by decide +kernel

/-- An instance of `C105_refusal_partial`: nothing leads from 2 to 0. -/
example : rkActions 4 islandAct [0] (([0] : List ℕ).toFinset.biUnion islandAct)
    (⟨{0}, Finset.univ, ∅, False⟩ : Demand (Fin 3)).legit = some none := by decide +kernel

end Verif.Props
