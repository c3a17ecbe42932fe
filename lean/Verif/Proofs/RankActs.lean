import Verif.Model.RankActs
import Verif.Proofs.Reach

/-! Helper lemmas for the ranking of actions. -/

set_option linter.unusedSectionVars false

namespace Verif.Model
open Verif.Spec

universe u
variable {σ : Type u} [Fintype σ] [DecidableEq σ]

/-- Within `n` transitions, but not fewer, `legit` can be reached from `s`. -/
def DistN (xn : Finset (σ × σ)) (legit : Finset σ) (n : ℕ) (s : σ) : Prop :=
  (∃ t ∈ legit, StepN xn n s t) ∧ ∀ m < n, ¬ ∃ t ∈ legit, StepN xn m s t

theorem distN_unique {xn : Finset (σ × σ)} {legit : Finset σ} {n m : ℕ} {s : σ} (h1 : DistN xn legit n s)
    (h2 : DistN xn legit m s) : n = m := by
  rcases lt_trichotomy n m with h | h | h
  · exact absurd h1.1 (h2.2 n h)
  · exact h
  · exact absurd h2.1 (h1.2 m h)

theorem distN_zero {xn : Finset (σ × σ)} {legit : Finset σ} {s : σ} : DistN xn legit 0 s ↔ s ∈ legit := by
  simp [DistN, StepN]

/-- A shortest path passes through the previous distance. -/
theorem distN_succ {xn : Finset (σ × σ)} {legit : Finset σ} {n : ℕ} {s : σ} :
    DistN xn legit (n + 1) s ↔ (∃ t, (s, t) ∈ xn ∧ DistN xn legit n t) ∧ ∀ m ≤ n, ¬ DistN xn legit m s := by
  classical
  constructor
  · rintro ⟨⟨t, ht, u, hu, hr⟩, hm⟩
    refine ⟨⟨u, hu, ⟨t, ht, hr⟩, ?_⟩, ?_⟩
    · rintro m hlt ⟨w, hw, hs⟩
      exact hm (m + 1) (by omega) ⟨w, hw, u, hu, hs⟩
    · intro m hle hd
      exact hm m (by omega) hd.1
  · rintro ⟨⟨u, hu, ⟨t, ht, hr⟩, -⟩, hno⟩
    refine ⟨⟨t, ht, u, hu, hr⟩, ?_⟩
    intro m hlt hex
    have hP : ∃ k, ∃ t ∈ legit, StepN xn k s t := ⟨m, hex⟩
    have hk := Nat.find_spec hP
    have hle := Nat.find_min' hP hex
    exact hno (Nat.find hP) (by omega) ⟨hk, fun k hk' => Nat.find_min hP hk'⟩

theorem stepN_of_reach {xn : Finset (σ × σ)} {s t : σ} (h : Reach xn s t) : ∃ n, StepN xn n s t := by
  induction h using Relation.ReflTransGen.head_induction_on with
  | refl => exact ⟨0, rfl⟩
  | head h1 _ ih => obtain ⟨n, hn⟩ := ih; exact ⟨n + 1, _, h1, hn⟩

theorem reach_of_stepN {xn : Finset (σ × σ)} : ∀ {n : ℕ} {s t : σ}, StepN xn n s t → Reach xn s t
  | 0, s, t, h => by cases h; exact Relation.ReflTransGen.refl
  | n + 1, s, t, ⟨u, h1, h2⟩ => Relation.ReflTransGen.head h1 (reach_of_stepN h2)

/-- The states from which `legit` can be reached are those with a distance. -/
theorem exists_distN {xn : Finset (σ × σ)} {legit : Finset σ} {s : σ} :
    (∃ n, DistN xn legit n s) ↔ ∃ t ∈ legit, Reach xn s t := by
  classical
  constructor
  · rintro ⟨n, ⟨t, ht, h⟩, -⟩
    exact ⟨t, ht, reach_of_stepN h⟩
  · rintro ⟨t, ht, h⟩
    obtain ⟨n, hn⟩ := stepN_of_reach h
    have hP : ∃ k, ∃ t ∈ legit, StepN xn k s t := ⟨n, t, ht, hn⟩
    exact ⟨Nat.find hP, Nat.find_spec hP, fun k hk => Nat.find_min hP hk⟩

/-- Invariant of the loop of `rank_states`. -/
structure RkInv (xn : Finset (σ × σ)) (legit : Finset σ) (st : RkSt σ) : Prop where
  pos : 1 ≤ st.layers.length
  get : ∀ (j : ℕ) (L : Finset σ), st.layers[j]? = some L → ∀ s, s ∈ L ↔ DistN xn legit j s
  full : ∀ j, 1 ≤ j → j < st.layers.length → ∃ s, DistN xn legit j s
  visit : ∀ s, s ∈ st.visit ↔ ∃ j < st.layers.length, DistN xn legit j s
  layer : ∀ s, s ∈ st.layer ↔ DistN xn legit st.layers.length s

theorem rkInv_next {xn : Finset (σ × σ)} {legit : Finset σ} {st : RkSt σ} (h : RkInv xn legit st)
    (hne : st.layer ≠ ∅) :
    RkInv xn legit ⟨st.layers ++ [st.layer], st.visit ∪ st.layer, pre xn st.layer \ (st.visit ∪ st.layer)⟩ := by
  have hv : ∀ s, s ∈ st.visit ∪ st.layer ↔ ∃ j < st.layers.length + 1, DistN xn legit j s := by
    intro s
    rw [Finset.mem_union, h.visit, h.layer]
    constructor
    · rintro (⟨j, hj, hd⟩ | hd)
      · exact ⟨j, by omega, hd⟩
      · exact ⟨_, by omega, hd⟩
    · rintro ⟨j, hj, hd⟩
      rcases Nat.lt_succ_iff_lt_or_eq.1 hj with hj | rfl
      · exact .inl ⟨j, hj, hd⟩
      · exact .inr hd
  refine ⟨by simp, ?_, ?_, by simpa using hv, ?_⟩
  · intro j L hj s
    simp only at hj
    rcases lt_or_ge j st.layers.length with hlt | hge
    · rw [List.getElem?_append_left hlt] at hj
      exact h.get j L hj s
    · rw [List.getElem?_append_right hge] at hj
      rcases Nat.eq_zero_or_pos (j - st.layers.length) with h0 | h0
      · rw [h0] at hj
        simp only [List.getElem?_cons_zero, Option.some.injEq] at hj
        subst hj
        rw [h.layer]
        have : j = st.layers.length := by omega
        rw [this]
      · rw [List.getElem?_eq_none (by simp only [List.length_cons, List.length_nil]; omega)] at hj
        cases hj
  · intro j h1 h2
    simp only [List.length_append, List.length_cons, List.length_nil] at h2
    rcases Nat.lt_succ_iff_lt_or_eq.1 h2 with hj | rfl
    · exact h.full j h1 hj
    · obtain ⟨s, hs⟩ := Finset.nonempty_iff_ne_empty.2 hne
      exact ⟨s, (h.layer s).1 hs⟩
  · intro s
    simp only [List.length_append, List.length_cons, List.length_nil]
    rw [Finset.mem_sdiff, mem_pre, hv, distN_succ]
    constructor
    · rintro ⟨⟨t, ht, he⟩, hno⟩
      exact ⟨⟨t, he, (h.layer t).1 ht⟩, fun m hm hd => hno ⟨m, by omega, hd⟩⟩
    · rintro ⟨⟨t, he, hd⟩, hno⟩
      refine ⟨⟨t, (h.layer t).2 hd, he⟩, ?_⟩
      rintro ⟨j, hj, hd'⟩
      exact hno j (by omega) hd'

theorem rkStates_total (xn : Finset (σ × σ)) (legit : Finset σ) (fuel : ℕ) (hf : Fintype.card σ < fuel) :
    ∃ L b, rkStates fuel xn legit = some (L, b) ∧ 1 ≤ L.length ∧
      (∀ (j : ℕ) (P : Finset σ), L[j]? = some P → ∀ s, s ∈ P ↔ DistN xn legit j s) ∧
      (∀ s j, DistN xn legit j s → j < L.length) ∧
      (∀ j, 1 ≤ j → j < L.length → ∃ s, DistN xn legit j s) ∧
      (b = true ↔ ∀ s, ∃ j, DistN xn legit j s) := by
  have key := loopFuel_total (body := rkBody xn) (RkInv xn legit)
    (fun r => 1 ≤ r.1.length ∧ (∀ (j : ℕ) (P : Finset σ), r.1[j]? = some P → ∀ s, s ∈ P ↔ DistN xn legit j s) ∧
      (∀ s j, DistN xn legit j s → j < r.1.length) ∧
      (∀ j, 1 ≤ j → j < r.1.length → ∃ s, DistN xn legit j s) ∧
      ∀ s, s ∈ r.2 ↔ ∃ j, DistN xn legit j s)
    (fun st => (st.visitᶜ).card) ?_ ?_ fuel ⟨[legit], legit, pre xn legit \ legit⟩ ?_ ?_
  · obtain ⟨⟨L, v⟩, h0, h1, h2, h3, h4, h5⟩ := key
    refine ⟨L, decide (v = Finset.univ), by simp [rkStates, h0], h1, h2, h3, h4, ?_⟩
    rw [decide_eq_true_iff, Finset.eq_univ_iff_forall]
    exact forall_congr' h5
  · intro st r hI hb
    unfold rkBody at hb
    split at hb
    · next he =>
      cases hb
      have hno : ∀ n s, ¬ DistN xn legit (st.layers.length + n) s := by
        intro n
        induction n with
        | zero =>
          intro s hd
          have := (hI.layer s).2 hd
          rw [he] at this
          simp at this
        | succ n ih =>
          intro s hd
          obtain ⟨⟨t, -, ht⟩, -⟩ := distN_succ.1 (show DistN xn legit (st.layers.length + n + 1) s from hd)
          exact ih t ht
      have hlt : ∀ s j, DistN xn legit j s → j < st.layers.length := by
        intro s j hd
        by_contra hge
        obtain ⟨k, rfl⟩ := Nat.exists_eq_add_of_le (not_lt.1 hge)
        exact hno k s hd
      refine ⟨hI.pos, hI.get, hlt, hI.full, fun s => ?_⟩
      rw [hI.visit]
      exact ⟨fun ⟨j, _, hd⟩ => ⟨j, hd⟩, fun ⟨j, hd⟩ => ⟨j, hlt s j hd, hd⟩⟩
    · cases hb
  · intro st st' hI hb
    unfold rkBody at hb
    split at hb
    · cases hb
    · next h =>
      cases hb
      refine ⟨rkInv_next hI h, ?_⟩
      apply Finset.card_lt_card
      rw [Finset.ssubset_iff_of_subset]
      · obtain ⟨x, hx⟩ := Finset.nonempty_iff_ne_empty.2 h
        refine ⟨x, ?_, ?_⟩
        · rw [Finset.mem_compl, hI.visit]
          rintro ⟨j, hj, hd⟩
          have := distN_unique hd ((hI.layer x).1 hx)
          omega
        · simp [hx]
      · intro x hx; simp at hx ⊢; tauto
  · refine ⟨by simp, ?_, ?_, ?_, ?_⟩
    · intro j L hj s
      rcases j with _ | j
      · simp only [List.getElem?_cons_zero, Option.some.injEq] at hj
        subst hj
        rw [distN_zero]
      · simp at hj
    · intro j h1 h2
      simp only [List.length_cons, List.length_nil] at h2
      omega
    · intro s
      simp only [List.length_cons, List.length_nil]
      constructor
      · intro hs; exact ⟨0, by omega, distN_zero.2 hs⟩
      · rintro ⟨j, hj, hd⟩
        have : j = 0 := by omega
        subst this
        exact distN_zero.1 hd
    · intro s
      simp only [List.length_cons, List.length_nil]
      rw [Finset.mem_sdiff, mem_pre, distN_succ]
      constructor
      · rintro ⟨⟨t, ht, he⟩, hno⟩
        refine ⟨⟨t, he, distN_zero.2 ht⟩, fun m hm hd => ?_⟩
        have : m = 0 := by omega
        subst this
        exact hno (distN_zero.1 hd)
      · rintro ⟨⟨t, he, hd⟩, hno⟩
        exact ⟨⟨t, distN_zero.1 hd, he⟩, fun hs => hno 0 (by omega) (distN_zero.2 hs)⟩
  · exact lt_of_le_of_lt (Finset.card_le_univ _) hf

/-- The table filled by `rank_actions`. -/
theorem rkTable (place : ℕ → ℕ) (n : ℕ) : ∀ (cands : List ℕ) (t : List (List ℕ)), t.length = n →
    (cands.foldl (fun t a => t.modify (place a) (· ++ [a])) t).length = n ∧
    ∀ (j : ℕ) (l : List ℕ), t[j]? = some l →
      (cands.foldl (fun t a => t.modify (place a) (· ++ [a])) t)[j]? =
        some (l ++ cands.filter fun a => decide (place a = j)) := by
  intro cands
  induction cands with
  | nil => intro t ht; exact ⟨ht, fun j l h => by simpa using h⟩
  | cons a cs ih =>
    intro t ht
    obtain ⟨h1, h2⟩ := ih (t.modify (place a) (· ++ [a])) (by simpa using ht)
    refine ⟨h1, fun j l hl => ?_⟩
    rw [List.foldl_cons, List.filter_cons]
    by_cases hp : place a = j
    · rw [h2 j (l ++ [a]) (by rw [List.getElem?_modify, hl, hp]; simp)]
      simp [hp]
    · rw [h2 j l (by rw [List.getElem?_modify, hl]; simp [hp])]
      simp [hp]

/-- Where an action is put. -/
theorem rkPlace_spec (layers : List (Finset σ)) (x : Finset (σ × σ)) (hl : 1 ≤ layers.length) :
    (1 ≤ rkPlace layers x ∧ rkPlace layers x < layers.length ∧
      (img x (layers.getD (rkPlace layers x) ∅) ∩ layers.getD (rkPlace layers x - 1) ∅).Nonempty ∧
      ∀ i, 1 ≤ i → i < rkPlace layers x → ¬ (img x (layers.getD i ∅) ∩ layers.getD (i - 1) ∅).Nonempty) ∨
    (rkPlace layers x = layers.length ∧
      ∀ i, 1 ≤ i → i < layers.length → ¬ (img x (layers.getD i ∅) ∩ layers.getD (i - 1) ∅).Nonempty) := by
  unfold rkPlace
  cases hf : (List.range' 1 (layers.length - 1)).find? fun j =>
      decide (img x (layers.getD j ∅) ∩ layers.getD (j - 1) ∅).Nonempty with
  | none =>
    refine .inr ⟨rfl, fun i h1 h2 => ?_⟩
    have := List.find?_eq_none.1 hf i (List.mem_range'_1.2 ⟨h1, by omega⟩)
    simpa using this
  | some j =>
    have hm := List.mem_of_find?_eq_some hf
    rw [List.mem_range'_1] at hm
    refine .inl ⟨hm.1, by simp only [Option.getD_some]; omega, by simpa using List.find?_some hf, ?_⟩
    intro i h1 h2
    simp only [Option.getD_some] at h2
    rw [List.find?_eq_some_iff_append] at hf
    obtain ⟨-, as, bs, he, hno⟩ := hf
    have hj : as.length = j - 1 := by
      have h3 := congrArg (fun l : List ℕ => l[as.length]?) he
      rw [List.getElem?_append_right (le_refl _), Nat.sub_self, List.getElem?_cons_zero] at h3
      obtain ⟨hlt, h4⟩ := List.getElem?_eq_some_iff.1 h3
      rw [List.getElem_range'] at h4
      omega
    have hi : i ∈ as := by
      have h3 := congrArg (fun l : List ℕ => l[i - 1]?) he
      rw [List.getElem?_append_left (by omega), List.getElem?_range' (by omega)] at h3
      have h4 : 1 + 1 * (i - 1) = i := by omega
      rw [h4] at h3
      exact List.mem_of_getElem? h3.symm
    simpa using hno i hi

theorem rkOrder_perm (shuffle : ℕ → List ℕ → List ℕ) (hs : ∀ i l, (shuffle i l).Perm l) (layers : List (List ℕ)) :
    (rkOrder shuffle layers).Perm layers.flatten := by
  unfold rkOrder
  have key : ∀ (ls : List (List ℕ)) (k : ℕ) (c : List ℕ),
      ((ls.zipIdx k).foldl (fun c e => c ++ shuffle e.2 e.1) c).Perm (c ++ ls.flatten) := by
    intro ls
    induction ls with
    | nil => intro k c; simp
    | cons l ls ih =>
      intro k c
      rw [List.zipIdx_cons, List.foldl_cons, List.flatten_cons]
      refine (ih _ _).trans ?_
      rw [List.append_assoc]
      exact (List.Perm.append_right _ (hs _ _)).append_left _
  simpa using key layers 0 []

/-- All parts of a list by a number below `n` together have every element once. -/
theorem parts_perm (place : ℕ → ℕ) (cands : List ℕ) : ∀ n, (∀ a ∈ cands, place a < n) →
    ((List.range n).map fun j => cands.filter fun a => decide (place a = j)).flatten.Perm cands := by
  have key : ∀ n, ((List.range n).map fun j => cands.filter fun a => decide (place a = j)).flatten.Perm
      (cands.filter fun a => decide (place a < n)) := by
    intro n
    induction n with
    | zero => simp
    | succ n ih =>
      rw [List.range_succ, List.map_append, List.flatten_append]
      refine (List.Perm.append_right _ ih).trans ?_
      simp only [List.map_cons, List.map_nil, List.flatten_cons, List.flatten_nil, List.append_nil]
      rw [List.perm_iff_count]
      intro a
      rw [List.count_append]
      have hc : ∀ q : ℕ → Bool, List.count a (cands.filter q) = if q a then List.count a cands else 0 := by
        intro q
        by_cases hq : q a = true
        · rw [List.count_filter hq, if_pos hq]
        · rw [if_neg hq]
          exact List.count_eq_zero_of_not_mem fun hm => hq (List.mem_filter.1 hm).2
      rw [hc, hc, hc]
      rcases lt_trichotomy (place a) n with h | h | h
      · simp [h, h.ne, Nat.lt_succ_of_lt h]
      · simp [h]
      · simp [h.ne', show ¬ place a < n by omega, show ¬ place a < n + 1 by omega]
  intro n h
  have h2 := key n
  rwa [List.filter_eq_self.2 (by simpa using h)] at h2

end Verif.Model
