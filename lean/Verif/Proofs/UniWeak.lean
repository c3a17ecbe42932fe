import Verif.Model.Graph
import Verif.Proofs.Cycle
import Verif.Proofs.Fmlae

/-! Helper lemmas: the weak convergence check of unidirectional rings. -/

set_option linter.unusedSectionVars false

namespace Verif.Model
open Verif.Spec

universe u
variable {σ : Type u} [Fintype σ] [DecidableEq σ]

/-- The set after one process. -/
def uwNext (inv : Finset σ) (X : Finset σ) (p : Finset (σ × σ)) : Finset σ :=
  (pre p X \ inv) \ pre p (img p (pre p X \ inv) ∩ inv)

theorem mem_uwNext {inv X : Finset σ} {p : Finset (σ × σ)} {s : σ} : s ∈ uwNext inv X p ↔
    s ∉ inv ∧ (∃ t ∈ X, (s, t) ∈ p) ∧ ∀ t, (s, t) ∈ p → t ∉ inv := by
  unfold uwNext
  simp only [Finset.mem_sdiff, mem_pre, Finset.mem_inter, mem_img]
  constructor
  · rintro ⟨⟨h1, h2⟩, h3⟩
    exact ⟨h2, h1, fun t ht hi => h3 ⟨t, ⟨⟨s, ⟨h1, h2⟩, ht⟩, hi⟩, ht⟩⟩
  · rintro ⟨h1, h2, h3⟩
    exact ⟨⟨h2, h1⟩, fun ⟨t, ⟨_, hi⟩, ht⟩ => h3 t ht hi⟩

theorem uwNext_empty {inv : Finset σ} {p : Finset (σ × σ)} : uwNext inv ∅ p = ∅ := by
  ext s; simp [mem_uwNext]

theorem uwNexts_empty {inv : Finset σ} (l : List (Finset (σ × σ))) : l.foldl (uwNext inv) ∅ = ∅ := by
  induction l with
  | nil => rfl
  | cons p l ih => rw [List.foldl_cons, uwNext_empty, ih]

theorem uwStep_inl {inv : Finset σ} (l : List (Finset (σ × σ))) (n : ℕ) :
    l.foldl (uwStep inv) (.inl n) = .inl n := by
  induction l with
  | nil => rfl
  | cons p l ih => rw [List.foldl_cons]; exact ih

theorem uwSteps {inv : Finset σ} : ∀ (l : List (Finset (σ × σ))) (X : Finset σ) (n : ℕ),
    (∃ m, n ≤ m ∧ l.foldl (uwStep inv) (.inr (X, n)) = .inl m ∧ l.foldl (uwNext inv) X = ∅) ∨
    ((l ≠ [] → X ≠ ∅) ∧ l.foldl (uwStep inv) (.inr (X, n)) = .inr (l.foldl (uwNext inv) X, n + l.length)) := by
  intro l
  induction l with
  | nil => intro X n; exact .inr ⟨fun h => absurd rfl h, rfl⟩
  | cons p l ih =>
    intro X n
    rw [List.foldl_cons, List.foldl_cons]
    by_cases hX : X = ∅
    · subst hX
      refine .inl ⟨n, le_refl _, ?_, ?_⟩
      · have : uwStep inv (.inr (∅, n)) p = .inl n := by simp [uwStep]
        rw [this, uwStep_inl]
      · rw [uwNext_empty, uwNexts_empty]
    · have : uwStep inv (.inr (X, n)) p = .inr (uwNext inv X p, n + 1) := by simp [uwStep, hX, uwNext]
      rw [this]
      rcases ih (uwNext inv X p) (n + 1) with ⟨m, h0, h1, h2⟩ | ⟨_, h⟩
      · exact .inl ⟨m, by omega, h1, h2⟩
      · refine .inr ⟨fun _ => hX, ?_⟩
        rw [h, List.length_cons]; congr 2; omega

/-- A whole round. -/
def uwRound (ps : List (Finset (σ × σ))) (inv X : Finset σ) : Finset σ := ps.reverse.foldl (uwNext inv) X

theorem uwBody_cases {ps : List (Finset (σ × σ))} (hps : ps ≠ []) (inv X : Finset σ) (n : ℕ) :
    (∃ m, n ≤ m ∧ uwBody ps inv (X, n) = .inl (true, m) ∧ uwRound ps inv X = ∅) ∨
    (X ≠ ∅ ∧ uwRound ps inv X = X ∧ uwBody ps inv (X, n) = .inl (false, n + ps.length)) ∨
    (X ≠ ∅ ∧ uwRound ps inv X ≠ X ∧ uwBody ps inv (X, n) = .inr (uwRound ps inv X, n + ps.length)) := by
  have hr : ps.reverse ≠ [] := by simpa using hps
  rcases uwSteps (inv := inv) ps.reverse X n with ⟨m, h0, h1, h2⟩ | ⟨h1, h2⟩
  · exact .inl ⟨m, h0, by simp [uwBody, h1], h2⟩
  · rw [List.length_reverse] at h2
    by_cases h : uwRound ps inv X = X
    · refine .inr (.inl ⟨h1 hr, h, ?_⟩)
      unfold uwBody
      rw [h2]
      simp only
      exact if_pos h
    · refine .inr (.inr ⟨h1 hr, h, ?_⟩)
      unfold uwBody
      rw [h2]
      simp only
      exact if_neg h

theorem mem_dropDoms {l : List (Finset (σ × σ))} {X : Finset σ} {s : σ} :
    s ∈ l.foldl (fun s p => s \ dom p) X ↔ s ∈ X ∧ ∀ p ∈ l, s ∉ dom p := by
  induction l generalizing X with
  | nil => simp
  | cons q l ih =>
    rw [List.foldl_cons, ih, Finset.mem_sdiff]
    simp only [List.mem_cons, forall_eq_or_imp]
    tauto

/-- The set with which the loop starts. -/
def uwStart (ps : List (Finset (σ × σ))) (inv A : Finset σ) : Finset σ :=
  ps.dropLast.foldl (fun s p => s \ dom p) (A \ inv)

theorem uniWeakCk_deadlock {fuel : ℕ} {ps : List (Finset (σ × σ))} {inv A : Finset σ}
    (h : ¬ A \ inv ⊆ domE ps) : uniWeakCk fuel ps inv A = some (.ok (false, 1)) := by
  unfold uniWeakCk; rw [if_pos h]

theorem uniWeakCk_loop {fuel : ℕ} {ps : List (Finset (σ × σ))} {inv A : Finset σ}
    (h : A \ inv ⊆ domE ps) (hps : ps ≠ []) :
    uniWeakCk fuel ps inv A = (loopFuel (uwBody ps inv) fuel (uwStart ps inv A, 1)).map .ok := by
  unfold uniWeakCk; rw [if_neg (not_not.2 h), if_neg hps]; rfl

theorem sub_dom_iff {ps : List (Finset (σ × σ))} {inv A : Finset σ} :
    A \ inv ⊆ domE ps ↔ ∀ s ∈ A, s ∉ inv → ¬ Deadlock (xfmla ps) s := by
  constructor
  · intro h s hs hi hd
    obtain ⟨t, p, hp, ht⟩ := mem_domE.1 (h (Finset.mem_sdiff.2 ⟨hs, hi⟩))
    exact hd t (mem_xfmla.2 ⟨p, hp, ht⟩)
  · intro h s hs
    have := h s (Finset.mem_sdiff.1 hs).1 (Finset.mem_sdiff.1 hs).2
    unfold Deadlock at this
    push Not at this
    obtain ⟨t, ht⟩ := this
    obtain ⟨p, hp, hh⟩ := mem_xfmla.1 ht
    exact mem_domE.2 ⟨t, p, hp, hh⟩

/-- The states after the last process alone. -/
theorem uwStart_last {qs : List (Finset (σ × σ))} {p : Finset (σ × σ)} {inv A : Finset σ}
    (h : A \ inv ⊆ domE (qs ++ [p])) {s : σ} :
    s ∈ uwStart (qs ++ [p]) inv A ↔ s ∈ A ∧ s ∉ inv ∧ s ∈ dom p ∧ ∀ q ∈ qs, s ∉ dom q := by
  unfold uwStart
  rw [List.dropLast_concat, mem_dropDoms, Finset.mem_sdiff]
  constructor
  · rintro ⟨⟨h1, h2⟩, h3⟩
    refine ⟨h1, h2, ?_, h3⟩
    obtain ⟨t, q, hq, ht⟩ := mem_domE.1 (h (Finset.mem_sdiff.2 ⟨h1, h2⟩))
    rcases List.mem_append.1 hq with hq | hq
    · exact absurd (mem_dom.2 ⟨t, ht⟩) (h3 q hq)
    · rw [List.mem_singleton] at hq; subst hq; exact mem_dom.2 ⟨t, ht⟩
  · rintro ⟨h1, h2, _, h3⟩; exact ⟨⟨h1, h2⟩, h3⟩

theorem uniWeakCk_self_disabling {qs : List (Finset (σ × σ))} {p : Finset (σ × σ)}
    (hp : ∀ s t u, (s, t) ∈ p → (t, u) ∉ p) (inv A : Finset σ) (hA : A \ inv ⊆ domE (qs ++ [p])) (fuel : ℕ)
    (hf : 2 ≤ fuel) :
    uniWeakCk fuel (qs ++ [p]) inv A =
      some (.ok (true, if uwStart (qs ++ [p]) inv A = ∅ then 1 else 2)) := by
  obtain ⟨fuel, rfl⟩ : ∃ k, fuel = k + 2 := ⟨fuel - 2, by omega⟩
  rw [uniWeakCk_loop hA (by simp)]
  by_cases h0 : uwStart (qs ++ [p]) inv A = ∅
  · have : uwBody (qs ++ [p]) inv (∅, 1) = .inl (true, 1) := by
      unfold uwBody
      rw [List.reverse_append, List.reverse_singleton, List.singleton_append, List.foldl_cons]
      have : uwStep inv (.inr (∅, 1)) p = .inl 1 := by simp [uwStep]
      rw [this, uwStep_inl]
    rw [h0, if_pos rfl]
    simp [loopFuel, this]
  · have he : uwNext inv (uwStart (qs ++ [p]) inv A) p = ∅ := by
      rw [Finset.eq_empty_iff_forall_notMem]
      intro s hs
      obtain ⟨_, ⟨t, ht, hst⟩, _⟩ := mem_uwNext.1 hs
      obtain ⟨u, hu⟩ := mem_dom.1 ((uwStart_last hA).1 ht).2.2.1
      exact hp s t u hst hu
    have h1 : uwStep inv (.inr (uwStart (qs ++ [p]) inv A, 1)) p = .inr (∅, 2) := by
      rw [← he]; simp [uwStep, h0, uwNext]
    rw [if_neg h0]
    cases hq : qs.reverse with
    | nil =>
      have hq' : qs = [] := by simpa using hq
      subst hq'
      have b1 : uwBody ([] ++ [p]) inv (uwStart ([] ++ [p]) inv A, 1) = .inr (∅, 2) := by
        unfold uwBody
        rw [List.nil_append] at *
        rw [List.reverse_singleton, List.foldl_cons, h1, List.foldl_nil]
        simp only
        rw [if_neg (fun h => h0 h.symm)]
      have b2 : uwBody ([] ++ [p]) inv (∅, 2) = .inl (true, 2) := by
        simp [uwBody, uwStep]
      simp only [loopFuel, b1, b2, Option.map_some]
    | cons q l =>
      have b1 : uwBody (qs ++ [p]) inv (uwStart (qs ++ [p]) inv A, 1) = .inl (true, 2) := by
        unfold uwBody
        rw [List.reverse_append, List.reverse_singleton, List.singleton_append, List.foldl_cons, h1, hq,
          List.foldl_cons]
        have : uwStep inv (.inr (∅, 2)) q = .inl 2 := by simp [uwStep]
        rw [this, uwStep_inl]
      simp [loopFuel, b1]

/-- Transitions outside of a set. -/
def outside (xn : Finset (σ × σ)) (inv : Finset σ) : Finset (σ × σ) := xn.filter fun e => e.1 ∉ inv ∧ e.2 ∉ inv

theorem outside_cycle {xn : Finset (σ × σ)} {inv : Finset σ} {c : σ} (h : OnCycle (outside xn inv) c) :
    OnCycleIn xn invᶜ c := by
  refine Relation.TransGen.mono (fun a b hab => ?_) _ _ h
  obtain ⟨h1, h2, h3⟩ := Finset.mem_filter.1 hab
  exact ⟨h1, by simpa using h2, by simpa using h3⟩

theorem stepN_add {xn : Finset (σ × σ)} {m n : ℕ} {s t u : σ} (h1 : StepN xn m s t) (h2 : StepN xn n t u) :
    StepN xn (m + n) s u := by
  induction m generalizing s with
  | zero => cases h1; simpa using h2
  | succ m ih =>
    obtain ⟨v, hv, h⟩ := h1
    rw [Nat.succ_add_eq_add_succ] at *
    have := ih h
    rw [show m + (n + 1) = (m + n) + 1 by omega]
    exact ⟨v, hv, this⟩

theorem uwNexts_path {xn : Finset (σ × σ)} {inv : Finset σ} : ∀ (l : List (Finset (σ × σ))) (X : Finset σ),
    (∀ p ∈ l, p ⊆ xn) → (∀ s ∈ X, s ∉ inv) → ∀ s ∈ l.foldl (uwNext inv) X,
      s ∉ inv ∧ ∃ t ∈ X, StepN (outside xn inv) l.length s t := by
  intro l
  induction l with
  | nil => intro X _ hX s hs; exact ⟨hX s hs, s, hs, rfl⟩
  | cons p l ih =>
    intro X hl hX s hs
    have hX' : ∀ s ∈ uwNext inv X p, s ∉ inv := fun s hs => (mem_uwNext.1 hs).1
    obtain ⟨h1, t, ht, hst⟩ := ih _ (fun q hq => hl q (List.mem_cons_of_mem _ hq)) hX' s hs
    obtain ⟨h2, ⟨u, hu, htu⟩, _⟩ := mem_uwNext.1 ht
    refine ⟨h1, u, hu, ?_⟩
    rw [List.length_cons]
    exact stepN_succ'.2 ⟨t, hst, Finset.mem_filter.2 ⟨hl p List.mem_cons_self htu, h2, hX u hu⟩⟩

theorem uwRound_path {ps : List (Finset (σ × σ))} {inv X : Finset σ} (hX : ∀ s ∈ X, s ∉ inv) {s : σ}
    (hs : s ∈ uwRound ps inv X) : s ∉ inv ∧ ∃ t ∈ X, StepN (outside (xfmla ps) inv) ps.length s t := by
  have := uwNexts_path (xn := xfmla ps) (inv := inv) ps.reverse X
    (fun p hp e he => mem_xfmla.2 ⟨p, by simpa using hp, he⟩) hX s hs
  simpa using this

theorem uniWeakCk_no_cycle {ps : List (Finset (σ × σ))} (hps : ps ≠ []) {inv A : Finset σ}
    (hc : ∀ c, ¬ OnCycleIn (xfmla ps) invᶜ c) (hA : A \ inv ⊆ domE ps) (fuel : ℕ) (hf : Fintype.card σ + 1 < fuel) :
    ∃ m, uniWeakCk fuel ps inv A = some (.ok (true, m)) := by
  rw [uniWeakCk_loop hA hps]
  have hlen : 1 ≤ ps.length := by
    rcases ps with _ | ⟨p, l⟩
    · exact absurd rfl hps
    · simp
  have hlong : ∀ k s t, StepN (outside (xfmla ps) inv) k s t → k < Fintype.card σ := by
    intro k s t h
    by_contra hk
    obtain ⟨c, _, hcy⟩ := cycle_of_long_walk h (by omega)
    exact hc c (outside_cycle hcy)
  have key := loopFuel_ghost (body := uwBody ps inv) (γ := ℕ)
    (fun k st => (∀ s ∈ st.1, s ∉ inv) ∧ ∀ s ∈ st.1, ∃ t, StepN (outside (xfmla ps) inv) k s t)
    (fun r => r.1 = true) (fun k st => Fintype.card σ + 1 - k) ?_ ?_ fuel 0 (uwStart ps inv A, 1) ?_ ?_
  · obtain ⟨⟨b, m⟩, h1, h2⟩ := key
    simp only at h2; subst h2
    exact ⟨m, by rw [h1]; rfl⟩
  · rintro k ⟨X, n⟩ b ⟨h1, h2⟩ hb
    rcases uwBody_cases hps inv X n with ⟨m, _, h, _⟩ | ⟨hX, hfix, h⟩ | ⟨_, _, h⟩
    · rw [h] at hb; cases hb; rfl
    · exfalso
      have hj : ∀ j, ∀ s ∈ X, ∃ t ∈ X, StepN (outside (xfmla ps) inv) (j * ps.length) s t := by
        intro j
        induction j with
        | zero => intro s hs; exact ⟨s, hs, by simp [StepN]⟩
        | succ j ih =>
          intro s hs
          rw [← hfix] at hs
          obtain ⟨_, t, ht, hst⟩ := uwRound_path h1 hs
          obtain ⟨u, hu, htu⟩ := ih t ht
          refine ⟨u, hu, ?_⟩
          rw [show (j + 1) * ps.length = ps.length + j * ps.length by rw [Nat.succ_mul]; omega]
          exact stepN_add hst htu
      obtain ⟨s, hs⟩ := Finset.nonempty_iff_ne_empty.2 hX
      obtain ⟨t, _, hst⟩ := hj (Fintype.card σ) s hs
      have := hlong _ _ _ hst
      have := Nat.mul_le_mul_left (Fintype.card σ) hlen
      omega
    · rw [h] at hb; cases hb
  · rintro k ⟨X, n⟩ st' ⟨h1, h2⟩ hb
    rcases uwBody_cases hps inv X n with ⟨m, _, h, _⟩ | ⟨_, _, h⟩ | ⟨hX, _, h⟩
    · rw [h] at hb; cases hb
    · rw [h] at hb; cases hb
    · rw [h] at hb; cases hb
      refine ⟨ps.length + k, ⟨fun s hs => (uwRound_path h1 hs).1, ?_⟩, ?_⟩
      · intro s hs
        obtain ⟨_, t, ht, hst⟩ := uwRound_path h1 hs
        obtain ⟨u, htu⟩ := h2 t ht
        exact ⟨u, stepN_add hst htu⟩
      · obtain ⟨s, hs⟩ := Finset.nonempty_iff_ne_empty.2 hX
        obtain ⟨t, hst⟩ := h2 s hs
        have := hlong _ _ _ hst
        omega
  · refine ⟨?_, fun s _ => ⟨s, rfl⟩⟩
    intro s hs
    exact (Finset.mem_sdiff.1 (mem_dropDoms.1 hs).1).2
  · omega

/-- A `false` that is not due to a deadlock comes with a cycle outside of the invariant. -/
theorem uniWeakCk_false {ps : List (Finset (σ × σ))} (hps : ps ≠ []) {inv A : Finset σ}
    (hA : A \ inv ⊆ domE ps) (fuel : ℕ) (m : ℕ) (h : uniWeakCk fuel ps inv A = some (.ok (false, m))) :
    ∃ c, OnCycleIn (xfmla ps) invᶜ c := by
  by_contra hc
  push Not at hc
  obtain ⟨m', h'⟩ := uniWeakCk_no_cycle hps hc hA (fuel + Fintype.card σ + 2) (by omega)
  rw [uniWeakCk_loop hA hps, Option.map_eq_some_iff] at h h'
  obtain ⟨x, h1, h2⟩ := h
  obtain ⟨y, h3, h4⟩ := h'
  cases h2; cases h4
  have := loopFuel_det h1 h3
  cases this

end Verif.Model
