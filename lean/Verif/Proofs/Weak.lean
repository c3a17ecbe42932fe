import Verif.Proofs.Reach
import Verif.Spec.Conv
import Verif.Model.Stab

/-! Helper lemmas: weak convergence. -/

set_option linter.unusedSectionVars false

namespace Verif.Model
open Verif.Spec

universe u
variable {σ : Type u} [Fintype σ] [DecidableEq σ]

theorem distLe_mem {xn : Finset (σ × σ)} {A I : Finset σ} {n : ℕ} {s : σ}
    (h : DistLe xn A I n s) : s ∈ A := by
  induction n generalizing s with
  | zero => exact h.1
  | succ n ih => rcases h with h | h; exacts [ih h, h.1]

theorem distLe_mono {xn : Finset (σ × σ)} {A I : Finset σ} {n m : ℕ} {s : σ} (hnm : n ≤ m)
    (h : DistLe xn A I n s) : DistLe xn A I m s := by
  induction m, hnm using Nat.le_induction with
  | base => exact h
  | succ k _ ih => exact Or.inl ih

theorem reachIn_iff_dist {xn : Finset (σ × σ)} {A I : Finset σ} {s : σ} :
    (∃ t ∈ I, ReachIn xn A s t) ↔ ∃ n, DistLe xn A I n s := by
  constructor
  · rintro ⟨t, ht, hs, h⟩
    have key : ∀ s, Relation.ReflTransGen (fun a b => Step xn a b ∧ b ∈ A) s t → s ∈ A →
        ∃ n, DistLe xn A I n s := by
      intro s h
      induction h using Relation.ReflTransGen.head_induction_on with
      | refl => intro hs; exact ⟨0, hs, ht⟩
      | head h1 _ ih =>
        intro hs
        obtain ⟨n, hn⟩ := ih h1.2
        exact ⟨n + 1, Or.inr ⟨hs, _, h1.1, hn⟩⟩
    exact key s h hs
  · rintro ⟨n, hn⟩
    induction n generalizing s with
    | zero => exact ⟨s, hn.2, hn.1, Relation.ReflTransGen.refl⟩
    | succ n ih =>
      rcases hn with hn | ⟨hs, t, hst, hn⟩
      · exact ih hn
      · obtain ⟨w, hw, h1, h2⟩ := ih hn
        exact ⟨w, hw, hs, Relation.ReflTransGen.head ⟨hst, h1⟩ h2⟩

/-- The `k`-th value of `span0` in the 4-argument `weak_convergence_ck`. -/
def spanW (xn : Finset (σ × σ)) (A I : Finset σ) : ℕ → Finset σ
  | 0 => A \ I
  | k + 1 => spanW xn A I k \ pre xn (A \ spanW xn A I k)

theorem mem_spanW {xn : Finset (σ × σ)} {A I : Finset σ} {k : ℕ} {s : σ} :
    s ∈ spanW xn A I k ↔ s ∈ A ∧ ¬ DistLe xn A I k s := by
  induction k generalizing s with
  | zero => simp only [spanW, DistLe, Finset.mem_sdiff]; tauto
  | succ k ih =>
    simp only [spanW, Finset.mem_sdiff, mem_pre, ih, DistLe, Step]
    constructor
    · rintro ⟨⟨h1, h2⟩, h3⟩
      refine ⟨h1, ?_⟩
      rintro (h | ⟨_, t, ht, hd⟩)
      · exact h2 h
      · exact h3 ⟨t, ⟨distLe_mem hd, fun h => h.2 hd⟩, ht⟩
    · rintro ⟨h1, h2⟩
      refine ⟨⟨h1, fun h => h2 (Or.inl h)⟩, ?_⟩
      rintro ⟨t, ⟨htA, ht⟩, he⟩
      apply h2
      right
      refine ⟨h1, t, he, ?_⟩
      by_contra hd
      exact ht ⟨htA, hd⟩

theorem spanW_fix {xn : Finset (σ × σ)} {A I : Finset σ} {k : ℕ}
    (h : spanW xn A I k = spanW xn A I (k + 1)) (j : ℕ) : k ≤ j →
    spanW xn A I j = spanW xn A I k := by
  intro hj
  induction j, hj using Nat.le_induction with
  | base => rfl
  | succ j _ ih => rw [h]; simp only [spanW, ih]

/-- Description of the result of the 4-argument check. -/
def WeakPost (xn : Finset (σ × σ)) (A I : Finset σ) (lim : Option ℕ) (r : Bool × ℕ) : Prop :=
  (∃ m, lim = some m ∧ 0 < m ∧ r = (false, m + 1) ∧
    ∀ j < m, spanW xn A I j ≠ spanW xn A I (j + 1)) ∨
  (∃ k, spanW xn A I k = spanW xn A I (k + 1) ∧
    (∀ j < k, spanW xn A I j ≠ spanW xn A I (j + 1)) ∧
    r.1 = decide (spanW xn A I k = ∅) ∧
    ∀ m, lim = some m → r.2 = k + 1 ∧ (m = 0 ∨ k + 1 ≤ m))

theorem weakConv4_total (xn : Finset (σ × σ)) (A I : Finset σ) (lim : Option ℕ) (fuel : ℕ)
    (hf : Fintype.card σ < fuel) :
    ∃ r, weakConv4 fuel lim xn I A = some r ∧ WeakPost xn A I lim r := by
  have key := loopFuel_ghost (body := weakBody xn A lim)
    (fun (k : ℕ) st => st.1 = spanW xn A I k ∧
      (∀ j < k, spanW xn A I j ≠ spanW xn A I (j + 1)) ∧
      ∀ m, lim = some m → st.2 = k + 1 ∧ (m = 0 ∨ k + 1 ≤ m))
    (fun r => WeakPost xn A I lim
      (match r with
        | .inl n => (false, n)
        | .inr st => (decide (st.1 = ∅), st.2)))
    (fun _ st => st.1.card) ?_ ?_ fuel 0 (A \ I, 1) ?_ ?_
  · obtain ⟨r, hr, hp⟩ := key
    unfold weakConv4
    rw [hr]
    cases r with
    | inl n => exact ⟨_, rfl, hp⟩
    | inr st => exact ⟨_, rfl, hp⟩
  · rintro k st r ⟨h1, h2, h3⟩ hb
    unfold weakBody at hb
    simp only at hb
    split at hb
    · next hfix =>
      cases hb
      right
      refine ⟨k, ?_, h2, ?_, h3⟩
      · rw [h1] at hfix; exact hfix
      · simp [h1]
    · next hfix =>
      have hne : spanW xn A I k ≠ spanW xn A I (k + 1) := by
        intro h; apply hfix; rw [h1]; exact h
      cases lim with
      | none => simp at hb
      | some m =>
        simp only at hb
        split at hb
        · next hl =>
          cases hb
          obtain ⟨h4, h5⟩ := h3 m rfl
          simp only [gt_iff_lt, Bool.and_eq_true, decide_eq_true_eq] at hl
          left
          refine ⟨m, rfl, hl.1, by simp; omega, ?_⟩
          intro j hj
          by_cases hjk : j < k
          · exact h2 j hjk
          · have : j = k := by omega
            subst this; exact hne
        · cases hb
  · rintro k st st' ⟨h1, h2, h3⟩ hb
    refine ⟨k + 1, ?_⟩
    unfold weakBody at hb
    simp only at hb
    split at hb
    · cases hb
    · next hfix =>
      have hne : spanW xn A I k ≠ spanW xn A I (k + 1) := by
        intro h; apply hfix; rw [h1]; exact h
      have h2' : ∀ j < k + 1, spanW xn A I j ≠ spanW xn A I (j + 1) := by
        intro j hj
        by_cases hjk : j < k
        · exact h2 j hjk
        · have : j = k := by omega
          subst this; exact hne
      have hlt : (st.1 \ pre xn (A \ st.1)).card < st.1.card := by
        apply Finset.card_lt_card
        exact lt_of_le_of_ne Finset.sdiff_subset (fun h => hfix h.symm)
      have hsp : st.1 \ pre xn (A \ st.1) = spanW xn A I (k + 1) := by rw [h1]; rfl
      cases lim with
      | none =>
        cases hb
        exact ⟨⟨hsp, h2', by intro m hm; cases hm⟩, hlt⟩
      | some m =>
        simp only at hb
        split at hb
        · cases hb
        · next hl =>
          cases hb
          refine ⟨⟨hsp, h2', ?_⟩, hlt⟩
          rintro m' hm'
          cases hm'
          obtain ⟨h4, h5⟩ := h3 m rfl
          simp only [gt_iff_lt, Bool.and_eq_true, decide_eq_true_eq, not_and, not_lt] at hl
          exact ⟨by simp; omega, by omega⟩
  · refine ⟨rfl, by intro j hj; omega, ?_⟩
    rintro m _
    exact ⟨rfl, by omega⟩
  · exact lt_of_le_of_lt (Finset.card_le_univ _) hf

/-- Any result of the 4-argument check satisfies the description (whatever the fuel). -/
theorem weakConv4_partial {xn : Finset (σ × σ)} {A I : Finset σ} {lim : Option ℕ} {fuel : ℕ}
    {r : Bool × ℕ} (h : weakConv4 fuel lim xn I A = some r) : WeakPost xn A I lim r := by
  obtain ⟨r', hr', hp⟩ := weakConv4_total xn A I lim (fuel + Fintype.card σ + 1) (by omega)
  have : weakConv4 (fuel + Fintype.card σ + 1) lim xn I A = some r := by
    unfold weakConv4 at h ⊢
    cases hl : loopFuel (weakBody xn A lim) fuel (A \ I, 1) with
    | none => simp [hl] at h
    | some b =>
      rw [hl] at h
      rw [loopFuel_mono (by omega : fuel ≤ fuel + Fintype.card σ + 1) _ _ hl]
      exact h
  rw [hr'] at this
  cases this
  exact hp

theorem spanW_final {xn : Finset (σ × σ)} {A I : Finset σ} {k : ℕ}
    (h : spanW xn A I k = spanW xn A I (k + 1)) (s : σ) :
    s ∈ spanW xn A I k ↔ s ∈ A ∧ ¬ ∃ t ∈ I, ReachIn xn A s t := by
  rw [reachIn_iff_dist]
  constructor
  · intro hs
    refine ⟨(mem_spanW.1 hs).1, ?_⟩
    rintro ⟨n, hn⟩
    rw [← spanW_fix h (max k n) (le_max_left _ _)] at hs
    exact (mem_spanW.1 hs).2 (distLe_mono (le_max_right _ _) hn)
  · rintro ⟨h1, h2⟩
    exact mem_spanW.2 ⟨h1, fun h => h2 ⟨_, h⟩⟩

end Verif.Model
