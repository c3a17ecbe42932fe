import Verif.Model.Interactive
import Verif.Proofs.Loop

/-! Lemmas for properties C45 and C63: the interactive simulator. -/

set_option linter.unusedSectionVars false

namespace Verif.Proofs
open Verif.Model

variable {n : ℕ} {dom : Fin n → ℕ}

theorem mem_optLine {s x : ISt n dom} {a : Fin n × ℕ} :
    a ∈ optLine s x ↔ x a.1 ≠ s a.1 ∧ a.2 = (x a.1).val := by
  unfold optLine
  rw [List.mem_filterMap]
  constructor
  · rintro ⟨i, -, h⟩
    split at h
    · rename_i hne
      simp only [Option.some.injEq] at h
      subst h
      exact ⟨hne, rfl⟩
    · simp at h
  · rintro ⟨h1, h2⟩
    refine ⟨a.1, List.mem_finRange _, ?_⟩
    rw [if_pos h1, ← h2]

theorem assign_fold (s x : ISt n dom) : ∀ (l : List (Fin n × ℕ)) (y : ISt n dom),
    (∀ a ∈ l, a.2 = (x a.1).val) →
    ∀ i, (l.foldl (fun (s : ISt n dom) a =>
      Function.update s a.1 ⟨a.2 % dom a.1, Nat.mod_lt _ (Fin.pos (s a.1))⟩) y) i =
      if i ∈ l.map Prod.fst then x i else y i := by
  intro l
  induction l with
  | nil => simp
  | cons a l ih =>
    intro y h i
    rw [List.foldl_cons, ih _ (fun b hb => h b (by simp [hb]))]
    have ha := h a (by simp)
    by_cases hi : i ∈ l.map Prod.fst
    · rw [if_pos hi, if_pos (by rw [List.map_cons]; exact List.mem_cons_of_mem _ hi)]
    · rw [if_neg hi]
      by_cases hia : i = a.1
      · subst hia
        rw [Function.update_self, if_pos (by simp)]
        apply Fin.ext
        show a.2 % dom a.1 = _
        rw [ha, Nat.mod_eq_of_lt (x a.1).isLt]
      · rw [Function.update_of_ne hia, if_neg]
        rw [List.map_cons, List.mem_cons, not_or]
        exact ⟨hia, hi⟩

/-- Typing the line of an option leads to its state. -/
theorem assign_optLine (s x : ISt n dom) : assignLine s (optLine s x) = x := by
  funext i
  unfold assignLine
  rw [assign_fold s x _ s (fun a ha => (mem_optLine.1 ha).2)]
  split
  · rfl
  · rename_i h
    by_contra hc
    apply h
    exact List.mem_map.2 ⟨(i, (x i).val), mem_optLine.2 ⟨fun h => hc h.symm, rfl⟩, rfl⟩

theorem optLoop_spec (pick : Finset (ISt n dom) → ISt n dom)
    (hpick : ∀ P, P.Nonempty → pick P ∈ P) (s : ISt n dom) (fuel : ℕ) (P : Finset (ISt n dom))
    (lines : List (List (Fin n × ℕ))) (hf : P.card < fuel) :
    ∃ xs : List (ISt n dom), optLoop pick s fuel P lines = some (lines ++ xs.map (optLine s)) ∧
      xs.Nodup ∧ ∀ x, x ∈ xs ↔ x ∈ P := by
  unfold optLoop
  have := loopFuel_total (body := fun st : Finset (ISt n dom) × List (List (Fin n × ℕ)) =>
    if st.1.Nonempty then
      .inr (st.1 \ {pick st.1}, st.2 ++ [optLine s (pick st.1)])
    else (.inl st.2 : List (List (Fin n × ℕ)) ⊕ _))
    (fun st => ∃ xs : List (ISt n dom), st.2 = lines ++ xs.map (optLine s) ∧ xs.Nodup ∧
      (∀ x, x ∈ xs → x ∈ P) ∧ ∀ x, x ∈ st.1 ↔ x ∈ P ∧ x ∉ xs)
    (fun r => ∃ xs : List (ISt n dom), r = lines ++ xs.map (optLine s) ∧
      xs.Nodup ∧ ∀ x, x ∈ xs ↔ x ∈ P) (fun st => st.1.card) (by
      rintro ⟨Q, ls⟩ b ⟨xs, h1, h2, h3, h4⟩ hb
      simp only at hb h1 h4
      split at hb
      · simp at hb
      · rename_i hne
        simp only [Sum.inl.injEq] at hb
        subst hb
        refine ⟨xs, h1, h2, fun x => ⟨h3 x, fun hx => ?_⟩⟩
        by_contra hc
        exact hne ⟨x, (h4 x).2 ⟨hx, hc⟩⟩) (by
      rintro ⟨Q, ls⟩ st' ⟨xs, h1, h2, h3, h4⟩ hb
      simp only at hb h1 h4
      split at hb
      · rename_i hne
        simp only [Sum.inr.injEq] at hb
        subst hb
        have hp := hpick Q hne
        have hp' := (h4 _).1 hp
        refine ⟨⟨xs ++ [pick Q], ?_, ?_, ?_, ?_⟩, ?_⟩
        · simp [h1]
        · rw [List.nodup_append]
          refine ⟨h2, by simp, ?_⟩
          rintro a ha b hb rfl
          rw [List.mem_singleton] at hb
          exact hp'.2 (hb ▸ ha)
        · intro x hx
          rcases List.mem_append.1 hx with hx | hx
          · exact h3 x hx
          · rw [List.mem_singleton] at hx; subst hx; exact hp'.1
        · intro x
          simp only [Finset.mem_sdiff, Finset.mem_singleton, h4, List.mem_append, List.mem_singleton]
          tauto
        · exact Finset.card_lt_card (Finset.sdiff_ssubset (by simpa using hp) (by simp))
      · simp at hb) fuel (P, lines) ⟨[], by simp, by simp, by simp, by simp⟩ hf
  obtain ⟨b, h1, xs, rfl, h2⟩ := this
  exact ⟨xs, h1, h2⟩

theorem optVbls_spec (pick : Finset (ISt n dom) → ISt n dom)
    (hpick : ∀ P, P.Nonempty → pick P ∈ P) (s : ISt n dom) (fuel : ℕ) :
    ∀ (l : List (Fin n)) (next : Finset (ISt n dom)) (lines : List (List (Fin n × ℕ))),
      next.card < fuel →
      ∃ xs : List (ISt n dom), optVbls pick s fuel l next lines = some (lines ++ xs.map (optLine s)) ∧
        xs.Nodup ∧ ∀ x, x ∈ xs ↔ x ∈ next ∧ ∃ v ∈ l, x v ≠ s v := by
  intro l
  induction l with
  | nil => intro next lines _; exact ⟨[], by simp [optVbls], by simp, by simp⟩
  | cons v l ih =>
    intro next lines hf
    obtain ⟨xs, h1, h2, h3⟩ := optLoop_spec pick hpick s fuel (next.filter fun x => x v ≠ s v) lines
      (lt_of_le_of_lt (Finset.card_filter_le _ _) hf)
    obtain ⟨ys, g1, g2, g3⟩ := ih (next.filter fun x => ¬ x v ≠ s v) (lines ++ xs.map (optLine s))
      (lt_of_le_of_lt (Finset.card_filter_le _ _) hf)
    refine ⟨xs ++ ys, ?_, ?_, fun x => ?_⟩
    · rw [optVbls, h1, Option.bind_some, g1]
      simp
    · rw [List.nodup_append]
      refine ⟨h2, g2, ?_⟩
      rintro a ha b hb rfl
      have e1 := (h3 a).1 ha
      have e2 := (g3 a).1 hb
      rw [Finset.mem_filter] at e1 e2
      exact e2.1.2 e1.2
    · rw [List.mem_append, h3, g3, Finset.mem_filter, Finset.mem_filter]
      simp only [List.mem_cons, exists_eq_or_imp]
      tauto

/-- All that is needed about `next_options`. -/
theorem nextOptions_spec (pick : Finset (ISt n dom) → ISt n dom)
    (hpick : ∀ P, P.Nonempty → pick P ∈ P) (xn : Finset (ISt n dom × ISt n dom))
    (mask : Finset (ISt n dom)) (fwd : Bool) (fuel : ℕ) (s : ISt n dom) (hf : mask.card < fuel) :
    ∃ xs : List (ISt n dom), nextOptions pick xn mask fwd fuel s = some (xs.map (optLine s)) ∧
      xs.Nodup ∧ ∀ x, x ∈ xs ↔ x ≠ s ∧ (if fwd then (s, x) ∈ xn else (x, s) ∈ xn) ∧ x ∈ mask := by
  unfold nextOptions
  obtain ⟨xs, h1, h2, h3⟩ := optVbls_spec pick hpick s fuel (List.finRange n)
    ((if fwd then Finset.univ.filter (fun t => (s, t) ∈ xn)
    else Finset.univ.filter (fun t => (t, s) ∈ xn)) ∩ mask) []
    (lt_of_le_of_lt (Finset.card_le_card Finset.inter_subset_right) hf)
  refine ⟨xs, by simpa using h1, h2, fun x => ?_⟩
  rw [h3]
  have hne : (∃ v ∈ List.finRange n, x v ≠ s v) ↔ x ≠ s := by
    rw [Ne, funext_iff, not_forall]
    simp
  rw [hne, Finset.mem_inter]
  cases fwd <;> simp <;> tauto

end Verif.Proofs

namespace Verif.Proofs
open Verif.Model

variable {n : ℕ} {dom : Fin n → ℕ}

theorem randLoop_mem (rnd : ℕ → ℕ → ℕ) (hr : ∀ k m, 0 < m → rnd k m < m) :
    ∀ (l : List (Fin n)) (pf : Finset (ISt n dom)) (s : ISt n dom), pf.Nonempty →
      (∀ x ∈ pf, ∀ i, i ∉ l → x i = s i) → ∃ r ∈ pf, randLoop rnd l pf s = some r := by
  intro l
  induction l with
  | nil =>
    rintro pf s ⟨x, hx⟩ h
    have : x = s := funext fun i => h x hx i (by simp)
    exact ⟨s, this ▸ hx, rfl⟩
  | cons i l ih =>
    rintro pf s ⟨x, hx⟩ h
    unfold randLoop
    simp only
    have hv : x i ∈ (List.finRange (dom i)).filter fun j => (pf.filter fun x => x i = j).Nonempty := by
      rw [List.mem_filter]
      exact ⟨List.mem_finRange _, by simpa using ⟨x, Finset.mem_filter.2 ⟨hx, rfl⟩⟩⟩
    generalize hvals : ((List.finRange (dom i)).filter fun j =>
      decide ((pf.filter fun x => x i = j).Nonempty)) = vals at hv
    have hlen : 0 < vals.length := List.length_pos_of_mem hv
    have hlt := hr l.length vals.length hlen
    rw [List.getElem?_eq_getElem hlt]
    simp only
    have hm : vals[rnd l.length vals.length] ∈ vals := List.getElem_mem hlt
    generalize vals[rnd l.length vals.length] = v at hm ⊢
    rw [← hvals, List.mem_filter] at hm
    have hne : (pf.filter fun x => x i = v).Nonempty := by simpa using hm.2
    obtain ⟨r, h1, h2⟩ := ih (pf.filter fun x => x i = v) (Function.update s i v) hne (by
      intro y hy j hj
      rw [Finset.mem_filter] at hy
      by_cases hji : j = i
      · subst hji; rw [Function.update_self]; exact hy.2
      · rw [Function.update_of_ne hji]
        exact h y hy.1 j (by simp [hji, hj]))
    exact ⟨r, (Finset.mem_filter.1 h1).1, h2⟩

theorem randLoop_congr {rnd rnd' : ℕ → ℕ → ℕ} : ∀ (l : List (Fin n)) (pf : Finset (ISt n dom))
    (s : ISt n dom), (∀ k m, k < l.length → rnd k m = rnd' k m) →
    randLoop rnd l pf s = randLoop rnd' l pf s := by
  intro l
  induction l with
  | nil => intros; rfl
  | cons i l ih =>
    intro pf s h
    unfold randLoop
    simp only
    rw [h l.length _ (by simp)]
    split
    · rfl
    · exact ih _ _ (fun k m hk => h k m (by simp; omega))

theorem randLoop_all : ∀ (l : List (Fin n)) (pf : Finset (ISt n dom)) (s t : ISt n dom), t ∈ pf →
    (∀ i, i ∉ l → t i = s i) →
    ∃ rnd : ℕ → ℕ → ℕ, (∀ k m, 0 < m → rnd k m < m) ∧ randLoop rnd l pf s = some t := by
  intro l
  induction l with
  | nil =>
    intro pf s t _ h
    exact ⟨fun _ _ => 0, fun _ _ h => h, by rw [funext fun i => h i (by simp)]; rfl⟩
  | cons i l ih =>
    intro pf s t ht h
    obtain ⟨rnd, h1, h2⟩ := ih (pf.filter fun x => x i = t i) (Function.update s i (t i)) t
      (Finset.mem_filter.2 ⟨ht, rfl⟩) (by
        intro j hj
        by_cases hji : j = i
        · subst hji; rw [Function.update_self]
        · rw [Function.update_of_ne hji]; exact h j (by simp [hji, hj]))
    have hv : t i ∈ (List.finRange (dom i)).filter fun j => (pf.filter fun x => x i = j).Nonempty := by
      rw [List.mem_filter]
      exact ⟨List.mem_finRange _, by simpa using ⟨t, Finset.mem_filter.2 ⟨ht, rfl⟩⟩⟩
    obtain ⟨idx, hidx⟩ := List.mem_iff_getElem?.1 hv
    have hlt : idx < _ := (List.getElem?_eq_some_iff.1 hidx).1
    refine ⟨fun k m => if k = l.length then (if idx < m then idx else 0) else rnd k m, ?_, ?_⟩
    · intro k m hm
      simp only
      split
      · split <;> assumption
      · exact h1 k m hm
    · unfold randLoop
      simp only [if_true]
      rw [if_pos hlt, hidx]
      simp only
      rw [← h2]
      exact randLoop_congr l _ _ (fun k m hk => by rw [if_neg (by omega)])

end Verif.Proofs
