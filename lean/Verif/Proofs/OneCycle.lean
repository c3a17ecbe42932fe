import Verif.Model.OneCycle
import Verif.Proofs.Loop
import Verif.Proofs.Cycle
import Mathlib.Data.List.Chain

/-! Lemmas about the livelock explanations. -/

set_option linter.unusedSectionVars false

namespace Verif.Proofs
open Verif.Model Verif.Spec

universe u
variable {σ : Type u} [Fintype σ] [DecidableEq σ]

theorem mem_img_singleton {xn : Finset (σ × σ)} {s t : σ} : t ∈ img xn {s} ↔ (s, t) ∈ xn := by
  simp [img]

/-- The walk found by the loop: a path without repetition, closed by one step back into it. -/
theorem oneCycle_loop {pick : Finset σ → Option σ} (hp : ∀ S : Finset σ, S.Nonempty → ∃ s ∈ S, pick S = some s)
    {xn : Finset (σ × σ)} {scc : Finset σ} (hsucc : ∀ s ∈ scc, ∃ t ∈ scc, (s, t) ∈ xn) {s₀ : σ}
    (h₀ : ∃ t ∈ scc, (s₀, t) ∈ xn) (fuel : ℕ) (hf : Fintype.card σ < fuel) :
    ∃ l t, loopFuel (oneCycleBody pick xn scc) fuel ([s₀], ∅) = some (some (l ++ [t])) ∧
      l.head? = some s₀ ∧ l.Nodup ∧ t ∈ l ∧ List.IsChain (Step xn) (l ++ [t]) ∧ ∀ x ∈ l.tail ++ [t], x ∈ scc := by
  have key := loopFuel_total (body := oneCycleBody pick xn scc)
    (fun st => ∃ l s, st.1 = l ++ [s] ∧ st.2 = l.toFinset ∧ st.1.head? = some s₀ ∧ st.1.Nodup ∧
      List.IsChain (Step xn) st.1 ∧ ∀ x ∈ st.1.tail, x ∈ scc)
    (fun o => ∃ l t, o = some (l ++ [t]) ∧ l.head? = some s₀ ∧ l.Nodup ∧ t ∈ l ∧
      List.IsChain (Step xn) (l ++ [t]) ∧ ∀ x ∈ l.tail ++ [t], x ∈ scc)
    (fun st => Fintype.card σ + 1 - st.1.length)
    ?_ ?_ fuel ([s₀], ∅) ⟨[], s₀, rfl, rfl, rfl, by simp, by simp, by simp⟩ (by simp; omega)
  · obtain ⟨b, h1, h2⟩ := key
    obtain ⟨l, t, rfl, h⟩ := h2
    exact ⟨l, t, h1, h⟩
  · rintro ⟨st, vis⟩ b ⟨l, s, rfl, rfl, hhd, hnd, hch, hin⟩ hb
    simp only at hhd hnd hch hin
    unfold oneCycleBody at hb
    simp only [List.getLast?_append, List.getLast?_singleton, Option.some_or] at hb
    have hs : ∃ t ∈ scc, (s, t) ∈ xn := by
      cases l with
      | nil => simp only [List.nil_append, List.head?_cons, Option.some.injEq] at hhd; subst hhd; exact h₀
      | cons a l => exact hsucc s (hin s (by simp))
    have hne : scc ∩ img xn {s} ≠ ∅ := by
      obtain ⟨t, ht, he⟩ := hs
      intro h
      have : t ∈ scc ∩ img xn {s} := Finset.mem_inter.2 ⟨ht, mem_img_singleton.2 he⟩
      rw [h] at this; simp at this
    rw [if_neg hne] at hb
    split at hb
    · rename_i hov
      obtain ⟨t, ht, hpk⟩ := hp _ hov
      rw [hpk] at hb
      simp only [Option.map_some, Sum.inl.injEq] at hb
      subst hb
      simp only [Finset.mem_inter, Finset.mem_insert, List.mem_toFinset, mem_img_singleton] at ht
      obtain ⟨⟨ht1, ht2⟩, ht3⟩ := ht
      refine ⟨l ++ [s], t, rfl, hhd, hnd, by rw [List.mem_append, List.mem_singleton]; tauto, ?_, ?_⟩
      · rw [List.isChain_append]
        refine ⟨hch, by simp, ?_⟩
        simpa [Step] using ht2
      · intro x hx
        rw [List.mem_append, List.mem_singleton] at hx
        rcases hx with hx | rfl
        · exact hin x hx
        · exact ht1
    · obtain ⟨t, ht, hpk⟩ := hp _ (Finset.nonempty_iff_ne_empty.2 hne)
      rw [hpk] at hb
      cases hb
  · rintro ⟨st, vis⟩ st' ⟨l, s, rfl, rfl, hhd, hnd, hch, hin⟩ hb
    simp only at hhd hnd hch hin
    unfold oneCycleBody at hb
    simp only [List.getLast?_append, List.getLast?_singleton, Option.some_or] at hb
    split at hb
    · cases hb
    rename_i hne
    split at hb
    · cases hb
    rename_i hov
    obtain ⟨t, ht, hpk⟩ := hp _ (Finset.nonempty_iff_ne_empty.2 hne)
    rw [hpk] at hb
    simp only [Sum.inr.injEq] at hb
    subst hb
    have ht' := ht
    simp only [Finset.mem_inter, mem_img_singleton] at ht'
    have hnew : t ∉ l ++ [s] := by
      intro hm
      apply hov
      refine ⟨t, Finset.mem_inter.2 ⟨ht, ?_⟩⟩
      rw [List.mem_append, List.mem_singleton] at hm
      rw [Finset.mem_insert, List.mem_toFinset]
      tauto
    have hlen : (l ++ [s]).length ≤ Fintype.card σ := hnd.length_le_card
    have hnd' : (l ++ [s] ++ [t]).Nodup := by
      rw [List.nodup_append]
      refine ⟨hnd, by simp, ?_⟩
      intro a ha b hb
      rw [List.mem_singleton] at hb
      subst hb
      rintro rfl
      exact hnew ha
    refine ⟨⟨l ++ [s], t, rfl, ?_, ?_, hnd', ?_, ?_⟩, ?_⟩
    · ext x; simp [or_comm]
    · rw [List.head?_append, hhd]; rfl
    · rw [List.isChain_append]
      refine ⟨hch, by simp, ?_⟩
      simpa [Step] using ht'.2
    · intro x hx
      rw [List.tail_append_of_ne_nil (by simp), List.mem_append, List.mem_singleton] at hx
      rcases hx with hx | rfl
      · exact hin x hx
      · exact ht'.1
    · simp only [List.length_append, List.length_singleton] at hlen ⊢
      omega

/-- The returned list. -/
theorem findOneCycle_spec {pick : Finset σ → Option σ} (hp : ∀ S : Finset σ, S.Nonempty → ∃ s ∈ S, pick S = some s)
    {xn : Finset (σ × σ)} {scc initial : Finset σ} (hsucc : ∀ s ∈ scc, ∃ t ∈ scc, (s, t) ∈ xn)
    (hne : initial.Nonempty) (hini : ∀ s ∈ initial, ∃ t ∈ scc, (s, t) ∈ xn) (fuel : ℕ)
    (hf : Fintype.card σ < fuel) :
    ∃ c t, findOneCycle fuel pick xn scc initial = some (t :: (c ++ [t])) ∧
      List.IsChain (Step xn) (t :: (c ++ [t])) ∧ (t :: c).Nodup ∧ ∀ x ∈ t :: c, x ∈ scc := by
  obtain ⟨s₀, hs₀, hpk⟩ := hp _ hne
  obtain ⟨l, t, h1, h2, h3, h4, h5, h6⟩ := oneCycle_loop hp hsucc (hini s₀ hs₀) fuel hf
  obtain ⟨a, c, rfl⟩ := List.append_of_mem h4
  have ha : t ∉ a := by
    rw [List.nodup_append] at h3
    intro h
    exact h3.2.2 t h t (by simp) rfl
  have hidx : (a ++ t :: c ++ [t]).findIdx (fun x => decide (some x = (a ++ t :: c ++ [t]).getLast?)) =
      a.length := by
    rw [List.findIdx_eq (by simp)]
    simp only [List.getLast?_append, List.getLast?_singleton, Option.some_or, Option.some.injEq,
      decide_eq_true_eq, decide_eq_false_iff_not]
    constructor
    · simp
    · intro j hj
      rw [List.getElem_append_left (by simp; omega), List.getElem_append_left hj]
      rintro rfl
      exact ha (List.getElem_mem _)
  refine ⟨c, t, ?_, ?_, ?_, ?_⟩
  · unfold findOneCycle
    rw [hpk]
    simp only [h1]
    rw [hidx, List.append_assoc, List.drop_left]
    rfl
  · have := h5.drop a.length
    rwa [List.append_assoc, List.drop_left] at this
  · rw [List.nodup_append] at h3
    exact h3.2.1
  · intro x hx
    have ht : t ∈ scc := h6 t (by simp)
    rcases List.mem_cons.1 hx with rfl | hx
    · exact ht
    · apply h6
      rw [List.mem_append]; left
      cases a with
      | nil => simpa using hx
      | cons b a => simp [hx]

theorem zip_tail_mem_of_chain {R : σ → σ → Prop} {l : List σ} (h : List.IsChain R l) :
    ∀ e ∈ l.zip l.tail, R e.1 e.2 := by
  induction l with
  | nil => simp
  | cons a l ih =>
    cases l with
    | nil => simp
    | cons b l =>
      rw [List.isChain_cons_cons] at h
      intro e he
      simp only [List.tail_cons, List.zip_cons_cons, List.mem_cons] at he
      rcases he with rfl | he
      · exact h.1
      · exact ih h.2 e he

theorem chain_of_zip_tail {R : σ → σ → Prop} {l : List σ} (h : ∀ e ∈ l.zip l.tail, R e.1 e.2) :
    List.IsChain R l := by
  induction l with
  | nil => simp
  | cons a l ih =>
    cases l with
    | nil => simp
    | cons b l =>
      rw [List.isChain_cons_cons]
      refine ⟨h (a, b) (by simp), ih fun e he => h e ?_⟩
      simp only [List.tail_cons, List.zip_cons_cons, List.mem_cons]
      right; exact he

/-- All states of a closed chain are on a cycle. -/
theorem onCycle_of_chain {xn : Finset (σ × σ)} {t : σ} {c : List σ}
    (h : List.IsChain (Step xn) (t :: (c ++ [t]))) {x : σ} (hx : x ∈ t :: c) : OnCycle xn x := by
  have key : ∀ (l : List σ) (a : σ), List.IsChain (Step xn) (a :: l) → ∀ y ∈ a :: l, Reach xn a y := by
    intro l
    induction l with
    | nil => intro a _ y hy; rw [List.mem_singleton] at hy; subst hy; exact .refl
    | cons b l ih =>
      intro a h y hy
      rw [List.isChain_cons_cons] at h
      rcases List.mem_cons.1 hy with rfl | hy
      · exact .refl
      · exact Relation.ReflTransGen.head h.1 (ih b h.2 y hy)
  rw [← List.cons_append] at h
  obtain ⟨p, q, e⟩ := List.append_of_mem hx
  rw [e] at h
  have hpre : Reach xn t x := by
    have h1 : List.IsChain (Step xn) (t :: c) := by
      rw [e]; exact (List.isChain_append.1 h).1
    exact key c t h1 x hx
  have hsuf : List.IsChain (Step xn) (x :: (q ++ [t])) := by
    have := h.drop p.length
    rwa [List.append_assoc, List.drop_left] at this
  cases hq : q ++ [t] with
  | nil => simp at hq
  | cons y r =>
    rw [hq, List.isChain_cons_cons] at hsuf
    have hyt : Reach xn y t := key r y hsuf.2 t (by rw [← hq]; simp)
    exact Relation.TransGen.head' hsuf.1 (hyt.trans hpre)

end Verif.Proofs
