import Verif.Model.Rank
import Verif.Proofs.Conflict

/-! Lemmas for properties C43 and C62: ranking of deadlocks. -/

set_option linter.unusedSectionVars false

namespace Verif.Proofs
open Verif.Model

variable {σ : Type} [DecidableEq σ]

theorem rankShift_spec (p : Finset σ) : ∀ (n : ℕ) (ds : DlSets σ), n ≤ ds.sz →
    (∀ k, ds.sz ≤ k → ds.dl k = ∅) →
    (∀ k s, s ∈ (rankShift p n ds).dl k ↔ (s ∈ ds.dl k ∧ (s ∉ p ∨ n ≤ k)) ∨
      (0 < k ∧ k ≤ n ∧ s ∈ ds.dl (k - 1) ∧ s ∈ p)) ∧
    (rankShift p n ds).sz =
      (if n = ds.sz ∧ 0 < n ∧ (ds.dl (n - 1) ∩ p).Nonempty then ds.sz + 1 else ds.sz) ∧
    ((∀ k, ds.cands k = ∅) → ∀ k, (rankShift p n ds).cands k = ∅) := by
  intro n
  induction n with
  | zero =>
    intro ds _ _
    refine ⟨fun k s => ?_, ?_, fun h => h⟩
    · simp only [rankShift]
      constructor
      · intro h; exact .inl ⟨h, .inr (Nat.zero_le _)⟩
      · rintro (⟨h, -⟩ | ⟨h1, h2, -⟩)
        · exact h
        · omega
    · simp [rankShift]
  | succ n ih =>
    intro ds hn he
    simp only [rankShift]
    by_cases hr : (ds.dl n ∩ p).Nonempty
    · rw [if_pos hr]
      -- the table after a possible push
      obtain ⟨ds1, hds1⟩ : ∃ ds1 : DlSets σ, ds1 = (if n = ds.sz - 1 then
          { ds with
            sz := ds.sz + 1
            dl := Function.update ds.dl ds.sz ∅
            cands := Function.update ds.cands ds.sz ∅ } else ds) := ⟨_, rfl⟩
      rw [← hds1]
      have hdl1 : ∀ k, ds1.dl k = ds.dl k := by
        intro k
        rw [hds1]
        split
        · show Function.update ds.dl ds.sz ∅ k = ds.dl k
          by_cases hk : k = ds.sz
          · subst hk; rw [Function.update_self, he _ (le_refl _)]
          · rw [Function.update_of_ne hk]
        · rfl
      have hsz1 : ds1.sz = if n = ds.sz - 1 then ds.sz + 1 else ds.sz := by
        rw [hds1]; split <;> rfl
      have hsz2 : n + 1 < ds1.sz ∧ ds.sz ≤ ds1.sz := by
        rw [hsz1]; split <;> omega
      have hca1 : (∀ k, ds.cands k = ∅) → ∀ k, ds1.cands k = ∅ := by
        intro h k
        rw [hds1]
        split
        · show Function.update ds.cands ds.sz ∅ k = ∅
          by_cases hk : k = ds.sz
          · subst hk; rw [Function.update_self]
          · rw [Function.update_of_ne hk]; exact h k
        · exact h k
      obtain ⟨h1, h2, h3⟩ := ih
        ⟨ds1.sz, Function.update (Function.update ds1.dl n (ds1.dl n \ (ds.dl n ∩ p))) (n + 1)
            (Function.update ds1.dl n (ds1.dl n \ (ds.dl n ∩ p)) (n + 1) ∪ (ds.dl n ∩ p)), ds1.cands⟩
        (by show n ≤ ds1.sz; omega) (by
          intro k hk
          simp only at hk ⊢
          rw [Function.update_of_ne (by omega), Function.update_of_ne (by omega), hdl1]
          exact he k (by omega))
      refine ⟨fun k s => ?_, ?_, fun h => h3 (hca1 h)⟩
      · rw [h1]
        simp only
        have e0 : ∀ j, j ≠ n → j ≠ n + 1 → Function.update (Function.update ds1.dl n (ds1.dl n \ (ds.dl n ∩ p))) (n + 1)
            (Function.update ds1.dl n (ds1.dl n \ (ds.dl n ∩ p)) (n + 1) ∪ (ds.dl n ∩ p)) j = ds.dl j := by
          intro j h1 h2
          rw [Function.update_of_ne h2, Function.update_of_ne h1, hdl1]
        have e1 : Function.update (Function.update ds1.dl n (ds1.dl n \ (ds.dl n ∩ p))) (n + 1)
            (Function.update ds1.dl n (ds1.dl n \ (ds.dl n ∩ p)) (n + 1) ∪ (ds.dl n ∩ p)) n = ds.dl n \ p := by
          rw [Function.update_of_ne (by omega), Function.update_self, hdl1]
          ext x; simp
        have e2 : Function.update (Function.update ds1.dl n (ds1.dl n \ (ds.dl n ∩ p))) (n + 1)
            (Function.update ds1.dl n (ds1.dl n \ (ds.dl n ∩ p)) (n + 1) ∪ (ds.dl n ∩ p)) (n + 1) =
            ds.dl (n + 1) ∪ (ds.dl n ∩ p) := by
          rw [Function.update_self, Function.update_of_ne (by omega), hdl1]
        rcases lt_trichotomy k n with hk | hk | hk
        · rw [e0 k (by omega) (by omega)]
          by_cases hk0 : 0 < k
          · rw [e0 (k - 1) (by omega) (by omega)]
            constructor <;> rintro (⟨a, b⟩ | ⟨a, b, c⟩)
            · rcases b with b | b
              · exact .inl ⟨a, .inl b⟩
              · omega
            · exact .inr ⟨a, by omega, c⟩
            · rcases b with b | b
              · exact .inl ⟨a, .inl b⟩
              · omega
            · exact .inr ⟨a, by omega, c⟩
          · constructor <;> rintro (⟨a, b⟩ | ⟨a, -⟩)
            · rcases b with b | b
              · exact .inl ⟨a, .inl b⟩
              · omega
            · omega
            · rcases b with b | b
              · exact .inl ⟨a, .inl b⟩
              · omega
            · omega
        · subst hk
          rw [e1, Finset.mem_sdiff]
          by_cases hk0 : 0 < k
          · rw [e0 (k - 1) (by omega) (by omega)]
            constructor
            · rintro (⟨⟨a, b⟩, -⟩ | ⟨a, b, c⟩)
              · exact .inl ⟨a, .inl b⟩
              · exact .inr ⟨a, by omega, c⟩
            · rintro (⟨a, b | b⟩ | ⟨a, b, c⟩)
              · exact .inl ⟨⟨a, b⟩, .inl b⟩
              · omega
              · exact .inr ⟨a, by omega, c⟩
          · constructor
            · rintro (⟨⟨a, b⟩, -⟩ | ⟨a, -⟩)
              · exact .inl ⟨a, .inl b⟩
              · omega
            · rintro (⟨a, b | b⟩ | ⟨a, -⟩)
              · exact .inl ⟨⟨a, b⟩, .inl b⟩
              · omega
              · omega
        · by_cases hk1 : k = n + 1
          · subst hk1
            rw [e2]
            simp only [Finset.mem_union, Finset.mem_inter, Nat.add_sub_cancel, e1, Finset.mem_sdiff]
            constructor
            · rintro (⟨a | a, -⟩ | ⟨-, a, -⟩)
              · exact .inl ⟨a, .inr (le_refl _)⟩
              · exact .inr ⟨by omega, le_refl _, a⟩
              · omega
            · rintro (⟨a, -⟩ | ⟨-, -, a⟩)
              · exact .inl ⟨.inl a, .inr (by omega)⟩
              · exact .inl ⟨.inr a, .inr (by omega)⟩
          · rw [e0 k (by omega) hk1]
            constructor
            · rintro (⟨a, -⟩ | ⟨-, a, -⟩)
              · exact .inl ⟨a, .inr (by omega)⟩
              · omega
            · rintro (⟨a, -⟩ | ⟨-, a, -⟩)
              · exact .inl ⟨a, .inr (by omega)⟩
              · omega
      · rw [h2]
        simp only
        rw [if_neg (by rintro ⟨a, -⟩; omega), hsz1]
        simp only [Nat.add_sub_cancel]
        by_cases h4 : n + 1 = ds.sz
        · rw [if_pos (by omega), if_pos ⟨h4, by omega, hr⟩]
        · rw [if_neg (by omega), if_neg (by rintro ⟨a, -⟩; omega)]
    · rw [if_neg hr]
      obtain ⟨h1, h2, h3⟩ := ih ds (by omega) he
      have hr' : ∀ s, s ∈ ds.dl n → s ∉ p := by
        intro s h1 h2
        exact hr ⟨s, Finset.mem_inter.2 ⟨h1, h2⟩⟩
      refine ⟨fun k s => ?_, ?_, h3⟩
      · rw [h1]
        constructor
        · rintro (⟨a, b | b⟩ | ⟨a, b, c⟩)
          · exact .inl ⟨a, .inl b⟩
          · by_cases hk : k = n
            · subst hk; exact .inl ⟨a, .inl (hr' s a)⟩
            · exact .inl ⟨a, .inr (by omega)⟩
          · exact .inr ⟨a, by omega, c⟩
        · rintro (⟨a, b | b⟩ | ⟨a, b, c, d⟩)
          · exact .inl ⟨a, .inl b⟩
          · exact .inl ⟨a, .inr (by omega)⟩
          · by_cases hk : k = n + 1
            · subst hk; exact absurd d (hr' s c)
            · exact .inr ⟨a, by omega, c, d⟩
      · rw [h2, if_neg (by rintro ⟨a, -⟩; omega), Nat.add_sub_cancel, if_neg (by rintro ⟨-, -, a⟩; exact hr a)]

/-- How many of the actions of the list resolve the state. -/
def resolvers (pre : ℕ → Finset σ) (l : List ℕ) (s : σ) : ℕ := l.countP fun a => decide (s ∈ pre a)

/-- The buckets rank the states of `D` by the number of actions of `l` that resolve them. -/
structure RankedBy (pre : ℕ → Finset σ) (l : List ℕ) (D : Finset σ) (ds : DlSets σ) : Prop where
  dl : ∀ k s, s ∈ ds.dl k ↔ s ∈ D ∧ resolvers pre l s = k
  out : ∀ k, ds.sz ≤ k → ds.dl k = ∅
  top : 0 < ds.sz ∧ (ds.dl (ds.sz - 1)).Nonempty

theorem rankedBy_step {pre : ℕ → Finset σ} {l : List ℕ} {D : Finset σ} {ds : DlSets σ} (a : ℕ)
    (h : RankedBy pre l D ds) : RankedBy pre (l ++ [a]) D (rankShift (pre a) ds.sz ds) := by
  obtain ⟨h1, h2, -⟩ := rankShift_spec (pre a) ds.sz ds (le_refl _) h.out
  have hres : ∀ s, resolvers pre (l ++ [a]) s = resolvers pre l s + if s ∈ pre a then 1 else 0 := by
    intro s
    simp only [resolvers, List.countP_append, List.countP_cons, List.countP_nil]
    simp
  have hdl : ∀ k s, s ∈ (rankShift (pre a) ds.sz ds).dl k ↔ s ∈ D ∧ resolvers pre (l ++ [a]) s = k := by
    intro k s
    rw [h1, h.dl, h.dl, hres]
    constructor
    · rintro (⟨⟨a, b⟩, c | c⟩ | ⟨a, b, ⟨c, d⟩, e⟩)
      · exact ⟨a, by rw [if_neg c]; omega⟩
      · have := h.out k c
        have hm := (h.dl k s).2 ⟨a, b⟩
        rw [this] at hm; simp at hm
      · exact ⟨c, by rw [if_pos e]; omega⟩
    · rintro ⟨a, b⟩
      split at b
      · rename_i hp
        right
        refine ⟨by omega, ?_, ⟨a, by omega⟩, hp⟩
        by_contra hc
        have := h.out (k - 1) (by omega)
        have hm := (h.dl (k - 1) s).2 ⟨a, by omega⟩
        rw [this] at hm; simp at hm
      · rename_i hp
        exact .inl ⟨⟨a, by omega⟩, .inl hp⟩
  have htop := h.top
  refine ⟨hdl, ?_, ?_⟩
  · intro k hk
    apply Finset.eq_empty_of_forall_notMem
    intro s hs
    rw [h1] at hs
    rw [h2] at hk
    split at hk
    · rename_i hc
      rcases hs with ⟨a, -⟩ | ⟨-, a, -⟩
      · rw [h.out k (by omega)] at a; simp at a
      · omega
    · rename_i hc
      rcases hs with ⟨a, -⟩ | ⟨a, b, c, d⟩
      · rw [h.out k hk] at a; simp at a
      · have : k = ds.sz := by omega
        subst this
        exact hc ⟨rfl, a, ⟨s, Finset.mem_inter.2 ⟨c, d⟩⟩⟩
  · rw [h2]
    split
    · rename_i hc
      refine ⟨by omega, ?_⟩
      obtain ⟨-, -, s, hs⟩ := hc
      rw [Finset.mem_inter] at hs
      exact ⟨s, (h1 _ s).2 (.inr ⟨by omega, by omega, hs.1, hs.2⟩)⟩
    · rename_i hc
      refine ⟨htop.1, ?_⟩
      obtain ⟨s, hs⟩ := htop.2
      refine ⟨s, (h1 _ s).2 (.inl ⟨hs, .inl fun hp => hc ⟨rfl, htop.1, s, Finset.mem_inter.2 ⟨hs, hp⟩⟩⟩)⟩

theorem rankedBy_fold {pre : ℕ → Finset σ} {D : Finset σ} : ∀ (r l : List ℕ) (ds : DlSets σ),
    RankedBy pre l D ds → (∀ k, ds.cands k = ∅) →
    RankedBy pre (l ++ r) D (r.foldl (fun ds a => rankShift (pre a) ds.sz ds) ds) ∧
      ∀ k, (r.foldl (fun ds a => rankShift (pre a) ds.sz ds) ds).cands k = ∅ := by
  intro r
  induction r with
  | nil => intro l ds h hc; simpa using ⟨h, hc⟩
  | cons a r ih =>
    intro l ds h hc
    have := ih (l ++ [a]) (rankShift (pre a) ds.sz ds) (rankedBy_step a h)
      ((rankShift_spec (pre a) ds.sz ds (le_refl _) h.out).2.2 hc)
    simpa using this

theorem rankCands_spec (pre : ℕ → Finset σ) : ∀ (l : List ℕ) (ds : DlSets σ),
    (rankCands pre l ds).sz = ds.sz ∧ (rankCands pre l ds).dl = ds.dl ∧
    ∀ k a, a ∈ (rankCands pre l ds).cands k ↔
      a ∈ ds.cands k ∨ (k < ds.sz ∧ a ∈ l ∧ (pre a ∩ ds.dl k).Nonempty) := by
  intro l
  induction l with
  | nil => intro ds; simp [rankCands]
  | cons b l ih =>
    intro ds
    obtain ⟨h1, h2, h3⟩ := ih { ds with
      cands := fun i => if i < ds.sz ∧ (pre b ∩ ds.dl i).Nonempty then insert b (ds.cands i) else ds.cands i }
    refine ⟨h1, h2, fun k a => ?_⟩
    rw [rankCands, h3]
    simp only [List.mem_cons]
    by_cases hc : k < ds.sz ∧ (pre b ∩ ds.dl k).Nonempty
    · rw [if_pos hc, Finset.mem_insert]
      constructor
      · rintro ((rfl | h) | ⟨x, y, z⟩)
        · exact .inr ⟨hc.1, .inl rfl, hc.2⟩
        · exact .inl h
        · exact .inr ⟨x, .inr y, z⟩
      · rintro (h | ⟨x, rfl | y, z⟩)
        · exact .inl (.inr h)
        · exact .inl (.inl rfl)
        · exact .inr ⟨x, y, z⟩
    · rw [if_neg hc]
      constructor
      · rintro (h | ⟨x, y, z⟩)
        · exact .inl h
        · exact .inr ⟨x, .inr y, z⟩
      · rintro (h | ⟨x, rfl | y, z⟩)
        · exact .inl h
        · exact absurd ⟨x, z⟩ hc
        · exact .inr ⟨x, y, z⟩

/-! ### Revision -/

theorem moveDown_spec (p : Finset σ) : ∀ (len j0 minidx : ℕ) (dl : ℕ → Finset σ), 0 < j0 →
    (moveDown p (List.range' j0 len) (minidx, dl)).1 =
      (if j0 ≤ minidx ∧ minidx < j0 + len ∧ (p ∩ dl minidx).Nonempty then minidx - 1 else minidx) ∧
    ∀ k s, s ∈ (moveDown p (List.range' j0 len) (minidx, dl)).2 k ↔
      (s ∈ dl k ∧ ¬ (s ∈ p ∧ j0 ≤ k ∧ k < j0 + len)) ∨
        (j0 ≤ k + 1 ∧ k + 1 < j0 + len ∧ s ∈ dl (k + 1) ∧ s ∈ p) := by
  intro len
  induction len with
  | zero =>
    intro j0 minidx dl _
    refine ⟨?_, fun k s => ?_⟩
    · rw [if_neg (by omega)]; rfl
    · simp only [List.range'_zero, moveDown]
      constructor
      · intro h; exact .inl ⟨h, by omega⟩
      · rintro (⟨h, -⟩ | ⟨a, b, -⟩)
        · exact h
        · omega
  | succ len ih =>
    intro j0 minidx dl hj
    simp only [List.range'_succ, moveDown]
    by_cases hd : (p ∩ dl j0).Nonempty
    · rw [if_pos hd]
      obtain ⟨dl1, hdl1⟩ : ∃ dl1, dl1 = Function.update (Function.update dl (j0 - 1) (dl (j0 - 1) ∪ p ∩ dl j0)) j0
        (Function.update dl (j0 - 1) (dl (j0 - 1) ∪ p ∩ dl j0) j0 \ (p ∩ dl j0)) := ⟨_, rfl⟩
      rw [← hdl1]
      have e0 : ∀ k, k ≠ j0 → k ≠ j0 - 1 → dl1 k = dl k := by
        intro k h1 h2
        rw [hdl1, Function.update_of_ne h1, Function.update_of_ne h2]
      have e1 : dl1 j0 = dl j0 \ p := by
        rw [hdl1, Function.update_self, Function.update_of_ne (by omega)]
        ext x; simp
      have e2 : dl1 (j0 - 1) = dl (j0 - 1) ∪ p ∩ dl j0 := by
        rw [hdl1, Function.update_of_ne (by omega), Function.update_self]
      obtain ⟨h1, h2⟩ := ih (j0 + 1) (if j0 = minidx then minidx - 1 else minidx) dl1 (by omega)
      refine ⟨?_, fun k s => ?_⟩
      · rw [h1]
        by_cases hm : j0 = minidx
        · subst hm
          rw [if_pos rfl, if_neg (by omega), if_pos ⟨le_refl _, by omega, hd⟩]
        · rw [if_neg hm]
          by_cases hlt : j0 < minidx
          · rw [e0 minidx (by omega) (by omega)]
            congr 1
            simp only [eq_iff_iff]
            constructor
            · rintro ⟨a, b, c⟩; exact ⟨by omega, by omega, c⟩
            · rintro ⟨a, b, c⟩; exact ⟨by omega, by omega, c⟩
          · rw [if_neg (by omega), if_neg (by omega)]
      · rw [h2]
        by_cases hk0 : k = j0
        · subst hk0
          rw [e1, e0 (k + 1) (by omega) (by omega), Finset.mem_sdiff]
          constructor
          · rintro (⟨⟨a, b⟩, -⟩ | ⟨a, b, c⟩)
            · exact .inl ⟨a, fun h => b h.1⟩
            · exact .inr ⟨by omega, by omega, c⟩
          · rintro (⟨a, b⟩ | ⟨a, b, c⟩)
            · exact .inl ⟨⟨a, fun h => b ⟨h, by omega, by omega⟩⟩, by omega⟩
            · exact .inr ⟨by omega, by omega, c⟩
        · by_cases hk1 : k = j0 - 1
          · have hk2 : k + 1 = j0 := by omega
            rw [hk2, hk1, e2]
            simp only [Finset.mem_union, Finset.mem_inter]
            constructor
            · rintro (⟨a | ⟨b, c⟩, -⟩ | ⟨a, -⟩)
              · exact .inl ⟨a, by omega⟩
              · exact .inr ⟨le_refl _, by omega, c, b⟩
              · omega
            · rintro (⟨a, -⟩ | ⟨-, -, a, b⟩)
              · exact .inl ⟨.inl a, by omega⟩
              · exact .inl ⟨.inr ⟨b, a⟩, by omega⟩
          · rw [e0 k hk0 hk1]
            by_cases hk2 : k + 1 = j0 - 1 ∨ k + 1 = j0
            · constructor
              · rintro (⟨a, -⟩ | ⟨a, -⟩)
                · exact .inl ⟨a, by omega⟩
                · omega
              · rintro (⟨a, -⟩ | ⟨a, -⟩)
                · exact .inl ⟨a, by omega⟩
                · omega
            · rw [e0 (k + 1) (by omega) (by omega)]
              constructor
              · rintro (⟨a, b⟩ | ⟨a, b, c⟩)
                · exact .inl ⟨a, fun h => b ⟨h.1, by omega, by omega⟩⟩
                · exact .inr ⟨by omega, by omega, c⟩
              · rintro (⟨a, b⟩ | ⟨a, b, c⟩)
                · exact .inl ⟨a, fun h => b ⟨h.1, by omega, by omega⟩⟩
                · exact .inr ⟨by omega, by omega, c⟩
    · rw [if_neg hd]
      have hd' : ∀ s, s ∈ dl j0 → s ∉ p := fun s h1 h2 => hd ⟨s, Finset.mem_inter.2 ⟨h2, h1⟩⟩
      obtain ⟨h1, h2⟩ := ih (j0 + 1) minidx dl (by omega)
      refine ⟨?_, fun k s => ?_⟩
      · rw [h1]
        congr 1
        simp only [eq_iff_iff]
        constructor
        · rintro ⟨a, b, c⟩; exact ⟨by omega, by omega, c⟩
        · rintro ⟨a, b, c⟩
          refine ⟨?_, by omega, c⟩
          by_contra hc
          have : minidx = j0 := by omega
          subst this
          exact hd c
      · rw [h2]
        constructor
        · rintro (⟨a, b⟩ | ⟨a, b, c⟩)
          · refine .inl ⟨a, fun h => ?_⟩
            by_cases hk : k = j0
            · subst hk; exact hd' s a h.1
            · exact b ⟨h.1, by omega, by omega⟩
          · exact .inr ⟨by omega, by omega, c⟩
        · rintro (⟨a, b⟩ | ⟨a, b, c, d⟩)
          · exact .inl ⟨a, fun h => b ⟨h.1, by omega, by omega⟩⟩
          · refine .inr ⟨?_, by omega, c, d⟩
            by_contra hc
            have : k + 1 = j0 := by omega
            rw [this] at c
            exact hd' s c d

/-- Partition of `B` by `i` minus the number of resolvers in `l`, with everything below `minidx`
empty. -/
def Sunk (pre : ℕ → Finset σ) (i : ℕ) (B : Finset σ) (l : List ℕ) (minidx : ℕ) (dl : ℕ → Finset σ) : Prop :=
  (∀ k s, s ∈ dl k ↔ s ∈ B ∧ resolvers pre l s + k = i) ∧ (∀ k, k < minidx → dl k = ∅) ∧ minidx ≤ i

theorem resolvers_snoc (pre : ℕ → Finset σ) (l : List ℕ) (a : ℕ) (s : σ) :
    resolvers pre (l ++ [a]) s = resolvers pre l s + if s ∈ pre a then 1 else 0 := by
  simp only [resolvers, List.countP_append, List.countP_cons, List.countP_nil]
  simp

theorem reviseDelLoop_spec (pre : ℕ → Finset σ) (i : ℕ) (B : Finset σ) : ∀ (r l : List ℕ) (minidx : ℕ)
    (dl : ℕ → Finset σ) (m' : ℕ) (dl' : ℕ → Finset σ), Sunk pre i B l minidx dl →
    reviseDelLoop pre i r (minidx, dl) = some (m', dl') → Sunk pre i B (l ++ r) m' dl' := by
  intro r
  induction r with
  | nil =>
    intro l minidx dl m' dl' h hr
    simp only [reviseDelLoop, Option.some.injEq, Prod.mk.injEq] at hr
    obtain ⟨rfl, rfl⟩ := hr
    simpa using h
  | cons a r ih =>
    intro l minidx dl m' dl' h hr
    unfold reviseDelLoop at hr
    split at hr
    · rename_i hm
      obtain ⟨h1, h2, h3⟩ := h
      have hdrop : (List.range (i + 1)).drop minidx = List.range' minidx (i + 1 - minidx) := by
        rw [List.range_eq_range', List.drop_range']
        simp
      rw [hdrop] at hr
      obtain ⟨f1, f2⟩ := moveDown_spec (pre a) (i + 1 - minidx) minidx minidx dl hm
      have hs : Sunk pre i B (l ++ [a]) (moveDown (pre a) (List.range' minidx (i + 1 - minidx)) (minidx, dl)).1
          (moveDown (pre a) (List.range' minidx (i + 1 - minidx)) (minidx, dl)).2 := by
        have hk1 : ∀ k s, s ∈ dl k → minidx ≤ k := by
          intro k s hs
          by_contra hc
          rw [h2 k (by omega)] at hs
          simp at hs
        refine ⟨fun k s => ?_, fun k hk => ?_, ?_⟩
        · rw [f2, resolvers_snoc, h1, h1]
          constructor
          · rintro (⟨⟨b, c⟩, d⟩ | ⟨b, c, ⟨d, e⟩, g⟩)
            · have := hk1 k s ((h1 k s).2 ⟨b, c⟩)
              refine ⟨b, ?_⟩
              rw [if_neg (fun hc => d ⟨hc, by omega, by omega⟩)]; omega
            · refine ⟨d, ?_⟩
              rw [if_pos g]; omega
          · rintro ⟨b, c⟩
            split at c
            · rename_i hp
              have := hk1 (k + 1) s ((h1 _ s).2 ⟨b, by omega⟩)
              exact .inr ⟨by omega, by omega, ⟨b, by omega⟩, hp⟩
            · rename_i hp
              exact .inl ⟨⟨b, by omega⟩, fun hc => hp hc.1⟩
        · apply Finset.eq_empty_of_forall_notMem
          intro s hs
          rw [f2] at hs
          rw [f1] at hk
          rcases hs with ⟨b, -⟩ | ⟨b, c, d, e⟩
          · have := hk1 k s b
            split at hk <;> omega
          · have := hk1 _ s d
            split at hk
            · omega
            · rename_i hc
              have hkm : k + 1 = minidx := by omega
              rw [hkm] at d
              exact hc ⟨le_refl _, by omega, s, Finset.mem_inter.2 ⟨e, d⟩⟩
        · rw [f1]
          split <;> omega
      generalize moveDown (pre a) (List.range' minidx (i + 1 - minidx)) (minidx, dl) = q at hr hs
      obtain ⟨q1, q2⟩ := q
      have := ih (l ++ [a]) q1 q2 m' dl' hs hr
      simpa using this
    · simp at hr

/-- The number of actions of a set that resolve the state. -/
def nres (pre : ℕ → Finset σ) (C : Finset ℕ) (s : σ) : ℕ := (C.filter fun a => s ∈ pre a).card

theorem resolvers_arr (pre : ℕ → Finset σ) (C : Finset ℕ) (s : σ) :
    resolvers pre (arr C) s = nres pre C s := by
  unfold resolvers nres
  rw [List.countP_eq_length_filter, ← List.toFinset_card_of_nodup ((arr_nodup C).filter _)]
  congr 1
  ext a
  simp [mem_arr]

theorem nres_pos {pre : ℕ → Finset σ} {C : Finset ℕ} {s : σ} :
    0 < nres pre C s ↔ ∃ a ∈ C, s ∈ pre a := by
  simp [nres, Finset.card_pos, Finset.Nonempty]

/-- The state of the revision before rank `i`. -/
structure MidRank (pre : ℕ → Finset σ) (C adds dels : Finset ℕ) (D : Finset σ) (i : ℕ) (ds : DlSets σ) :
    Prop where
  dl : ∀ k, k < ds.sz → ∀ s, s ∈ ds.dl k ↔ (k < i ∧ s ∈ D \ adds.biUnion pre ∧ nres pre C s < i ∧
    nres pre ((C \ adds) \ dels) s = k) ∨ (i ≤ k ∧ s ∈ D ∧ nres pre C s = k)
  cands : ∀ k, k < ds.sz → ∀ a, a ∈ ds.cands k ↔ (k < i ∧ a ∈ (C \ adds) \ dels ∧ (pre a ∩ ds.dl k).Nonempty) ∨
    (i ≤ k ∧ a ∈ C ∧ (pre a ∩ ds.dl k).Nonempty)

theorem nres_split {pre : ℕ → Finset σ} {C adds dels : Finset ℕ} (hd : dels ⊆ C)
    (hdis : Disjoint adds dels) {s : σ} (hs : s ∉ adds.biUnion pre) :
    nres pre C s = nres pre ((C \ adds) \ dels) s + nres pre dels s := by
  unfold nres
  rw [← Finset.card_union_of_disjoint]
  · congr 1
    ext a
    simp only [Finset.mem_filter, Finset.mem_union, Finset.mem_sdiff]
    constructor
    · rintro ⟨h1, h2⟩
      by_cases h3 : a ∈ dels
      · exact .inr ⟨h3, h2⟩
      · exact .inl ⟨⟨⟨h1, fun h => hs (Finset.mem_biUnion.2 ⟨a, h, h2⟩)⟩, h3⟩, h2⟩
    · rintro (⟨⟨⟨h1, -⟩, -⟩, h2⟩ | ⟨h1, h2⟩)
      · exact ⟨h1, h2⟩
      · exact ⟨hd h1, h2⟩
  · rw [Finset.disjoint_left]
    intro a h1 h2
    simp only [Finset.mem_filter, Finset.mem_sdiff] at h1 h2
    exact h1.1.2 h2.1

theorem reviseRank_spec {pre : ℕ → Finset σ} {C adds dels : Finset ℕ} {D : Finset σ}
    (hadd : adds ⊆ C) (hd : dels ⊆ C) (hdis : Disjoint adds dels) {i : ℕ} (hi : 0 < i)
    {ds ds' : DlSets σ} (hisz : i < ds.sz) (h : MidRank pre C adds dels D i ds)
    (hr : reviseRank pre adds dels (adds.biUnion pre) (dels.biUnion pre) i ds = some ds') :
    ds'.sz = ds.sz ∧ MidRank pre C adds dels D (i + 1) ds' := by
  -- the bucket with the guards of the added actions removed
  obtain ⟨B1, hB1⟩ : ∃ B1, B1 = ds.dl i \ adds.biUnion pre := ⟨_, rfl⟩
  have hdi : ∀ s, s ∈ ds.dl i ↔ s ∈ D ∧ nres pre C s = i := by
    intro s
    rw [h.dl i hisz]
    constructor
    · rintro (⟨a, -⟩ | ⟨-, a⟩)
      · omega
      · exact a
    · intro a; exact .inr ⟨le_refl _, a⟩
  have hci : ∀ a, a ∈ ds.cands i ↔ a ∈ C ∧ (pre a ∩ ds.dl i).Nonempty := by
    intro a
    rw [h.cands i hisz]
    constructor
    · rintro (⟨a, -⟩ | ⟨-, a⟩)
      · omega
      · exact a
    · intro a; exact .inr ⟨le_refl _, a⟩
  have hmB : ∀ s, s ∈ B1 ↔ s ∈ D \ adds.biUnion pre ∧ nres pre C s = i := by
    intro s
    rw [hB1, Finset.mem_sdiff, Finset.mem_sdiff, hdi]
    tauto
  -- the first part
  obtain ⟨ds1, hds1⟩ : ∃ ds1 : DlSets σ, ds1 = (if (ds.cands i ∩ (ds.cands i ∩ adds)).Nonempty then
      { ds with
        dl := Function.update ds.dl i (ds.dl i \ adds.biUnion pre)
        cands := Function.update ds.cands i
          ((ds.cands i \ (ds.cands i ∩ (ds.cands i ∩ adds))).filter fun a =>
            ((ds.dl i \ adds.biUnion pre) ∩ pre a).Nonempty) }
    else ds) := ⟨_, rfl⟩
  have hadd1 : ¬ (ds.cands i ∩ (ds.cands i ∩ adds)).Nonempty → B1 = ds.dl i := by
    intro hne
    rw [hB1, Finset.sdiff_eq_self_iff_disjoint, Finset.disjoint_left]
    intro s hs hc
    obtain ⟨a, ha, hsa⟩ := Finset.mem_biUnion.1 hc
    have : a ∈ ds.cands i := (hci a).2 ⟨hadd ha, s, Finset.mem_inter.2 ⟨hsa, hs⟩⟩
    exact hne ⟨a, by simp [this, ha]⟩
  have h1sz : ds1.sz = ds.sz := by rw [hds1]; split <;> rfl
  have h1dl : ∀ k, ds1.dl k = if k = i then B1 else ds.dl k := by
    intro k
    rw [hds1]
    split
    · show Function.update ds.dl i (ds.dl i \ adds.biUnion pre) k = _
      by_cases hk : k = i
      · subst hk; rw [Function.update_self, if_pos rfl, hB1]
      · rw [Function.update_of_ne hk, if_neg hk]
    · rename_i hne
      by_cases hk : k = i
      · subst hk; rw [if_pos rfl, hadd1 hne]
      · rw [if_neg hk]
  have h1ca : ∀ k, k ≠ i → ds1.cands k = ds.cands k := by
    intro k hk
    rw [hds1]
    split
    · show Function.update ds.cands i _ k = _
      rw [Function.update_of_ne hk]
    · rfl
  have h1ci : ∀ a, a ∈ ds1.cands i ↔ a ∈ C \ adds ∧ (pre a ∩ B1).Nonempty := by
    intro a
    rw [hds1]
    split
    · show a ∈ Function.update ds.cands i _ i ↔ _
      rw [Function.update_self, Finset.mem_filter, ← hB1, Finset.inter_comm B1]
      simp only [Finset.mem_sdiff, Finset.mem_inter, hci]
      constructor
      · rintro ⟨⟨⟨a1, a2⟩, a3⟩, a4⟩
        exact ⟨⟨a1, fun hc => a3 (by tauto)⟩, a4⟩
      · rintro ⟨⟨a1, a2⟩, a3⟩
        refine ⟨⟨⟨a1, ?_⟩, fun hc => a2 (by tauto)⟩, a3⟩
        obtain ⟨s, hs⟩ := a3
        rw [Finset.mem_inter, hB1, Finset.mem_sdiff] at hs
        exact ⟨s, Finset.mem_inter.2 ⟨hs.1, hs.2.1⟩⟩
    · rename_i hne
      rw [hci, hadd1 hne, Finset.mem_sdiff]
      constructor
      · rintro ⟨a1, a2⟩
        exact ⟨⟨a1, fun hc => hne ⟨a, by simp [hci, a1, a2, hc]⟩⟩, a2⟩
      · rintro ⟨⟨a1, -⟩, a2⟩
        exact ⟨a1, a2⟩
  -- the removed candidates
  have hdel : ∀ a, a ∈ ds1.cands i ∩ (ds.cands i ∩ dels) ↔ a ∈ dels ∧ (pre a ∩ B1).Nonempty := by
    intro a
    simp only [Finset.mem_inter, h1ci, hci, Finset.mem_sdiff]
    constructor
    · rintro ⟨⟨-, a1⟩, -, a2⟩
      exact ⟨a2, a1⟩
    · rintro ⟨a1, a2⟩
      refine ⟨⟨⟨hd a1, fun hc => Finset.disjoint_left.1 hdis hc a1⟩, a2⟩, ⟨hd a1, ?_⟩, a1⟩
      obtain ⟨s, hs⟩ := a2
      rw [Finset.mem_inter, hB1, Finset.mem_sdiff] at hs
      exact ⟨s, Finset.mem_inter.2 ⟨hs.1, hs.2.1⟩⟩
  have hnB : ∀ s ∈ B1, nres pre (ds1.cands i ∩ (ds.cands i ∩ dels)) s = nres pre dels s := by
    intro s hs
    unfold nres
    congr 1
    ext a
    simp only [Finset.mem_filter, hdel]
    constructor
    · rintro ⟨⟨a1, -⟩, a2⟩; exact ⟨a1, a2⟩
    · rintro ⟨a1, a2⟩; exact ⟨⟨a1, s, Finset.mem_inter.2 ⟨a2, hs⟩⟩, a2⟩
  have hnB2 : ∀ s ∈ B1, nres pre ((C \ adds) \ dels) s + nres pre dels s = i := by
    intro s hs
    have hs' := (hmB s).1 hs
    rw [← nres_split hd hdis (Finset.mem_sdiff.1 hs'.1).2, hs'.2]
  unfold reviseRank at hr
  simp only at hr
  rw [← hds1] at hr
  split at hr
  · rename_i hne
    split at hr
    · simp at hr
    · rename_i minidx sets hloop
      simp only [Option.some.injEq] at hr
      have hdli : ds1.dl i = B1 := by rw [h1dl, if_pos rfl]
      rw [hdli] at hloop hr
      have hsunk := reviseDelLoop_spec pre i (B1 ∩ dels.biUnion pre) _ [] i
        (fun j => if j = i then B1 ∩ dels.biUnion pre else ∅) minidx sets
        ⟨by
          intro k s
          by_cases hk : k = i
          · subst hk; simp [resolvers]
          · simp only [if_neg hk, Finset.notMem_empty, false_iff, resolvers, List.countP_nil, Nat.zero_add]
            exact fun hc => hk hc.2, by
          intro k hk
          simp only
          rw [if_neg (by omega)], le_refl _⟩ hloop
      obtain ⟨hs1, hs2, hs3⟩ := hsunk
      simp only [List.nil_append, resolvers_arr] at hs1
      -- the sunk sets in terms of the final count
      have hs1' : ∀ k, k ≠ i → ∀ s, s ∈ sets k ↔ s ∈ B1 ∧ nres pre ((C \ adds) \ dels) s = k := by
        intro k hk s
        rw [hs1, Finset.mem_inter]
        constructor
        · rintro ⟨⟨a1, -⟩, a2⟩
          rw [hnB s a1] at a2
          have := hnB2 s a1
          exact ⟨a1, by omega⟩
        · rintro ⟨a1, a2⟩
          have := hnB2 s a1
          rw [hnB s a1]
          refine ⟨⟨a1, ?_⟩, by omega⟩
          have : 0 < nres pre dels s := by omega
          obtain ⟨a, ha, hsa⟩ := nres_pos.1 this
          exact Finset.mem_biUnion.2 ⟨a, ha, hsa⟩
      have hrest : ∀ s, s ∈ B1 \ (B1 ∩ dels.biUnion pre) ↔ s ∈ B1 ∧ nres pre ((C \ adds) \ dels) s = i := by
        intro s
        simp only [Finset.mem_sdiff, Finset.mem_inter, not_and]
        constructor
        · rintro ⟨a1, a2⟩
          have := hnB2 s a1
          have h0 : ¬ 0 < nres pre dels s := by
            intro hc
            obtain ⟨a, ha, hsa⟩ := nres_pos.1 hc
            exact a2 a1 (Finset.mem_biUnion.2 ⟨a, ha, hsa⟩)
          exact ⟨a1, by omega⟩
        · rintro ⟨a1, a2⟩
          refine ⟨a1, fun _ hc => ?_⟩
          obtain ⟨a, ha, hsa⟩ := Finset.mem_biUnion.1 hc
          have := nres_pos.2 ⟨a, ha, hsa⟩
          have := hnB2 s a1
          omega
      subst hr
      have hdl' : ∀ k s, s ∈ (if k = i then B1 \ (B1 ∩ dels.biUnion pre)
          else if minidx ≤ k ∧ k < i then ds1.dl k ∪ (Function.update sets i (B1 \ (B1 ∩ dels.biUnion pre))) k
          else ds1.dl k) ↔ (k < i ∧ s ∈ ds.dl k) ∨ (k ≤ i ∧ s ∈ B1 ∧ nres pre ((C \ adds) \ dels) s = k) ∨
            (i < k ∧ s ∈ ds.dl k) := by
        intro k s
        by_cases hk : k = i
        · rw [if_pos hk, hrest]
          subst hk
          simp
        · rw [if_neg hk, Function.update_of_ne hk, h1dl, if_neg hk]
          split
          · rename_i hmk
            rw [Finset.mem_union, hs1' k hk]
            have : ¬ i < k := by omega
            have h2 : k ≤ i := by omega
            simp [hmk.2, this, h2]
          · rename_i hmk
            by_cases hki : k < i
            · have : s ∉ B1 ∨ ¬ nres pre ((C \ adds) \ dels) s = k := by
                by_contra hc
                push Not at hc
                have := (hs1' k hk s).2 hc
                rw [hs2 k (by omega)] at this
                simp at this
              have h2 : ¬ i < k := by omega
              simp only [hki, true_and, h2, false_and, or_false]
              constructor
              · exact .inl
              · rintro (a | ⟨-, a, b⟩)
                · exact a
                · rcases this with c | c
                  · exact absurd a c
                  · exact absurd b c
            · have h2 : ¬ k ≤ i := by omega
              have h3 : i < k := by omega
              simp [hki, h2, h3]
      refine ⟨h1sz, ⟨fun k hksz s => ?_, fun k hksz a => ?_⟩⟩
      · show s ∈ (if k = i then _ else _) ↔ _
        rw [hdl', hmB]
        rw [h.dl k (h1sz ▸ hksz)]
        constructor
        · rintro (⟨a, ⟨-, b⟩ | ⟨b, -⟩⟩ | ⟨a, ⟨b, c⟩, d⟩ | ⟨a, ⟨b, -⟩ | ⟨-, b⟩⟩)
          · exact .inl ⟨by omega, b.1, by omega, b.2.2⟩
          · omega
          · exact .inl ⟨by omega, b, by omega, d⟩
          · omega
          · exact .inr ⟨by omega, b⟩
        · rintro (⟨a, b, c, d⟩ | ⟨a, b⟩)
          · by_cases hc : nres pre C s = i
            · exact .inr (.inl ⟨by omega, ⟨b, hc⟩, d⟩)
            · have : nres pre ((C \ adds) \ dels) s ≤ nres pre C s := by
                rw [nres_split hd hdis (Finset.mem_sdiff.1 b).2]; omega
              exact .inl ⟨by omega, .inl ⟨by omega, b, by omega, d⟩⟩
          · exact .inr (.inr ⟨by omega, .inr ⟨by omega, b⟩⟩)
      · show a ∈ (if k = i then _ else _) ↔ (_ ∧ _ ∧ (pre a ∩ (if k = i then _ else _)).Nonempty) ∨
          (_ ∧ _ ∧ (pre a ∩ (if k = i then _ else _)).Nonempty)
        have hca1 : ∀ a, a ∈ ds1.cands i \ (ds1.cands i ∩ (ds.cands i ∩ dels)) ↔
            a ∈ (C \ adds) \ dels ∧ (pre a ∩ B1).Nonempty := by
          intro a
          rw [Finset.mem_sdiff, hdel, h1ci, Finset.mem_sdiff (t := dels)]
          tauto
        have hcs : ∀ a ∈ ds1.cands i \ (ds1.cands i ∩ (ds.cands i ∩ dels)), ∀ j, j < i → minidx ≤ j →
            (a ∈ diffCands pre i minidx (B1 ∩ dels.biUnion pre)
              (Function.update sets i (B1 \ (B1 ∩ dels.biUnion pre)))
              (ds1.cands i \ (ds1.cands i ∩ (ds.cands i ∩ dels))) j ↔ (pre a ∩ sets j).Nonempty) := by
          intro a ha j hj hmj
          unfold diffCands
          rw [Finset.mem_filter, Function.update_of_ne (by omega)]
          simp only [ha, true_and]
          split
          · rename_i hn
            constructor
            · intro hc; omega
            · rintro ⟨s, hs⟩
              rw [Finset.mem_inter, hs1] at hs
              exact absurd ⟨s, Finset.mem_inter.2 ⟨hs.1, hs.2.1⟩⟩ hn
          · constructor
            · rintro ⟨-, -, hc⟩; exact hc
            · intro hc; exact ⟨hmj, by omega, hc⟩
        by_cases hk : k = i
        · rw [if_pos hk, if_pos hk, hk]
          have hlt : i < i + 1 := by omega
          have hnle : ¬ i + 1 ≤ i := by omega
          simp only [hlt, true_and, hnle, false_and, or_false]
          rw [Finset.mem_inter]
          unfold diffCands
          rw [Finset.mem_filter, Function.update_self]
          constructor
          · rintro ⟨a1, -, a2⟩
            refine ⟨((hca1 a).1 a1).1, ?_⟩
            split at a2
            · rename_i hn
              obtain ⟨s, hs⟩ := ((hca1 a).1 a1).2
              rw [Finset.mem_inter] at hs
              refine ⟨s, Finset.mem_inter.2 ⟨hs.1, Finset.mem_sdiff.2 ⟨hs.2, fun hc => hn ⟨s, ?_⟩⟩⟩⟩
              exact Finset.mem_inter.2 ⟨hs.1, hc⟩
            · exact a2.2.2
          · rintro ⟨a1, a2⟩
            have ha : a ∈ ds1.cands i \ (ds1.cands i ∩ (ds.cands i ∩ dels)) := by
              rw [hca1]
              refine ⟨a1, ?_⟩
              obtain ⟨s, hs⟩ := a2
              rw [Finset.mem_inter, Finset.mem_sdiff] at hs
              exact ⟨s, Finset.mem_inter.2 ⟨hs.1, hs.2.1⟩⟩
            refine ⟨ha, ha, ?_⟩
            split
            · rfl
            · exact ⟨hs3, by omega, a2⟩
        · rw [if_neg hk, if_neg hk, h1ca k hk, Function.update_of_ne hk, h1dl, if_neg hk]
          by_cases hki : k < i
          · have hlt : k < i + 1 := by omega
            have hnle : ¬ i + 1 ≤ k := by omega
            simp only [hlt, true_and, hnle, false_and, or_false, hki, and_true]
            have hck : a ∈ ds.cands k ↔ a ∈ (C \ adds) \ dels ∧ (pre a ∩ ds.dl k).Nonempty := by
              rw [h.cands k (h1sz ▸ hksz)]
              have : ¬ i ≤ k := by omega
              simp [hki, this]
            split
            · rename_i hmk
              rw [Finset.mem_union, hck]
              constructor
              · rintro (⟨a1, s, hs⟩ | a1)
                · rw [Finset.mem_inter] at hs
                  exact ⟨a1, s, Finset.mem_inter.2 ⟨hs.1, Finset.mem_union_left _ hs.2⟩⟩
                · have ha := (Finset.mem_filter.1 a1).1
                  obtain ⟨s, hs⟩ := (hcs a ha k hki hmk).1 a1
                  rw [Finset.mem_inter] at hs
                  exact ⟨((hca1 a).1 ha).1, s, Finset.mem_inter.2 ⟨hs.1, Finset.mem_union_right _ hs.2⟩⟩
              · rintro ⟨a1, s, hs⟩
                rw [Finset.mem_inter, Finset.mem_union] at hs
                obtain ⟨hs1a, hs2a | hs2a⟩ := hs
                · exact .inl ⟨a1, s, Finset.mem_inter.2 ⟨hs1a, hs2a⟩⟩
                · right
                  have ha : a ∈ ds1.cands i \ (ds1.cands i ∩ (ds.cands i ∩ dels)) := by
                    rw [hca1]
                    exact ⟨a1, s, Finset.mem_inter.2 ⟨hs1a, ((hs1' k hk s).1 hs2a).1⟩⟩
                  exact (hcs a ha k hki hmk).2 ⟨s, Finset.mem_inter.2 ⟨hs1a, hs2a⟩⟩
            · exact hck
          · have hnlt : ¬ k < i + 1 := by omega
            have hle : i + 1 ≤ k := by omega
            have hle' : i ≤ k := by omega
            have hmk : ¬ (minidx ≤ k ∧ k < i) := by omega
            rw [if_neg hmk, if_neg hmk, h.cands k (h1sz ▸ hksz)]
            simp [hki, hle', hle, hnlt]
  · rename_i hne
    simp only [Option.some.injEq] at hr
    subst hr
    -- nobody was removed from this rank
    have hn0 : ∀ s ∈ B1, nres pre ((C \ adds) \ dels) s = i := by
      intro s hs
      have h1 := hnB2 s hs
      have h2 : ¬ 0 < nres pre dels s := by
        intro hc
        obtain ⟨a, ha, hsa⟩ := nres_pos.1 hc
        exact hne ⟨a, (hdel a).2 ⟨ha, s, Finset.mem_inter.2 ⟨hsa, hs⟩⟩⟩
      omega
    refine ⟨h1sz, ⟨fun k hksz s => ?_, fun k hksz a => ?_⟩⟩
    · rw [h1dl]
      by_cases hk : k = i
      · rw [if_pos hk, hmB, hk]
        constructor
        · intro a
          exact .inl ⟨by omega, a.1, by omega, hn0 s ((hmB s).2 a)⟩
        · rintro (⟨-, a, b, c⟩ | ⟨a, -⟩)
          · have : nres pre ((C \ adds) \ dels) s ≤ nres pre C s := by
              rw [nres_split hd hdis (Finset.mem_sdiff.1 a).2]; omega
            exact ⟨a, by omega⟩
          · omega
      · rw [if_neg hk, h.dl k (h1sz ▸ hksz)]
        constructor
        · rintro (⟨a, b, c, d⟩ | ⟨a, b⟩)
          · exact .inl ⟨by omega, b, by omega, d⟩
          · exact .inr ⟨by omega, b⟩
        · rintro (⟨a, b, c, d⟩ | ⟨a, b⟩)
          · refine .inl ⟨by omega, b, ?_, d⟩
            by_contra hc
            have := hn0 s ((hmB s).2 ⟨b, by omega⟩)
            omega
          · exact .inr ⟨by omega, b⟩
    · rw [h1dl]
      by_cases hk : k = i
      · rw [if_pos hk, hk, h1ci]
        constructor
        · rintro ⟨a1, a2⟩
          refine .inl ⟨by omega, Finset.mem_sdiff.2 ⟨a1, fun hc => hne ⟨a, (hdel a).2 ⟨hc, a2⟩⟩⟩, a2⟩
        · rintro (⟨-, a1, a2⟩ | ⟨a1, -⟩)
          · exact ⟨(Finset.mem_sdiff.1 a1).1, a2⟩
          · omega
      · rw [if_neg hk, h1ca k hk, h.cands k (h1sz ▸ hksz)]
        constructor
        · rintro (⟨a, b⟩ | ⟨a, b⟩)
          · exact .inl ⟨by omega, b⟩
          · exact .inr ⟨by omega, b⟩
        · rintro (⟨a, b⟩ | ⟨a, b⟩)
          · exact .inl ⟨by omega, b⟩
          · exact .inr ⟨by omega, b⟩

theorem rankReviseLoop_spec {pre : ℕ → Finset σ} {C adds dels : Finset ℕ} {D : Finset σ}
    (hadd : adds ⊆ C) (hd : dels ⊆ C) (hdis : Disjoint adds dels) :
    ∀ (len i : ℕ) (ds ds' : DlSets σ), 0 < i → i + len ≤ ds.sz → MidRank pre C adds dels D i ds →
      reviseLoop pre adds dels (adds.biUnion pre) (dels.biUnion pre) (List.range' i len) ds = some ds' →
      ds'.sz = ds.sz ∧ MidRank pre C adds dels D (i + len) ds' := by
  intro len
  induction len with
  | zero =>
    intro i ds ds' _ _ h hr
    simp only [List.range'_zero, reviseLoop, Option.some.injEq] at hr
    subst hr
    exact ⟨rfl, h⟩
  | succ len ih =>
    intro i ds ds' hi hsz h hr
    simp only [List.range'_succ, reviseLoop, Option.bind_eq_some_iff] at hr
    obtain ⟨ds1, h1, h2⟩ := hr
    obtain ⟨e1, e2⟩ := reviseRank_spec hadd hd hdis hi (by omega) h h1
    obtain ⟨e3, e4⟩ := ih (i + 1) ds1 ds' (by omega) (by omega) e2 h2
    rw [show i + (len + 1) = i + 1 + len by omega]
    exact ⟨by rw [e3, e1], e4⟩

theorem reviseRank_adds {pre : ℕ → Finset σ} {adds : Finset ℕ} {G : Finset σ} {i : ℕ} (ds : DlSets σ) :
    ∃ ds', reviseRank pre adds ∅ G ∅ i ds = some ds' := by
  unfold reviseRank
  simp only [Finset.inter_empty, Finset.not_nonempty_empty, if_false]
  exact ⟨_, rfl⟩

theorem rankReviseLoop_adds {pre : ℕ → Finset σ} {adds : Finset ℕ} {G : Finset σ} :
    ∀ (l : List ℕ) (ds : DlSets σ), ∃ ds', reviseLoop pre adds ∅ G ∅ l ds = some ds' := by
  intro l
  induction l with
  | nil => intro ds; exact ⟨ds, rfl⟩
  | cons i l ih =>
    intro ds
    obtain ⟨ds1, h1⟩ := reviseRank_adds (pre := pre) (adds := adds) (G := G) (i := i) ds
    obtain ⟨ds2, h2⟩ := ih ds1
    exact ⟨ds2, by rw [reviseLoop, h1]; exact h2⟩

end Verif.Proofs
