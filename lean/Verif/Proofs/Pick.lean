import Mathlib.Algebra.BigOperators.Group.Finset.Basic
import Verif.Model.Pick
import Verif.Spec.Pick
import Verif.Props.Reach
import Verif.Proofs.Reach
import Verif.Props.Rank

/-! Lemmas for properties C81 and C82: the choice of the next action. -/

set_option linter.unusedSectionVars false

namespace Verif.Proofs
open Verif.Model Verif.Props Verif.Spec
open scoped BigOperators

theorem arr_eq_nil {c : Finset ℕ} : arr c = [] ↔ c = ∅ := by
  rw [List.eq_nil_iff_forall_not_mem, Finset.eq_empty_iff_forall_notMem]
  simp only [mem_arr]

/-! ### Ranks -/

theorem mrvScan_spec {sets : ℕ → Finset ℕ} : ∀ (len i m : ℕ), (0 < i + len → sets 0 = ∅) →
    let r := mrvScan sets (List.range' i len) m
    (r = m ∨ (i ≤ r ∧ r < i + len ∧ sets r ≠ ∅ ∧ (m = 0 ∨ r < m))) ∧
    (∀ j, i ≤ j → j < i + len → sets j ≠ ∅ → 0 < r ∧ r ≤ j) ∧ (0 < m → r ≤ m ∧ 0 < r) := by
  intro len
  induction len with
  | zero => intro i m _; simp [mrvScan]; omega
  | succ len ih =>
    intro i m h0
    have h0' : 0 < i + 1 + len → sets 0 = ∅ := fun _ => h0 (by omega)
    simp only [List.range'_succ, mrvScan]
    by_cases hm : 0 < m ∧ m ≤ i
    · rw [if_pos hm]
      exact ⟨.inl rfl, fun j h1 _ _ => ⟨hm.1, by omega⟩, fun h => ⟨le_rfl, h⟩⟩
    · rw [if_neg hm]
      by_cases he : sets i = ∅
      · rw [if_pos he]
        obtain ⟨h1, h2, h3⟩ := ih (i + 1) m h0'
        refine ⟨?_, fun j hj1 hj2 hj3 => ?_, h3⟩
        · rcases h1 with h1 | ⟨a, b, c, d⟩
          · exact .inl h1
          · exact .inr ⟨by omega, by omega, c, d⟩
        · have : j ≠ i := by rintro rfl; exact hj3 he
          exact h2 j (by omega) (by omega) hj3
      · rw [if_neg he]
        have hi : 0 < i := Nat.pos_of_ne_zero (by rintro rfl; exact he (h0 (by omega)))
        obtain ⟨h1, h2, h3⟩ := ih (i + 1) i h0'
        have hr : mrvScan sets (List.range' (i + 1) len) i = i := by
          rcases h1 with h1 | ⟨a, b, c, d⟩
          · exact h1
          · omega
        rw [hr]
        refine ⟨.inr ⟨le_rfl, by omega, he, by omega⟩, fun j hj1 _ _ => ⟨hi, hj1⟩, fun h => ⟨by omega, hi⟩⟩

/-- The least rank of a whole instance that has candidates; 0 if there is none. -/
structure LeastRank (insts : List MrvInst) (m : ℕ) : Prop where
  le : ∀ x ∈ insts, x.noPartial = false → ∀ j < x.sz, x.sets j ≠ ∅ → 0 < m ∧ m ≤ j
  mem : 0 < m → ∃ x ∈ insts, x.noPartial = false ∧ m < x.sz ∧ x.sets m ≠ ∅

theorem mrvIdx_spec {insts : List MrvInst} (h0 : ∀ x ∈ insts, x.noPartial = false → 0 < x.sz → x.sets 0 = ∅) : LeastRank insts (mrvIdx insts) := by
  unfold mrvIdx
  have key : ∀ (l pre : List MrvInst) (m : ℕ), (∀ x ∈ l, x.noPartial = false → 0 < x.sz → x.sets 0 = ∅) → LeastRank pre m →
      LeastRank (pre ++ l) (l.foldl (fun m x => if x.noPartial then m else mrvScan x.sets (List.range x.sz) m) m) := by
    intro l
    induction l with
    | nil => intro pre m _ h; simpa using h
    | cons x l ih =>
      intro pre m hl h
      rw [List.foldl_cons, ← List.singleton_append, ← List.append_assoc]
      refine ih _ _ (fun y hy => hl y (List.mem_cons_of_mem _ hy)) ?_
      by_cases hx : x.noPartial = true
      · rw [if_pos hx]
        refine ⟨fun y hy hn => ?_, fun hm => ?_⟩
        · rcases List.mem_append.1 hy with hy | hy
          · exact h.le y hy hn
          · rw [List.mem_singleton.1 hy, hx] at hn; simp at hn
        · obtain ⟨y, hy, hh⟩ := h.mem hm
          exact ⟨y, List.mem_append_left _ hy, hh⟩
      · rw [if_neg hx]
        have hx : x.noPartial = false := by simpa using hx
        obtain ⟨h1, h2, h3⟩ := mrvScan_spec x.sz 0 m (fun h => hl x (by simp) hx (by omega))
        rw [← List.range_eq_range'] at h1 h2 h3
        refine ⟨fun y hy hn j hj hne => ?_, fun hm => ?_⟩
        · rcases List.mem_append.1 hy with hy | hy
          · obtain ⟨q1, q2⟩ := h.le y hy hn j hj hne
            have := h3 q1
            omega
          · rw [List.mem_singleton.1 hy] at hj hne
            exact h2 j (by omega) (by omega) hne
        · rcases h1 with h1 | ⟨_, b, c, _⟩
          · rw [h1] at hm ⊢
            obtain ⟨y, hy, hh⟩ := h.mem hm
            exact ⟨y, List.mem_append_left _ hy, hh⟩
          · exact ⟨x, by simp, hx, by omega, c⟩
  simpa using key insts [] 0 h0 ⟨by simp, by simp⟩

/-! ### Choosing an instance -/

/-- The instance takes part in the choice at rank `k`. -/
def TakesPart (k : ℕ) (x : MrvInst) : Prop := x.noPartial = false ∧ k < x.sz ∧ x.sets k ≠ ∅

theorem mrvChoose_spec {k : ℕ} : ∀ (l : List MrvInst) (c : Finset ℕ),
    (∀ x ∈ l, TakesPart k x → ∃ t, x.sub k = some t ∧ t ≠ ∅ ∧ t ⊆ x.sets k) →
    ∃ c', mrvChoose k l c = .ok c' ∧ (c' = c ∨ ∃ x ∈ l, TakesPart k x ∧ x.sub k = some c') ∧
      (c ≠ ∅ → c' ≠ ∅ ∧ c'.card ≤ c.card) ∧
      (∀ x ∈ l, TakesPart k x → c' ≠ ∅ ∧ ∀ t, x.sub k = some t → c'.card ≤ t.card) := by
  intro l
  induction l with
  | nil => intro c _; exact ⟨c, rfl, .inl rfl, fun h => ⟨h, le_rfl⟩, by simp⟩
  | cons x l ih =>
    intro c h
    have hl : ∀ y ∈ l, TakesPart k y → ∃ t, y.sub k = some t ∧ t ≠ ∅ ∧ t ⊆ y.sets k :=
      fun y hy => h y (List.mem_cons_of_mem _ hy)
    unfold mrvChoose
    by_cases hx : x.noPartial = true ∨ x.sz ≤ k ∨ x.sets k = ∅
    · rw [if_pos hx]
      have hnt : ¬ TakesPart k x := by
        rintro ⟨h1, h2, h3⟩
        rcases hx with hx | hx | hx
        · rw [h1] at hx; simp at hx
        · omega
        · exact h3 hx
      obtain ⟨c', e1, e2, e3, e4⟩ := ih c hl
      refine ⟨c', e1, ?_, e3, ?_⟩
      · rcases e2 with e2 | ⟨y, hy, e2⟩
        · exact .inl e2
        · exact .inr ⟨y, List.mem_cons_of_mem _ hy, e2⟩
      · intro y hy
        rcases List.mem_cons.1 hy with rfl | hy
        · exact fun ht => absurd ht hnt
        · exact e4 y hy
    · rw [if_neg hx]
      have ht : TakesPart k x := by
        simp only [not_or, Nat.not_le] at hx
        exact ⟨by simpa using hx.1, hx.2.1, hx.2.2⟩
      obtain ⟨t, t1, t2, t3⟩ := h x (by simp) ht
      rw [t1]
      simp only [if_neg t2]
      obtain ⟨c', e1, e2, e3, e4⟩ := ih (if c = ∅ ∨ t.card < c.card then t else c) hl
      have hne : (if c = ∅ ∨ t.card < c.card then t else c) ≠ ∅ := by
        split
        · exact t2
        · rename_i hc; exact fun h => hc (.inl h)
      obtain ⟨e5, e6⟩ := e3 hne
      refine ⟨c', e1, ?_, fun hc => ⟨e5, e6.trans ?_⟩, ?_⟩
      · rcases e2 with e2 | ⟨y, hy, e2⟩
        · split at e2
          · exact .inr ⟨x, by simp, ht, by rw [e2]; exact t1⟩
          · exact .inl e2
        · exact .inr ⟨y, List.mem_cons_of_mem _ hy, e2⟩
      · split
        · rename_i hh
          rcases hh with hh | hh
          · exact absurd hh hc
          · exact hh.le
        · exact le_rfl
      · intro y hy hyt
        rcases List.mem_cons.1 hy with rfl | hy
        · refine ⟨e5, fun t' ht' => e6.trans ?_⟩
          rw [t1, Option.some.injEq] at ht'
          subst ht'
          split
          · exact le_rfl
          · rename_i hh; simp only [not_or, Nat.not_lt] at hh; exact hh.2
        · exact e4 y hy hyt

/-! ### Random values -/

theorem zeroFold_spec (f : ℕ → ℕ) : ∀ (l : List ℕ) (T C : Finset ℕ), l.Nodup →
    let r := (l.foldl (zeroStep f) (T, C)).2
    r ⊆ C ∧ (∀ a ∈ C, a ∉ l → a ∈ r) ∧ (∀ a ∈ r, a ∈ l → f a ∉ T) ∧
    (∀ a ∈ r, a ∈ l → ∀ b ∈ r, b ∈ l → f a = f b → a = b) ∧
    (∀ a ∈ C, a ∈ l → l.toFinset ⊆ C → f a ∉ T → ∃ b ∈ r, b ∈ l ∧ f b = f a) := by
  intro l
  induction l with
  | nil => intro T C _; simp
  | cons x l ih =>
    intro T C hnd
    obtain ⟨hx, hl⟩ := List.nodup_cons.1 hnd
    simp only [List.foldl_cons]
    by_cases hT : f x ∈ T
    · have : zeroStep f (T, C) x = (T, C.erase x) := by simp [zeroStep, hT]
      rw [this]
      obtain ⟨h1, h2, h3, h4, h5⟩ := ih T (C.erase x) hl
      have hxr : x ∉ (l.foldl (zeroStep f) (T, C.erase x)).2 := fun h => by simpa using h1 h
      refine ⟨h1.trans (Finset.erase_subset _ _), fun a ha hn => ?_, fun a ha hal => ?_, fun a ha hal b hb hbl he => ?_,
        fun a ha hal hs hf => ?_⟩
      · rw [List.mem_cons, not_or] at hn
        exact h2 a (Finset.mem_erase.2 ⟨hn.1, ha⟩) hn.2
      · rcases List.mem_cons.1 hal with rfl | hal'
        · exact absurd ha hxr
        · exact h3 a ha hal'
      · rcases List.mem_cons.1 hal with rfl | hal'
        · exact absurd ha hxr
        · rcases List.mem_cons.1 hbl with rfl | hbl'
          · exact absurd hb hxr
          · exact h4 a ha hal' b hb hbl' he
      · rcases List.mem_cons.1 hal with rfl | hal'
        · exact absurd hT hf
        · have hax : a ≠ x := by rintro rfl; exact hx hal'
          have hsub : l.toFinset ⊆ C.erase x := by
            intro y hy
            rw [List.mem_toFinset] at hy
            refine Finset.mem_erase.2 ⟨by rintro rfl; exact hx hy, hs ?_⟩
            rw [List.mem_toFinset]; exact List.mem_cons_of_mem _ hy
          obtain ⟨b, hb, hbl, he⟩ := h5 a (Finset.mem_erase.2 ⟨hax, ha⟩) hal' hsub hf
          exact ⟨b, hb, List.mem_cons_of_mem _ hbl, he⟩
    · have : zeroStep f (T, C) x = (insert (f x) T, C) := by simp [zeroStep, hT]
      rw [this]
      obtain ⟨h1, h2, h3, h4, h5⟩ := ih (insert (f x) T) C hl
      refine ⟨h1, fun a ha hn => ?_, fun a ha hal => ?_, fun a ha hal b hb hbl he => ?_, fun a ha hal hs hf => ?_⟩
      · exact h2 a ha fun h => hn (List.mem_cons_of_mem _ h)
      · rcases List.mem_cons.1 hal with rfl | hal'
        · exact hT
        · exact fun h => h3 a ha hal' (Finset.mem_insert_of_mem h)
      · rcases List.mem_cons.1 hal with rfl | hal'
        · rcases List.mem_cons.1 hbl with rfl | hbl'
          · rfl
          · exact absurd (by rw [he]; exact Finset.mem_insert_self _ _) (h3 b hb hbl')
        · rcases List.mem_cons.1 hbl with rfl | hbl'
          · exact absurd (by rw [he]; exact Finset.mem_insert_self _ _) (h3 a ha hal')
          · exact h4 a ha hal' b hb hbl' he
      · have hs' : l.toFinset ⊆ C := fun y hy => hs (by
          rw [List.mem_toFinset] at hy ⊢; exact List.mem_cons_of_mem _ hy)
        rcases List.mem_cons.1 hal with rfl | hal'
        · exact ⟨a, h2 a ha hx, by simp, rfl⟩
        · by_cases he : f a = f x
          · exact ⟨x, h2 x (hs (by simp)) hx, by simp, he.symm⟩
          · obtain ⟨b, hb, hbl, he'⟩ := h5 a ha hal' hs' (by
              rw [Finset.mem_insert, not_or]; exact ⟨he, hf⟩)
            exact ⟨b, hb, List.mem_cons_of_mem _ hbl, he'⟩

/-! ### Candidates of one instance -/

theorem niceOnly_spec (f : ℕ → ℕ) (c : Finset ℕ) : ∀ a, a ∈ niceOnly f c ↔ a ∈ c ∧ ∀ b ∈ c, f a ≤ f b := by
  have key : ∀ (l p : List ℕ) (st : Finset ℕ × Option ℕ),
      ((st.2 = none ∧ st.1 = ∅ ∧ p = []) ∨ ∃ m, st.2 = some m ∧ (∀ a, a ∈ st.1 ↔ a ∈ p ∧ f a = m) ∧
        st.1.Nonempty ∧ ∀ a ∈ p, m ≤ f a) →
      (((l.foldl (niceStep f) st).2 = none ∧ (l.foldl (niceStep f) st).1 = ∅ ∧ p ++ l = []) ∨
        ∃ m, (l.foldl (niceStep f) st).2 = some m ∧ (∀ a, a ∈ (l.foldl (niceStep f) st).1 ↔ a ∈ p ++ l ∧ f a = m) ∧
        (l.foldl (niceStep f) st).1.Nonempty ∧ ∀ a ∈ p ++ l, m ≤ f a) := by
    intro l
    induction l with
    | nil => intro p st h; simpa using h
    | cons x l ih =>
      intro p st h
      rw [List.foldl_cons, show p ++ x :: l = (p ++ [x]) ++ l by simp]
      apply ih
      right
      rcases h with ⟨h1, h2, rfl⟩ | ⟨m, h1, h2, h3, h4⟩
      · simp [niceStep, h1]
      · simp only [niceStep, h1]
        by_cases hlt : f x < m
        · rw [if_pos hlt]
          refine ⟨f x, rfl, fun a => ?_, by simp, ?_⟩
          · simp only [Finset.mem_singleton, List.mem_append, List.mem_singleton]
            constructor
            · rintro rfl; exact ⟨.inr rfl, rfl⟩
            · rintro ⟨ha | ha, he⟩
              · have := h4 a ha; omega
              · exact ha
          · intro a ha
            rcases List.mem_append.1 ha with ha | ha
            · have := h4 a ha; omega
            · rw [List.mem_singleton.1 ha]
        · rw [if_neg hlt]
          by_cases heq : f x = m
          · rw [if_pos heq]
            refine ⟨m, rfl, fun a => ?_, by simp, ?_⟩
            · simp only [Finset.mem_insert, List.mem_append, List.mem_singleton, h2]
              constructor
              · rintro (rfl | ⟨ha, he⟩)
                · exact ⟨.inr rfl, heq⟩
                · exact ⟨.inl ha, he⟩
              · rintro ⟨ha | ha, he⟩
                · exact .inr ⟨ha, he⟩
                · exact .inl ha
            · intro a ha
              rcases List.mem_append.1 ha with ha | ha
              · exact h4 a ha
              · rw [List.mem_singleton.1 ha, heq]
          · rw [if_neg heq]
            refine ⟨m, h1, fun a => ?_, h3, ?_⟩
            · rw [h2, List.mem_append, List.mem_singleton]
              constructor
              · rintro ⟨ha, he⟩; exact ⟨.inl ha, he⟩
              · rintro ⟨ha | ha, he⟩
                · exact ⟨ha, he⟩
                · rw [ha] at he; exact absurd he heq
            · intro a ha
              rcases List.mem_append.1 ha with ha | ha
              · exact h4 a ha
              · rw [List.mem_singleton.1 ha]; omega
  intro a
  unfold niceOnly
  rcases key (arr c) [] (∅, none) (.inl ⟨rfl, rfl, rfl⟩) with ⟨_, h2, h3⟩ | ⟨m, _, h2, h3, h4⟩
  · rw [List.nil_append, arr_eq_nil] at h3
    rw [h2, h3]; simp
  · simp only [List.nil_append, mem_arr] at h2 h4
    rw [h2]
    obtain ⟨x, hx⟩ := h3
    have hx' := (h2 x).1 hx
    constructor
    · rintro ⟨ha, he⟩; exact ⟨ha, fun b hb => he ▸ h4 b hb⟩
    · rintro ⟨ha, hall⟩
      have h5 := hall x hx'.1
      have h6 := h4 a ha
      exact ⟨ha, by omega⟩

theorem niceOnly_ne {f : ℕ → ℕ} {c : Finset ℕ} (h : c ≠ ∅) : niceOnly f c ≠ ∅ := by
  obtain ⟨a, ha, hmin⟩ := Finset.exists_min_image c f (Finset.nonempty_iff_ne_empty.2 h)
  exact Finset.ne_empty_of_mem ((niceOnly_spec f c a).2 ⟨ha, hmin⟩)

theorem niceOnly_sub {f : ℕ → ℕ} {c : Finset ℕ} : niceOnly f c ⊆ c := fun a ha => ((niceOnly_spec f c a).1 ha).1

theorem biasBest_spec {l : List (ℕ × ℕ)} {b : Bool} : ∀ a, a ∈ biasBest l b ↔
    ∃ n, (n, a) ∈ l ∧ ∀ e ∈ l, if b then e.1 ≤ n else n ≤ e.1 := by
  intro a
  unfold biasBest
  have hm : ∀ n, ((if b then (l.map Prod.fst).max? else (l.map Prod.fst).min?) = some n ↔
      n ∈ l.map Prod.fst ∧ ∀ e ∈ l, if b then e.1 ≤ n else n ≤ e.1) := by
    intro n
    rcases b with _ | _
    · simp only [Bool.false_eq_true, if_false, List.min?_eq_some_iff]
      simp only [List.mem_map, forall_exists_index, and_imp, forall_apply_eq_imp_iff₂]
    · simp only [if_true, List.max?_eq_some_iff]
      simp only [List.mem_map, forall_exists_index, and_imp, forall_apply_eq_imp_iff₂]
  split
  · rename_i h
    simp only [Finset.notMem_empty, false_iff]
    rintro ⟨n, h1, h2⟩
    have := (hm n).2 ⟨List.mem_map.2 ⟨_, h1, rfl⟩, h2⟩
    rw [h] at this
    simp at this
  · rename_i n h
    obtain ⟨h1, h2⟩ := (hm n).1 h
    simp only [List.mem_toFinset, List.mem_map, List.mem_filter, decide_eq_true_eq]
    constructor
    · rintro ⟨⟨k, x⟩, ⟨h3, h4⟩, h5⟩
      simp only at h4 h5
      subst h4 h5
      exact ⟨k, h3, h2⟩
    · rintro ⟨k, h3, h4⟩
      have := (hm k).2 ⟨List.mem_map.2 ⟨_, h3, rfl⟩, h4⟩
      rw [h, Option.some.injEq] at this
      subst this
      exact ⟨(n, a), ⟨h3, rfl⟩, rfl⟩

theorem biasBest_ne {l : List (ℕ × ℕ)} {b : Bool} (h : l ≠ []) : biasBest l b ≠ ∅ := by
  obtain ⟨e, l', rfl⟩ := List.exists_cons_of_ne_nil h
  have hne : (((e :: l').toFinset).Nonempty) := ⟨e, by simp⟩
  rcases b with _ | _
  · obtain ⟨x, hx, hmin⟩ := Finset.exists_min_image _ Prod.fst hne
    refine Finset.ne_empty_of_mem ((biasBest_spec x.2).2 ⟨x.1, List.mem_toFinset.1 hx, fun y hy => ?_⟩)
    simpa using hmin y (List.mem_toFinset.2 hy)
  · obtain ⟨x, hx, hmin⟩ := Finset.exists_max_image _ Prod.fst hne
    refine Finset.ne_empty_of_mem ((biasBest_spec x.2).2 ⟨x.1, List.mem_toFinset.1 hx, fun y hy => ?_⟩)
    simpa using hmin y (List.mem_toFinset.2 hy)

theorem mapM_ok {α β : Type} {f : α → Option β} : ∀ {l : List α}, (∀ a ∈ l, ∃ b, f a = some b) →
    ∃ r, l.mapM f = some r ∧ (∀ b, b ∈ r ↔ ∃ a ∈ l, f a = some b) ∧ (l ≠ [] → r ≠ []) := by
  intro l
  induction l with
  | nil => intro _; exact ⟨[], by simp, by simp, fun h => absurd rfl h⟩
  | cons x l ih =>
    intro h
    obtain ⟨b, hb⟩ := h x (by simp)
    obtain ⟨r, h1, h2, _⟩ := ih fun a ha => h a (List.mem_cons_of_mem _ ha)
    refine ⟨b :: r, by simp [List.mapM_cons, hb, h1], fun y => ?_, fun _ => by simp⟩
    rw [List.mem_cons, h2]
    simp only [List.mem_cons, exists_eq_or_imp, hb, Option.some.injEq]
    rw [eq_comm]

variable {S : Type} [Fintype S] [DecidableEq S]

/-- The ranks of the instance are as they should be. -/
def RankOk (I : PickInst S) : Prop := ∀ k < I.mcv.sz, ∀ a ∈ I.mcv.cands k, (I.mcv.dl k ∩ dom (I.xn a)).Nonempty

theorem lexFold_spec (I : PickInst S) : ∀ (l p : List ℕ) (st : List (ℕ × ℕ) × Finset S),
    (∀ e ∈ st.1, e.2 ∈ p) → (∀ e ∈ st.1, e.1 = 0 → st.2 ⊆ dom (I.xn e.2)) → st.2.Nonempty →
    let r := l.foldl (lexStep I) st
    (∀ e ∈ r.1, e.2 ∈ p ++ l) ∧ (∀ e ∈ r.1, e.1 = 0 → r.2 ⊆ dom (I.xn e.2)) ∧ r.2.Nonempty ∧ r.2 ⊆ st.2 ∧
      ∃ t, r.1 = st.1 ++ t := by
  intro l
  induction l with
  | nil => intro p st h1 h2 h3; exact ⟨by simpa using h1, h2, h3, Finset.Subset.refl _, [], by simp⟩
  | cons x l ih =>
    intro p st h1 h2 h3
    simp only [List.foldl_cons]
    rw [show p ++ x :: l = (p ++ [x]) ++ l by simp]
    by_cases hx : (st.2 ∩ dom (I.xn x)).Nonempty
    · have : lexStep I st x = (st.1 ++ [(0, x)], st.2 ∩ dom (I.xn x)) := by simp [lexStep, hx]
      rw [this]
      obtain ⟨e1, e2, e3, e4, t, e5⟩ := ih (p ++ [x]) (st.1 ++ [(0, x)], st.2 ∩ dom (I.xn x)) (by
        intro e he
        rcases List.mem_append.1 he with he | he
        · exact List.mem_append_left _ (h1 e he)
        · rw [List.mem_singleton.1 he]; simp) (by
        intro e he h0
        rcases List.mem_append.1 he with he | he
        · exact Finset.inter_subset_left.trans (h2 e he h0)
        · rw [List.mem_singleton.1 he]; exact Finset.inter_subset_right) hx
      exact ⟨e1, e2, e3, e4.trans Finset.inter_subset_left, (0, x) :: t, by rw [e5]; simp⟩
    · have : lexStep I st x = (st.1 ++ [(1, x)], st.2) := by simp [lexStep, hx]
      rw [this]
      obtain ⟨e1, e2, e3, e4, t, e5⟩ := ih (p ++ [x]) (st.1 ++ [(1, x)], st.2) (by
        intro e he
        rcases List.mem_append.1 he with he | he
        · exact List.mem_append_left _ (h1 e he)
        · rw [List.mem_singleton.1 he]; simp) (by
        intro e he h0
        rcases List.mem_append.1 he with he | he
        · exact h2 e he h0
        · rw [List.mem_singleton.1 he] at h0; simp at h0) h3
      exact ⟨e1, e2, e3, e4, (1, x) :: t, by rw [e5]; simp⟩

/-- The weight of an action in the greedy methods. -/
def greedySum (slow : Bool) (I : PickInst S) (k a : ℕ) : ℕ :=
  ∑ j ∈ (Finset.range I.mcv.sz).filter (fun j => k ≤ j ∧ a ∈ I.mcv.cands j), greedyW slow I j a

theorem resolve_inner (w : ℕ → ℕ) : ∀ (l : List ℕ) (m : ℕ → Option ℕ) (a : ℕ), l.Nodup →
    (l.foldl (fun m b => Function.update m b (some ((m b).getD 0 + w b))) m) a =
      if a ∈ l then some ((m a).getD 0 + w a) else m a := by
  intro l
  induction l with
  | nil => intro m a _; simp
  | cons x l ih =>
    intro m a h
    obtain ⟨hx, hl⟩ := List.nodup_cons.1 h
    rw [List.foldl_cons, ih _ _ hl]
    by_cases hax : a = x
    · subst hax; simp [hx]
    · simp [Function.update_of_ne hax, hax]

theorem resolveMap_spec (slow : Bool) (I : PickInst S) {k : ℕ} {c : Finset ℕ} (hk : k < I.mcv.sz)
    (hc : c ⊆ I.mcv.cands k) {a : ℕ} (ha : a ∈ c) : resolveMap slow I k c a = some (greedySum slow I k a) := by
  have key : ∀ (l : List ℕ) (m : ℕ → Option ℕ), (l.foldl (fun m j =>
      (arr (c ∩ I.mcv.cands j)).foldl (fun m a =>
        Function.update m a (some ((m a).getD 0 + greedyW slow I j a))) m) m) a =
      if m a ≠ none ∨ ∃ j ∈ l, a ∈ I.mcv.cands j then
        some ((m a).getD 0 + ((l.filter fun j => a ∈ I.mcv.cands j).map fun j => greedyW slow I j a).sum)
      else none := by
    intro l
    induction l with
    | nil =>
      intro m
      rcases h : m a with _ | v
      · simp [h]
      · simp [h]
    | cons j l ih =>
      intro m
      rw [List.foldl_cons, ih, resolve_inner _ _ _ _ (arr_nodup _)]
      simp only [mem_arr, Finset.mem_inter]
      by_cases hj : a ∈ I.mcv.cands j
      · simp [ha, hj, Nat.add_assoc]
      · simp [hj]
  unfold resolveMap
  rw [key, if_pos]
  · simp only [Option.getD_none, Nat.zero_add, greedySum, Option.some.injEq]
    rw [← List.sum_toFinset _ ((List.nodup_range.sublist (List.drop_sublist _ _)).filter _)]
    apply Finset.sum_congr _ fun _ _ => rfl
    ext j
    simp only [List.mem_toFinset, List.mem_filter, decide_eq_true_eq, Finset.mem_filter, Finset.mem_range]
    rw [List.mem_drop_iff_getElem]
    constructor
    · rintro ⟨⟨i, h1, h2⟩, h3⟩
      simp only [List.getElem_range] at h2
      simp only [List.length_range] at h1
      exact ⟨by omega, by omega, h3⟩
    · rintro ⟨h1, h2, h3⟩
      exact ⟨⟨j - k, by simp; omega, by simp; omega⟩, h3⟩
  · refine .inr ⟨k, ?_, hc ha⟩
    rw [List.mem_drop_iff_getElem]
    exact ⟨0, by simpa using hk, by simp⟩

theorem reviseAdd_total (pre : ℕ → Finset S) (adds : Finset ℕ) (ds : DlSets S) :
    ∃ r, reviseDeadlocksMRV pre adds ∅ ds = some r := by
  unfold reviseDeadlocksMRV
  generalize (List.range ds.sz).drop 1 = l
  induction l generalizing ds with
  | nil => exact ⟨ds, rfl⟩
  | cons i l ih =>
    unfold reviseLoop
    have : ∃ r, reviseRank pre adds ∅ (adds.biUnion pre) ((∅ : Finset ℕ).biUnion pre) i ds = some r := by
      unfold reviseRank
      simp
    obtain ⟨r, hr⟩ := this
    rw [hr]
    exact ih r

theorem minOverlap_spec (f : ℕ → Finset ℕ) : ∀ (l : List ℕ) (st : Option (Finset ℕ)) (p : List ℕ),
    ((st = none ∧ p = []) ∨ ∃ a ∈ p, st = some (f a) ∧ ∀ b ∈ p, (f a).card ≤ (f b).card) →
    ((l.foldl (minOverlap f) st = none ∧ p ++ l = []) ∨
      ∃ a ∈ p ++ l, l.foldl (minOverlap f) st = some (f a) ∧ ∀ b ∈ p ++ l, (f a).card ≤ (f b).card) := by
  intro l
  induction l with
  | nil => intro st p h; simpa using h
  | cons x l ih =>
    intro st p h
    rw [List.foldl_cons, show p ++ x :: l = (p ++ [x]) ++ l by simp]
    apply ih
    right
    rcases h with ⟨rfl, rfl⟩ | ⟨a, ha, rfl, hmin⟩
    · exact ⟨x, by simp, rfl, by simp⟩
    · by_cases hlt : (f x).card < (f a).card
      · refine ⟨x, by simp, by simp [minOverlap, hlt], fun b hb => ?_⟩
        rcases List.mem_append.1 hb with hb | hb
        · have := hmin b hb; omega
        · rw [List.mem_singleton.1 hb]
      · refine ⟨a, by simp [ha], by simp [minOverlap, hlt], fun b hb => ?_⟩
        rcases List.mem_append.1 hb with hb | hb
        · exact hmin b hb
        · rw [List.mem_singleton.1 hb]; omega

theorem best_map {c : Finset ℕ} {f : ℕ → ℕ} {b : Bool} : ∀ a, a ∈ biasBest ((arr c).map fun a => (f a, a)) b ↔
    a ∈ c ∧ ∀ x ∈ c, if b then f x ≤ f a else f a ≤ f x := by
  intro a
  rw [biasBest_spec]
  simp only [List.mem_map, mem_arr, Prod.mk.injEq, forall_exists_index, and_imp, forall_apply_eq_imp_iff₂]
  constructor
  · rintro ⟨n, ⟨x, hx, rfl, rfl⟩, h⟩; exact ⟨hx, h⟩
  · rintro ⟨h1, h2⟩; exact ⟨f a, ⟨a, h1, rfl, rfl⟩, h2⟩

/-- The methods that give each candidate one number. -/
theorem mapM_keys {c : Finset ℕ} {g : ℕ → Option (ℕ × ℕ)} {f : ℕ → ℕ} (h : ∀ a ∈ c, g a = some (f a, a)) :
    (arr c).mapM g = some ((arr c).map fun a => (f a, a)) := by
  have : ∀ l : List ℕ, (∀ a ∈ l, g a = some (f a, a)) → l.mapM g = some (l.map fun a => (f a, a)) := by
    intro l
    induction l with
    | nil => intro _; simp
    | cons x l ih =>
      intro hl
      simp [List.mapM_cons, hl x (by simp), ih fun a ha => hl a (List.mem_cons_of_mem _ ha)]
  exact this _ fun a ha => h a (mem_arr.1 ha)

/-- The candidates of the ranks that remain when `a` is added, the number of `LCVLitePick`. -/
def lcvLeft (I : PickInst S) (a : ℕ) : ℕ :=
  match reviseDeadlocksMRV (fun a => dom (I.xn a)) {a} ∅ I.mcv with
  | none => 0
  | some ds => (((List.range ds.sz).drop 1).map fun j => (ds.cands j).card).sum

/-- The number of `LCVHeavyPick`. -/
def lcvLoss (I : PickInst S) (a : ℕ) : ℕ :=
  match I.revised a with
  | none => I.nCands
  | some (nc, na) => (I.nCands - nc) / (na - I.nActs)

/-- The number of `QuickPick`: the least of its entries. -/
def quickNum (I : PickInst S) (reach : Finset S) (a : ℕ) : ℕ :=
  if I.shadowPuppet then if dom (I.xn a) ∩ I.hiInv = ∅ then 0 else 1
  else if (reach ∩ rng (I.xn a)).Nonempty then if dom (I.xn a) ⊆ reach then 1 else 0
  else 2

theorem best_quick (I : PickInst S) (reach : Finset S) (c : Finset ℕ) : ∀ a,
    a ∈ biasBest ((arr c).flatMap (quickKeys I reach)) false ↔
    a ∈ c ∧ ∀ x ∈ c, quickNum I reach a ≤ quickNum I reach x := by
  have hk : ∀ x, (quickNum I reach x, x) ∈ quickKeys I reach x := by
    intro x
    unfold quickNum quickKeys
    split_ifs <;> simp
  have hle : ∀ x, ∀ e ∈ quickKeys I reach x, e.2 = x ∧ quickNum I reach x ≤ e.1 := by
    intro x e
    unfold quickNum quickKeys
    split_ifs <;> simp only [List.mem_cons, List.not_mem_nil, or_false] <;> rintro (rfl | rfl) <;> simp
  intro a
  rw [biasBest_spec]
  simp only [List.mem_flatMap, mem_arr, Bool.false_eq_true, if_false, forall_exists_index, and_imp]
  constructor
  · rintro ⟨n, ⟨x, hx, he⟩, hall⟩
    obtain ⟨rfl, hn⟩ := hle x _ he
    refine ⟨hx, fun y hy => ?_⟩
    have := hall (quickNum I reach y, y) y hy (hk y)
    simp only at this hn ⊢
    omega
  · rintro ⟨ha, hall⟩
    refine ⟨quickNum I reach a, ⟨a, ha, hk a⟩, fun e x hx he => ?_⟩
    have h1 := (hle x e he).2
    have h2 := hall x hx
    omega

/-- Nothing fails in `LCVHeavyPick`. -/
def HeavyOk (opt : PickOpt) (I : PickInst S) (c : Finset ℕ) : Prop :=
  opt.method = .lcvHeavy → ∀ a ∈ c, ∀ nc na, I.revised a = some (nc, na) → nc ≤ I.nCands ∧ I.nActs < na

/-- What a method keeps of the candidates `c`. -/
def Keeps (m : PickMethod) (I : PickInst S) (k : ℕ) (reach : Finset S) (c t : Finset ℕ) : Prop :=
  match m with
  | .mrvLite => t = c
  | .lex => ∃ s ∈ I.mcv.dl k, (∃ a ∈ t, ∀ b ∈ c, a ≤ b) ∧ ∀ a ∈ t, s ∈ dom (I.xn a)
  | .greedy => ∀ a, a ∈ t ↔ a ∈ c ∧ ∀ b ∈ c, greedySum false I k b ≤ greedySum false I k a
  | .greedySlow => ∀ a, a ∈ t ↔ a ∈ c ∧ ∀ b ∈ c, greedySum true I k b ≤ greedySum true I k a
  | .lcvLite => ∀ a, a ∈ t ↔ a ∈ c ∧ ∀ b ∈ c, lcvLeft I a ≤ lcvLeft I b
  | .lcvHeavy => ∀ a, a ∈ t ↔ a ∈ c ∧ ∀ b ∈ c, lcvLoss I a ≤ lcvLoss I b
  | .lcvJank => ∃ a ∈ c, (∀ b ∈ c, (overlapSet I k c a).card ≤ (overlapSet I k c b).card) ∧
      ∀ x, x ∈ t ↔ x ∈ overlapSet I k c a ∧ ∀ y ∈ overlapSet I k c a,
        ((I.revised y).map Prod.fst).getD 0 ≤ ((I.revised x).map Prod.fst).getD 0
  | .conflict => t = if (I.membs ∩ c).Nonempty then c ∩ I.membs else c
  | .quick => ∀ a, a ∈ t ↔ a ∈ c ∧ ∀ b ∈ c, quickNum I reach a ≤ quickNum I reach b
  | .fullyRandom => False

theorem arr_head {c : Finset ℕ} (h : c ≠ ∅) : ∃ a l, arr c = a :: l ∧ a ∈ c ∧ ∀ b ∈ c, a ≤ b := by
  obtain ⟨a, l, hl⟩ := List.exists_cons_of_ne_nil (fun h' => h (arr_eq_nil.1 h'))
  have hp := arr_pairwise c
  rw [hl] at hp
  refine ⟨a, l, hl, mem_arr.1 (hl ▸ by simp), fun b hb => ?_⟩
  have hb' : b ∈ a :: l := hl ▸ mem_arr.2 hb
  rcases List.mem_cons.1 hb' with rfl | hb'
  · exact le_refl _
  · exact (List.pairwise_cons.1 hp).1 b hb'

theorem biasOf_ok {opt : PickOpt} {I : PickInst S} {k : ℕ} {reach : Finset S} {c : Finset ℕ}
    (hk : k < I.mcv.sz) (hr : RankOk I) (hc : c ⊆ I.mcv.cands k) (hne : c ≠ ∅)
    (hm : opt.method ≠ .fullyRandom) (hh : HeavyOk opt I c) :
    ∃ l b, biasOf opt.method I k reach c = some (l, b) ∧ l ≠ [] ∧ biasBest l b ⊆ c ∧
      Keeps opt.method I k reach c (biasBest l b) := by
  have hsub : ∀ {f : ℕ → ℕ} {b : Bool} {d : Finset ℕ}, d ⊆ c → biasBest ((arr d).map fun a => (f a, a)) b ⊆ c :=
    fun hd a ha => hd ((best_map a).1 ha).1
  have hnil : ∀ {f : ℕ → ℕ} {d : Finset ℕ}, d ≠ ∅ → (arr d).map (fun a => (f a, a)) ≠ [] := by
    intro f d hd h
    exact hd (arr_eq_nil.1 (List.map_eq_nil_iff.1 h))
  rcases hmeth : opt.method with _ | _ | _ | _ | _ | _ | _ | _ | _ | _
  · refine ⟨_, _, rfl, hnil hne, hsub (Finset.Subset.refl _), ?_⟩
    ext a
    rw [best_map]
    simp
  · obtain ⟨a, l, hl, hac, hmin⟩ := arr_head hne
    have h1 := hr k hk a (hc hac)
    have hstep : lexStep I ([], I.mcv.dl k) a = ([(0, a)], I.mcv.dl k ∩ dom (I.xn a)) := by simp [lexStep, h1]
    obtain ⟨e1, e2, e3, e4, t, e5⟩ := lexFold_spec I l [a] ([(0, a)], I.mcv.dl k ∩ dom (I.xn a))
      (by simp) (by simp) h1
    have hb : biasOf .lex I k reach c =
        some ((l.foldl (lexStep I) ([(0, a)], I.mcv.dl k ∩ dom (I.xn a))).1, false) := by
      simp only [biasOf, hl, List.foldl_cons, hstep]
    have h0 : (0, a) ∈ (l.foldl (lexStep I) ([(0, a)], I.mcv.dl k ∩ dom (I.xn a))).1 := by rw [e5]; simp
    refine ⟨_, _, hb, by rw [e5]; simp, ?_, ?_⟩
    · intro x hx
      obtain ⟨n, hn, _⟩ := (biasBest_spec x).1 hx
      exact mem_arr.1 (hl ▸ e1 _ hn)
    · obtain ⟨s, hs⟩ := e3
      refine ⟨s, (Finset.mem_inter.1 (e4 hs)).1, ⟨a, (biasBest_spec a).2 ⟨0, h0, by simp⟩, hmin⟩, fun x hx => ?_⟩
      obtain ⟨n, hn, hall⟩ := (biasBest_spec x).1 hx
      have : n = 0 := by simpa using hall _ h0
      subst this
      exact e2 _ hn rfl hs
  · have h := mapM_keys (c := c) (g := fun a => (resolveMap false I k c a).map fun n => (n, a))
      (f := greedySum false I k) fun a ha => by simp [resolveMap_spec false I hk hc ha]
    refine ⟨(arr c).map fun a => (greedySum false I k a, a), true, (congrArg (Option.map (·, true)) h), hnil hne, hsub (Finset.Subset.refl _), fun a => ?_⟩
    rw [best_map]
    simp
  · have h := mapM_keys (c := c) (g := fun a => (resolveMap true I k c a).map fun n => (n, a))
      (f := greedySum true I k) fun a ha => by simp [resolveMap_spec true I hk hc ha]
    refine ⟨(arr c).map fun a => (greedySum true I k a, a), true, (congrArg (Option.map (·, true)) h), hnil hne, hsub (Finset.Subset.refl _), fun a => ?_⟩
    rw [best_map]
    simp
  · have h := mapM_keys (c := c) (g := fun a => (reviseDeadlocksMRV (fun a => dom (I.xn a)) {a} ∅ I.mcv).map fun ds =>
      ((((List.range ds.sz).drop 1).map fun j => (ds.cands j).card).sum, a)) (f := lcvLeft I) fun a _ => by
      obtain ⟨r, hr'⟩ := reviseAdd_total (fun a => dom (I.xn a)) {a} I.mcv
      simp [hr', lcvLeft]
    refine ⟨(arr c).map fun a => (lcvLeft I a, a), false, (congrArg (Option.map (·, false)) h), hnil hne, hsub (Finset.Subset.refl _), fun a => ?_⟩
    rw [best_map]
    simp
  · have h := mapM_keys (c := c) (g := fun a =>
      match I.revised a with
      | none => some (I.nCands, a)
      | some (nc, na) => if nc ≤ I.nCands ∧ I.nActs < na then some ((I.nCands - nc) / (na - I.nActs), a) else none)
      (f := lcvLoss I) fun a ha => by
      unfold lcvLoss
      rcases hra : I.revised a with _ | ⟨nc, na⟩
      · rfl
      · simp only
        rw [if_pos (hh hmeth a ha nc na hra)]
    refine ⟨(arr c).map fun a => (lcvLoss I a, a), false, (congrArg (Option.map (·, false)) h), hnil hne, hsub (Finset.Subset.refl _), fun a => ?_⟩
    rw [best_map]
    simp
  · rcases minOverlap_spec (overlapSet I k c) (arr c) none [] (.inl ⟨rfl, rfl⟩) with ⟨_, h⟩ | ⟨a, ha, h, hmin⟩
    · rw [List.nil_append, arr_eq_nil] at h
      exact absurd h hne
    · simp only [List.nil_append, mem_arr] at ha hmin
      have hov : overlapSet I k c a ⊆ c := by
        intro x hx
        rcases Finset.mem_insert.1 hx with rfl | hx
        · exact ha
        · exact (Finset.mem_filter.1 hx).1
      have hb : biasOf .lcvJank I k reach c = some ((arr (overlapSet I k c a)).map fun a =>
          (((I.revised a).map Prod.fst).getD 0, a), true) := by
        simp only [biasOf, h, Option.getD_some]
      refine ⟨_, _, hb, hnil (Finset.ne_empty_of_mem (Finset.mem_insert_self _ _)), hsub hov, a, ha, hmin, fun x => ?_⟩
      rw [best_map]
      simp
  · refine ⟨_, _, rfl, ?_, fun a ha => ((best_quick I reach c a).1 ha).1, best_quick I reach c⟩
    obtain ⟨a, ha⟩ := Finset.nonempty_iff_ne_empty.2 hne
    intro h
    have : a ∈ biasBest ((arr c).flatMap (quickKeys I reach)) false → False := by rw [h]; simp [biasBest]
    obtain ⟨x, hx, hmin⟩ := Finset.exists_min_image c (quickNum I reach) ⟨a, ha⟩
    have := (best_quick I reach c x).2 ⟨hx, hmin⟩
    rw [h] at this
    simp [biasBest] at this
  · exact absurd hmeth hm
  · have hd : (if (I.membs ∩ c).Nonempty then c ∩ I.membs else c) ≠ ∅ := by
      split
      · rename_i h
        rw [Finset.inter_comm]; exact Finset.nonempty_iff_ne_empty.1 h
      · exact hne
    have hd' : (if (I.membs ∩ c).Nonempty then c ∩ I.membs else c) ⊆ c := by
      split
      · exact Finset.inter_subset_left
      · exact Finset.Subset.refl _
    refine ⟨_, _, rfl, hnil hd, hsub hd', ?_⟩
    show _ = _
    ext a
    rw [best_map]
    simp

/-- The candidates that the method starts from. -/
def startCands (opt : PickOpt) (I : PickInst S) (k : ℕ) (reach : Finset S) : Finset ℕ :=
  let c := if opt.backReach then backOnly I k reach else I.mcv.cands k
  if opt.nice = .first then niceOnly I.nice c else c

theorem backOnly_sub {I : PickInst S} {k : ℕ} {reach : Finset S} : backOnly I k reach ⊆ I.mcv.cands k := by
  unfold backOnly
  simp only
  split
  · exact Finset.Subset.refl _
  · exact Finset.filter_subset _ _

theorem backOnly_ne {I : PickInst S} {k : ℕ} {reach : Finset S} (h : I.mcv.cands k ≠ ∅) :
    backOnly I k reach ≠ ∅ := by
  unfold backOnly
  simp only
  split
  · exact h
  · rename_i h'; exact h'

theorem startCands_sub {opt : PickOpt} {I : PickInst S} {k : ℕ} {reach : Finset S} :
    startCands opt I k reach ⊆ I.mcv.cands k := by
  have h : (if opt.backReach then backOnly I k reach else I.mcv.cands k) ⊆ I.mcv.cands k := by
    split
    · exact backOnly_sub
    · exact Finset.Subset.refl _
  unfold startCands
  simp only
  split
  · exact niceOnly_sub.trans h
  · exact h

theorem startCands_ne {opt : PickOpt} {I : PickInst S} {k : ℕ} {reach : Finset S} (h : I.mcv.cands k ≠ ∅) :
    startCands opt I k reach ≠ ∅ := by
  have h : (if opt.backReach then backOnly I k reach else I.mcv.cands k) ≠ ∅ := by
    split
    · exact backOnly_ne h
    · exact h
  unfold startCands
  simp only
  split
  · exact niceOnly_ne h
  · exact h

theorem pickCands_ok {opt : PickOpt} {I : PickInst S} {k : ℕ} (hk : k < I.mcv.sz) (hr : RankOk I)
    (hne : I.mcv.cands k ≠ ∅) (hm : opt.method ≠ .fullyRandom) (hh : HeavyOk opt I (I.mcv.cands k)) :
    ∃ reach t t', (∀ s, s ∈ reach ↔ ∃ u ∈ I.hiInv, Reach I.lo s u) ∧ pickCands opt I k = some t ∧ t ≠ ∅ ∧
      t ⊆ I.mcv.cands k ∧ Keeps opt.method I k reach (startCands opt I k reach) t' ∧
      t = if opt.nice = .last then niceOnly I.nice t' else t' := by
  obtain ⟨reach, h1, h2⟩ := C01_pre_reach_exact I.lo I.hiInv (2 * Fintype.card S + 2) (by omega)
  obtain ⟨l, b, h3, h4, h5, h6⟩ := biasOf_ok (opt := opt) (reach := reach) hk hr startCands_sub (startCands_ne hne) hm
    (fun he a ha => hh he a (startCands_sub ha))
  refine ⟨reach, _, biasBest l b, h2, ?_, ?_, ?_, h6, rfl⟩
  · unfold pickCands
    rw [h1]
    simp only
    unfold startCands at h3
    simp only at h3
    rw [h3]
    simp only [if_neg h4]
  · split
    · exact niceOnly_ne (biasBest_ne h4)
    · exact biasBest_ne h4
  · split
    · exact (niceOnly_sub.trans h5).trans startCands_sub
    · exact h5.trans startCands_sub

/-! ### The whole function -/

/-- The random numbers stay in their range. -/
def InRange {ρ : Type} (urandom : ρ → ℕ → ρ × ℕ) : Prop := ∀ r n, 0 < n → (urandom r n).2 < n

theorem pickAction_ok {ρ : Type} {opt : PickOpt} {zero : Option (ℕ → ℕ)} {urandom : ρ → ℕ → ρ × ℕ}
    (hu : InRange urandom) (rng : ρ) (level : ℕ) {insts : List MrvInst}
    (h0 : ∀ x ∈ insts, x.noPartial = false → 0 < x.sz → x.sets 0 = ∅)
    (hsub : opt.method ≠ .fullyRandom → ∀ x ∈ insts, x.noPartial = false → ∀ k < x.sz, x.sets k ≠ ∅ →
      ∃ t, x.sub k = some t ∧ t ≠ ∅ ∧ t ⊆ x.sets k)
    (hc : ∃ x ∈ insts, x.cands ≠ []) :
    ∃ a, (pickActionMRV opt zero urandom rng level insts).2 = .ok a ∧
      ((∃ x ∈ insts, a ∈ x.cands) ∨ 0 < mrvIdx insts) ∧
      (opt.method ≠ .fullyRandom → 0 < mrvIdx insts → ∃ x ∈ insts, TakesPart (mrvIdx insts) x ∧
        a ∈ x.sets (mrvIdx insts)) := by
  obtain ⟨x0, hx0, hfirst⟩ : ∃ x, insts.find? (fun x => !x.cands.isEmpty) = some x ∧ x.cands ≠ [] := by
    obtain ⟨x, hx, hne⟩ := hc
    rcases hf : insts.find? (fun x => !x.cands.isEmpty) with _ | y
    · have := List.find?_eq_none.1 hf x hx
      simp [hne] at this
    · have := List.find?_some hf
      exact ⟨y, hf, by simpa using this⟩
  have hmem := List.mem_of_find?_eq_some hx0
  unfold pickActionMRV
  simp only [hx0, Option.map_some, Option.getD_some]
  by_cases hm : opt.method = .fullyRandom
  · rw [if_pos hm]
    have := hu rng x0.cands.length (List.length_pos_of_ne_nil hfirst)
    rw [List.getElem?_eq_getElem this]
    exact ⟨_, rfl, .inl ⟨x0, hmem, List.getElem_mem _⟩, fun h => absurd hm h⟩
  rw [if_neg hm]
  have hL := mrvIdx_spec h0
  obtain ⟨c', e1, e2, -, e4⟩ := mrvChoose_spec (k := mrvIdx insts) insts ∅
    (fun x hx ht => hsub hm x hx ht.1 _ ht.2.1 ht.2.2)
  rw [e1]
  simp only
  obtain ⟨c1, hc1⟩ : ∃ c1, c1 = (if c' = ∅ then x0.cands.toFinset else c') := ⟨_, rfl⟩
  rw [← hc1]
  have hc1ne : c1 ≠ ∅ := by
    rw [hc1]; split
    · simpa using hfirst
    · assumption
  rw [if_neg hc1ne]
  have hprop : ∀ a ∈ c1, ((∃ x ∈ insts, a ∈ x.cands) ∨ 0 < mrvIdx insts) ∧
      (opt.method ≠ .fullyRandom → 0 < mrvIdx insts → ∃ x ∈ insts, TakesPart (mrvIdx insts) x ∧
        a ∈ x.sets (mrvIdx insts)) := by
    intro a ha
    by_cases he : c' = ∅
    · rw [hc1, if_pos he, List.mem_toFinset] at ha
      refine ⟨.inl ⟨x0, hmem, ha⟩, fun _ hpos => ?_⟩
      obtain ⟨x, hx, q1, q2, q3⟩ := hL.mem hpos
      exact absurd he (e4 x hx ⟨q1, q2, q3⟩).1
    · rw [hc1, if_neg he] at ha
      rcases e2 with e2 | ⟨x, hx, ht, hs⟩
      · exact absurd e2 he
      · obtain ⟨t, t1, t2, t3⟩ := hsub hm x hx ht.1 _ ht.2.1 ht.2.2
        rw [t1, Option.some.injEq] at hs
        subst hs
        refine ⟨.inr ?_, fun _ _ => ⟨x, hx, ht, t3 ha⟩⟩
        exact (hL.le x hx ht.1 _ ht.2.1 ht.2.2).1
  obtain ⟨c2, hc2⟩ : ∃ c2, c2 = zeroOnly zero c1 := ⟨_, rfl⟩
  rw [← hc2]
  have hc2s : c2 ⊆ c1 ∧ c2 ≠ ∅ := by
    rw [hc2]
    rcases zero with _ | f
    · exact ⟨Finset.Subset.refl _, hc1ne⟩
    · obtain ⟨z1, -, -, -, z5⟩ := zeroFold_spec f (arr c1) ∅ c1 (arr_nodup _)
      obtain ⟨a, ha⟩ := Finset.nonempty_iff_ne_empty.2 hc1ne
      obtain ⟨b, hb, -⟩ := z5 a ha (mem_arr.2 ha) (by rw [arr_toFinset]) (by simp)
      exact ⟨z1, Finset.ne_empty_of_mem hb⟩
  split
  · have hlen : 0 < (arr c2).length := List.length_pos_of_ne_nil fun h => hc2s.2 (arr_eq_nil.1 h)
    have := hu rng _ hlen
    rw [List.getElem?_eq_getElem this]
    exact ⟨_, rfl, hprop _ (hc2s.1 (mem_arr.1 (List.getElem_mem _)))⟩
  · obtain ⟨a, l, hl, hac, -⟩ := arr_head hc2s.2
    rw [hl]
    exact ⟨a, rfl, hprop _ (hc2s.1 hac)⟩

/-! ### In terms of the specification -/

theorem zeroOnly_exact (f : ℕ → ℕ) (c : Finset ℕ) : ∀ a, a ∈ zeroOnly (some f) c ↔
    a ∈ c ∧ ∀ b ∈ c, f b = f a → a ≤ b := by
  have key : ∀ (l : List ℕ) (T C : Finset ℕ), l.Pairwise (· < ·) → ∀ a,
      a ∈ (l.foldl (zeroStep f) (T, C)).2 ↔
        a ∈ C ∧ (a ∈ l → f a ∉ T ∧ ∀ b ∈ l, f b = f a → a ≤ b) := by
    intro l
    induction l with
    | nil => intro T C _ a; simp
    | cons x l ih =>
      intro T C hp a
      obtain ⟨hx, hl⟩ := List.pairwise_cons.1 hp
      have hxl : x ∉ l := fun h => absurd (hx x h) (lt_irrefl _)
      rw [List.foldl_cons]
      by_cases hT : f x ∈ T
      · have : zeroStep f (T, C) x = (T, C.erase x) := by simp [zeroStep, hT]
        rw [this, ih _ _ hl]
        by_cases hax : a = x
        · subst hax; simp [hT]
        · simp only [Finset.mem_erase, List.mem_cons, hax, false_or, ne_eq, not_false_eq_true, true_and,
            forall_eq_or_imp]
          constructor
          · rintro ⟨h1, h2⟩
            exact ⟨h1, fun ha => ⟨(h2 ha).1, fun he => absurd (he ▸ hT) (h2 ha).1, (h2 ha).2⟩⟩
          · rintro ⟨h1, h2⟩
            exact ⟨h1, fun ha => ⟨(h2 ha).1, (h2 ha).2.2⟩⟩
      · have : zeroStep f (T, C) x = (insert (f x) T, C) := by simp [zeroStep, hT]
        rw [this, ih _ _ hl]
        by_cases hax : a = x
        · subst hax
          simp only [hxl, false_imp_iff, and_true, List.mem_cons, true_or, true_imp_iff, forall_eq_or_imp, le_refl]
          refine ⟨fun h => ⟨h, hT, trivial, fun b hb _ => (hx b hb).le⟩, fun h => h.1⟩
        · simp only [Finset.mem_insert, List.mem_cons, hax, false_or, forall_eq_or_imp]
          constructor
          · rintro ⟨h1, h2⟩
            exact ⟨h1, fun ha => ⟨fun h => (h2 ha).1 (.inr h), fun he => absurd (.inl he.symm) (h2 ha).1, (h2 ha).2⟩⟩
          · rintro ⟨h1, h2⟩
            refine ⟨h1, fun ha => ⟨?_, (h2 ha).2.2⟩⟩
            rintro (he | hb)
            · have := (h2 ha).2.1 he.symm
              have := hx a ha
              omega
            · exact (h2 ha).1 hb
  intro a
  unfold zeroOnly
  simp only
  have hp : (arr c).Pairwise (· < ·) := by
    have h1 := arr_pairwise c
    have h2 : (arr c).Pairwise (· ≠ ·) := arr_nodup c
    exact (List.Pairwise.and h1 h2).imp fun h => lt_of_le_of_ne h.1 h.2
  rw [key _ _ _ hp]
  simp only [mem_arr, Finset.notMem_empty, not_false_eq_true, true_and]
  exact ⟨fun h => ⟨h.1, h.2 h.1⟩, fun h => ⟨h.1, fun _ => h.2⟩⟩

section
variable {pre : ℕ → Finset S} {C : Finset ℕ} {D : Finset S} {ds : DlSets S}

theorem ranking_dl (h : Ranking pre C D ds) {k : ℕ} (hk : k < ds.sz) {s : S} :
    s ∈ ds.dl k ↔ s ∈ D ∧ resolvedBy pre C s = k := by
  rw [resolvedBy, ← h.1 k s]
  exact ⟨fun hs => ⟨hk, hs⟩, fun hs => hs.2⟩

theorem ranking_atRank (h : Ranking pre C D ds) {k : ℕ} (hk : k < ds.sz) : ds.cands k = atRank pre C D k := by
  ext a
  rw [h.2 k hk, atRank, Finset.mem_filter]
  simp only [ranking_dl h hk]
  constructor
  · rintro ⟨h1, s, ⟨h2, h3⟩, h4⟩; exact ⟨h1, s, h2, h3, h4⟩
  · rintro ⟨h1, s, h2, h3, h4⟩; exact ⟨h1, s, ⟨h2, h3⟩, h4⟩

theorem ranking_lt (h : Ranking pre C D ds) {s : S} (hs : s ∈ D) : resolvedBy pre C s < ds.sz :=
  ((h.1 _ s).2 ⟨hs, rfl⟩).1

theorem resolvedBy_le (s : S) : resolvedBy pre C s ≤ C.card := Finset.card_filter_le _ _

theorem atRank_lt (h : Ranking pre C D ds) {k a : ℕ} (ha : a ∈ atRank pre C D k) :
    k < ds.sz ∧ k ≤ C.card ∧ 0 < k := by
  obtain ⟨h1, s, h2, rfl, h4⟩ := Finset.mem_filter.1 ha
  exact ⟨ranking_lt h h2, resolvedBy_le s, Finset.card_pos.2 ⟨a, Finset.mem_filter.2 ⟨h1, h4⟩⟩⟩

end

theorem greedySum_rankSum {I : PickInst S} {C : Finset ℕ} {D : Finset S}
    (h : Ranking (fun a => dom (I.xn a)) C D I.mcv) (k a : ℕ) :
    greedySum false I k a = rankSum (fun a => dom (I.xn a)) C D k a := by
  unfold greedySum rankSum greedyW
  simp only [Bool.false_eq_true, if_false]
  apply Finset.sum_congr _ fun _ _ => rfl
  ext j
  simp only [Finset.mem_filter, Finset.mem_range, Finset.mem_Icc]
  constructor
  · rintro ⟨h1, h2, h3⟩
    rw [ranking_atRank h h1] at h3
    exact ⟨⟨h2, (atRank_lt h h3).2.1⟩, h3⟩
  · rintro ⟨⟨h1, h2⟩, h3⟩
    have h4 := (atRank_lt h h3).1
    exact ⟨h4, h1, by rw [ranking_atRank h h4]; exact h3⟩

theorem greedySum_rivals {I : PickInst S} {C : Finset ℕ} {D : Finset S}
    (h : Ranking (fun a => dom (I.xn a)) C D I.mcv) {k a : ℕ} (ha : a ∈ C) :
    greedySum true I k a = rivals (fun a => dom (I.xn a)) C D k a := by
  unfold greedySum rivals greedyW
  simp only [if_true]
  have hempty : ∀ j, a ∉ atRank (fun a => dom (I.xn a)) C D j →
      (C.filter fun b => b ≠ a ∧ Together (fun a => dom (I.xn a)) C D j a b) = ∅ := by
    intro j hj
    rw [Finset.filter_eq_empty_iff]
    rintro b _ ⟨_, s, h1, h2, h3, _⟩
    exact hj (Finset.mem_filter.2 ⟨ha, s, h1, h2, h3⟩)
  rw [← Finset.sum_filter_of_ne (p := fun j => a ∈ atRank (fun a => dom (I.xn a)) C D j)
    (s := Finset.Icc k C.card) (fun j _ hne => by
      by_contra hj
      exact hne (by rw [hempty j hj]; rfl))]
  have hset : (Finset.range I.mcv.sz).filter (fun j => k ≤ j ∧ a ∈ I.mcv.cands j) =
      (Finset.Icc k C.card).filter (fun j => a ∈ atRank (fun a => dom (I.xn a)) C D j) := by
    ext j
    simp only [Finset.mem_filter, Finset.mem_range, Finset.mem_Icc]
    constructor
    · rintro ⟨h1, h2, h3⟩
      rw [ranking_atRank h h1] at h3
      exact ⟨⟨h2, (atRank_lt h h3).2.1⟩, h3⟩
    · rintro ⟨⟨h1, h2⟩, h3⟩
      have h4 := (atRank_lt h h3).1
      exact ⟨h4, h1, by rw [ranking_atRank h h4]; exact h3⟩
  rw [hset]
  apply Finset.sum_congr rfl
  intro j hj
  have hlt := (atRank_lt h (Finset.mem_filter.1 hj).2).1
  congr 1
  rw [ranking_atRank h hlt]
  ext b
  rw [Finset.mem_filter, Finset.mem_filter, atRank, Finset.mem_filter]
  simp only [Together, Finset.Nonempty, Finset.mem_inter, ranking_dl h hlt]
  constructor
  · rintro ⟨⟨h1, _⟩, h3, s, ⟨h4, h5⟩, h6, h7⟩; exact ⟨h1, h3, s, h4, h5, h6, h7⟩
  · rintro ⟨h1, h3, s, h4, h5, h6, h7⟩; exact ⟨⟨h1, s, h4, h5, h7⟩, h3, s, ⟨h4, h5⟩, h6, h7⟩

theorem lcvLeft_leftWith {I : PickInst S} {C : Finset ℕ} {D : Finset S}
    (h : Ranking (fun a => dom (I.xn a)) C D I.mcv) {a : ℕ} (ha : a ∈ C) :
    lcvLeft I a = leftWith (fun a => dom (I.xn a)) C D a := by
  obtain ⟨r, hr⟩ := C62_adds_complete (fun a => dom (I.xn a)) {a} I.mcv
  obtain ⟨h1, h2⟩ := C62_revise_partial _ C {a} ∅ D _ _ (Finset.singleton_subset_iff.2 ha) (by simp) (by simp) h hr
  have hC : (C \ {a}) \ ∅ = C.erase a := by rw [Finset.sdiff_empty, Finset.sdiff_singleton_eq_erase]
  have hD : (D.filter fun s => ∀ b ∈ ({a} : Finset ℕ), s ∉ dom (I.xn b)) = D.filter fun s => s ∉ dom (I.xn a) := by
    simp
  rw [hC, hD] at h2
  unfold lcvLeft leftWith
  rw [hr]
  simp only
  rw [← List.sum_toFinset _ (List.nodup_range.sublist (List.drop_sublist _ _))]
  have hset : ((List.range r.sz).drop 1).toFinset = (Finset.range r.sz).filter (fun j => 1 ≤ j) := by
    ext j
    rw [List.mem_toFinset, List.mem_drop_iff_getElem, Finset.mem_filter, Finset.mem_range]
    constructor
    · rintro ⟨i, h1, h2⟩
      simp only [List.getElem_range] at h2
      simp only [List.length_range] at h1
      omega
    · rintro ⟨h1, h2⟩
      exact ⟨j - 1, by simp; omega, by simp; omega⟩
  rw [hset]
  rw [← Finset.sum_filter_of_ne (p := fun j => j < r.sz) (s := Finset.Icc 1 C.card) (fun j _ hne => by
      obtain ⟨b, hb⟩ := Finset.card_pos.1 (Nat.pos_of_ne_zero hne)
      exact (atRank_lt h2 hb).1)]
  rw [← Finset.sum_filter_of_ne (p := fun j => j ≤ C.card) (s := (Finset.range r.sz).filter (fun j => 1 ≤ j))
    (fun j hj hne => by
      obtain ⟨b, hb⟩ := Finset.card_pos.1 (Nat.pos_of_ne_zero hne)
      rw [ranking_atRank h2 (Finset.mem_range.1 (Finset.mem_filter.1 hj).1)] at hb
      exact (atRank_lt h2 hb).2.1.trans (Finset.card_erase_le))]
  apply Finset.sum_congr
  · ext j
    simp only [Finset.mem_filter, Finset.mem_range, Finset.mem_Icc]
    omega
  · intro j hj
    rw [ranking_atRank h2]
    exact (Finset.mem_filter.1 hj).2

end Verif.Proofs
