import Verif.Model.UniSynth
import Verif.Proofs.Loop
import Verif.Proofs.Ppg
import Verif.Spec.UniSynth
import Mathlib.Data.ZMod.Basic
import Mathlib.Algebra.BigOperators.Group.Finset.Basic
import Mathlib.Algebra.Order.BigOperators.Group.Finset
import Mathlib.Algebra.BigOperators.Pi
import Mathlib.Tactic.Ring

/-! Lemmas about the generator of unidirectional ring protocols. -/

set_option linter.unusedSectionVars false

namespace Verif.Proofs
open Verif.Model Verif.Spec

theorem live_cons {L : Finset (ℕ × ℕ)} {u v : ℕ} (h : (u, v) ∈ L) (hv : Live L v) : Live L u := by
  obtain ⟨w, h0, hw⟩ := hv
  refine ⟨fun t => Nat.casesOn t u w, rfl, fun t => ?_⟩
  cases t with
  | zero => simpa [h0] using h
  | succ t => exact hw t

theorem live_next {L : Finset (ℕ × ℕ)} {v : ℕ} (hv : Live L v) : ∃ u, (v, u) ∈ L ∧ Live L u := by
  obtain ⟨w, h0, hw⟩ := hv
  exact ⟨w 1, by rw [← h0]; exact hw 0, fun t => w (t + 1), rfl, fun t => hw (t + 1)⟩

/-! ### The consistency loop -/

section Prune
variable {M : ℕ} {L : Finset (ℕ × ℕ)}

/-- What every stage of the pruning keeps. -/
def PruneInv (L L' : Finset (ℕ × ℕ)) : Prop :=
  L' ⊆ L ∧ ∀ u v, (u, v) ∈ L → Live L v → (u, v) ∈ L'

theorem pruneRow_cases (st : Finset (ℕ × ℕ) × Bool) (i : ℕ) :
    (pruneRow M st i = st ∧ ((∃ j < M, (i, j) ∈ st.1) ∨ ∀ j < M, (j, i) ∉ st.1)) ∨
    (pruneRow M st i = (st.1.filter fun p => p.2 ≠ i, true) ∧ (∀ j < M, (i, j) ∉ st.1) ∧
      ∃ j < M, (j, i) ∈ st.1) := by
  unfold pruneRow
  by_cases h1 : (List.range M).any fun j => (i, j) ∈ st.1
  · rw [if_pos h1]
    left
    refine ⟨rfl, Or.inl ?_⟩
    simpa using h1
  · rw [if_neg h1]
    by_cases h2 : (List.range M).any fun j => (j, i) ∈ st.1
    · rw [if_pos h2]
      right
      refine ⟨rfl, ?_, by simpa using h2⟩
      simpa using h1
    · rw [if_neg h2]
      left
      refine ⟨rfl, Or.inr ?_⟩
      simpa using h2

theorem prune_fold (hr : ∀ p ∈ L, p.1 < M ∧ p.2 < M) (l : List ℕ) (st : Finset (ℕ × ℕ) × Bool)
    (hst : PruneInv L st.1) :
    PruneInv L (l.foldl (pruneRow M) st).1 ∧
    (st.2 = true → (l.foldl (pruneRow M) st).2 = true) ∧
    (l.foldl (pruneRow M) st).1 ⊆ st.1 ∧
    ((l.foldl (pruneRow M) st).2 = false → (l.foldl (pruneRow M) st).1 = st.1 ∧
      ∀ i ∈ l, (∃ j < M, (i, j) ∈ st.1) ∨ ∀ j < M, (j, i) ∉ st.1) ∧
    ((l.foldl (pruneRow M) st).2 = true →
      st.2 = true ∨ (l.foldl (pruneRow M) st).1.card < st.1.card) := by
  induction l generalizing st with
  | nil => exact ⟨hst, id, subset_rfl, fun _ => ⟨rfl, by simp⟩, fun h => Or.inl h⟩
  | cons i l ih =>
    rw [List.foldl_cons]
    rcases pruneRow_cases (M := M) st i with ⟨e, h⟩ | ⟨e, h1, h2⟩
    · rw [e]
      obtain ⟨i1, i2, i3, i4, i5⟩ := ih st hst
      refine ⟨i1, i2, i3, fun hf => ⟨(i4 hf).1, fun j hj => ?_⟩, i5⟩
      rcases List.mem_cons.1 hj with rfl | hj
      · exact h
      · exact (i4 hf).2 j hj
    · rw [e]
      have hsub : (st.1.filter fun p => p.2 ≠ i) ⊆ st.1 := Finset.filter_subset _ _
      have hinv : PruneInv L (st.1.filter fun p => p.2 ≠ i) := by
        refine ⟨hsub.trans hst.1, fun u v huv hv => ?_⟩
        rw [Finset.mem_filter]
        refine ⟨hst.2 u v huv hv, ?_⟩
        rintro rfl
        obtain ⟨w, hw, lw⟩ := live_next hv
        exact h1 w (hr _ hw).2 (hst.2 _ w hw lw)
      obtain ⟨i1, i2, i3, i4, i5⟩ := ih (st.1.filter fun p => p.2 ≠ i, true) hinv
      have ht := i2 rfl
      refine ⟨i1, fun _ => ht, i3.trans hsub, fun hf => ?_, fun _ => Or.inr ?_⟩
      · rw [ht] at hf; cases hf
      · refine lt_of_le_of_lt (Finset.card_le_card i3) (Finset.card_lt_card ?_)
        obtain ⟨j, -, hj⟩ := h2
        refine ⟨hsub, fun hc => ?_⟩
        have := hc hj
        rw [Finset.mem_filter] at this
        exact this.2 rfl

/-- The consistency loop ends with the edges into values that begin an endless walk. -/
theorem prune_spec (hr : ∀ p ∈ L, p.1 < M ∧ p.2 < M) (fuel : ℕ) (hf : M * M + 1 ≤ fuel) :
    ∃ L', loopFuel (pruneBody M) fuel L = some L' ∧
      ∀ u v, (u, v) ∈ L' ↔ (u, v) ∈ L ∧ Live L v := by
  have hcard : L.card ≤ M * M := by
    have : L ⊆ Finset.range M ×ˢ Finset.range M := by
      intro p hp
      have := hr p hp
      simp [Finset.mem_product, this]
    have := Finset.card_le_card this
    simpa using this
  apply loopFuel_total (PruneInv L)
    (fun L' => ∀ u v, (u, v) ∈ L' ↔ (u, v) ∈ L ∧ Live L v) (fun L' => L'.card)
  · intro a b ha hb
    obtain ⟨i1, -, -, i4, -⟩ := prune_fold hr (List.range M) (a, false) ha
    have hcase : ((List.range M).foldl (pruneRow M) (a, false)).2 = false ∧
        b = ((List.range M).foldl (pruneRow M) (a, false)).1 := by
      unfold pruneBody at hb
      by_cases h : ((List.range M).foldl (pruneRow M) (a, false)).2 = true
      · simp [h] at hb
      · simp only [h] at hb
        exact ⟨by simpa using h, (Sum.inl.inj hb).symm⟩
    obtain ⟨hfl, rfl⟩ := hcase
    obtain ⟨e, hout⟩ := i4 hfl
    rw [e]
    have out : ∀ u v, (u, v) ∈ a → ∃ w, (v, w) ∈ a := by
      intro u v huv
      have hm := hr _ (ha.1 huv)
      rcases hout v (List.mem_range.2 hm.2) with ⟨w, -, hw⟩ | h
      · exact ⟨w, hw⟩
      · exact absurd huv (h u hm.1)
    intro u v
    refine ⟨fun huv => ⟨ha.1 huv, ?_⟩, fun h => ha.2 u v h.1 h.2⟩
    have key : ∀ p : {p : ℕ × ℕ // p ∈ a}, ∃ q : {q : ℕ × ℕ // q ∈ a}, q.1.1 = p.1.2 := by
      rintro ⟨⟨x, y⟩, hp⟩
      obtain ⟨w, hw⟩ := out x y hp
      exact ⟨⟨(y, w), hw⟩, rfl⟩
    choose nxt hn using key
    let s : ℕ → {p : ℕ × ℕ // p ∈ a} := fun t => Nat.rec ⟨(u, v), huv⟩ (fun _ p => nxt p) t
    refine ⟨fun t => (s t).1.2, rfl, fun t => ?_⟩
    have h1 : (s (t + 1)).1.1 = (s t).1.2 := hn (s t)
    have h2 := ha.1 (s (t + 1)).2
    show ((s t).1.2, (s (t + 1)).1.2) ∈ L
    rw [← h1]
    exact h2
  · intro a a' ha hb
    obtain ⟨i1, -, -, -, i5⟩ := prune_fold hr (List.range M) (a, false) ha
    have hcase : ((List.range M).foldl (pruneRow M) (a, false)).2 = true ∧
        a' = ((List.range M).foldl (pruneRow M) (a, false)).1 := by
      unfold pruneBody at hb
      by_cases h : ((List.range M).foldl (pruneRow M) (a, false)).2 = true
      · simp only [h, if_true] at hb
        exact ⟨h, (Sum.inr.inj hb).symm⟩
      · simp [h] at hb
    obtain ⟨ht, rfl⟩ := hcase
    refine ⟨i1, ?_⟩
    rcases i5 ht with h | h
    · cases h
    · exact h
  · exact ⟨subset_rfl, fun u v h _ => h⟩
  · show L.card < fuel
    omega

end Prune

/-! ### The search -/

section Bfs
variable {M gamma : ℕ} {L : Finset (ℕ × ℕ)}

/-- Invariant of the search: `order` lists the values ever queued. -/
structure BfsInv (M gamma : ℕ) (L : Finset (ℕ × ℕ)) (order tau : List ℕ) : Prop where
  nodup : order.Nodup
  range : ∀ i ∈ order, i < M
  head : ∃ l, order = gamma :: l
  len : tau.length = M
  out : ∀ i < M, i ∉ order → tau.getD i 0 = i
  fix : tau.getD gamma 0 = gamma
  tree : ∀ i ∈ order, i ≠ gamma → tau.getD i 0 ∈ order ∧
    order.idxOf (tau.getD i 0) < order.idxOf i ∧ (i, tau.getD i 0) ∈ L

theorem bfsVisit_inv (j : ℕ) (done : List ℕ) (st : List ℕ × List ℕ) (i : ℕ) (hi : i < M)
    (hj : j ∈ done ++ st.1)
    (h : BfsInv M gamma L (done ++ st.1) st.2) :
    BfsInv M gamma L (done ++ (bfsVisit L gamma j st i).1) (bfsVisit L gamma j st i).2 ∧
    (∃ q, (bfsVisit L gamma j st i).1 = st.1 ++ q) ∧
    ((i, j) ∈ L → i ∈ done ++ (bfsVisit L gamma j st i).1) := by
  unfold bfsVisit
  by_cases hc : i ≠ gamma ∧ st.2.getD i 0 = i ∧ (i, j) ∈ L
  · rw [if_pos hc]
    obtain ⟨c1, c2, c3⟩ := hc
    have hni : i ∉ done ++ st.1 := by
      intro hm
      have := (h.tree i hm c1).2.1
      rw [c2] at this
      exact lt_irrefl _ this
    have hne : ∀ k ∈ done ++ st.1, i ≠ k := by
      rintro k hk rfl; exact hni hk
    have hget : ∀ k, k ≠ i → (st.2.set i j).getD k 0 = st.2.getD k 0 := by
      intro k hk
      simp [List.getD_eq_getElem?_getD, List.getElem?_set_ne (Ne.symm hk)]
    have hgi : (st.2.set i j).getD i 0 = j := by
      simp [List.getD_eq_getElem?_getD, h.len, hi]
    have hord : done ++ (st.1 ++ [i]) = (done ++ st.1) ++ [i] := by simp
    have hidx : ∀ k ∈ done ++ st.1, ((done ++ st.1) ++ [i]).idxOf k = (done ++ st.1).idxOf k :=
      fun k hk => List.idxOf_append_of_mem hk
    refine ⟨?_, ⟨[i], rfl⟩, fun _ => by simp⟩
    simp only [hord]
    refine ⟨?_, ?_, ?_, by simp [h.len], ?_, ?_, ?_⟩
    · rw [List.nodup_append]
      refine ⟨h.nodup, by simp, ?_⟩
      intro a ha b hb
      rw [List.mem_singleton] at hb
      subst hb
      exact (hne a ha).symm
    · intro k hk
      rcases List.mem_append.1 hk with hk | hk
      · exact h.range k hk
      · rw [List.mem_singleton] at hk; omega
    · obtain ⟨l, hl⟩ := h.head
      exact ⟨l ++ [i], by rw [hl]; rfl⟩
    · intro k hk hkn
      rw [List.mem_append, List.mem_singleton] at hkn
      push Not at hkn
      rw [hget k hkn.2]
      exact h.out k hk hkn.1
    · rw [hget gamma (Ne.symm c1)]; exact h.fix
    · intro k hk hkg
      rcases List.mem_append.1 hk with hk | hk
      · rw [hget k (hne k hk).symm]
        obtain ⟨t1, t2, t3⟩ := h.tree k hk hkg
        exact ⟨List.mem_append_left _ t1, by rw [hidx _ t1, hidx _ hk]; exact t2, t3⟩
      · rw [List.mem_singleton] at hk
        subst hk
        rw [hgi]
        refine ⟨List.mem_append_left _ hj, ?_, c3⟩
        rw [hidx j hj, List.idxOf_append_of_notMem hni]
        have := List.idxOf_lt_length_iff.2 hj
        omega
  · rw [if_neg hc]
    refine ⟨h, ⟨[], by simp⟩, fun hij => ?_⟩
    by_contra hn
    obtain ⟨l, hl⟩ := h.head
    refine hc ⟨?_, h.out i hi hn, hij⟩
    rintro rfl
    apply hn
    rw [hl]; simp

theorem bfs_fold (j : ℕ) (done : List ℕ) (l : List ℕ) (hl : ∀ i ∈ l, i < M)
    (st : List ℕ × List ℕ) (hj : j ∈ done) (h : BfsInv M gamma L (done ++ st.1) st.2) :
    BfsInv M gamma L (done ++ (l.foldl (bfsVisit L gamma j) st).1)
      (l.foldl (bfsVisit L gamma j) st).2 ∧
    (∃ q, (l.foldl (bfsVisit L gamma j) st).1 = st.1 ++ q) ∧
    ∀ i ∈ l, (i, j) ∈ L → i ∈ done ++ (l.foldl (bfsVisit L gamma j) st).1 := by
  induction l generalizing st with
  | nil => exact ⟨h, ⟨[], by simp⟩, by simp⟩
  | cons i l ih =>
    obtain ⟨h1, ⟨q1, e1⟩, h3⟩ := bfsVisit_inv j done st i (hl i (by simp))
      (List.mem_append_left _ hj) h
    obtain ⟨g1, ⟨q2, e2⟩, g3⟩ := ih (fun k hk => hl k (by simp [hk])) _ h1
    rw [List.foldl_cons]
    refine ⟨g1, ⟨q1 ++ q2, by rw [e2, e1, List.append_assoc]⟩, fun k hk hkj => ?_⟩
    rcases List.mem_cons.1 hk with rfl | hk
    · have := h3 hkj
      rw [e2]
      rw [List.mem_append] at this ⊢
      rcases this with h | h
      · exact Or.inl h
      · exact Or.inr (List.mem_append_left _ h)
    · exact g3 k hk hkj

/-- Result of the search. -/
theorem bfs_spec (hg : gamma < M) (fuel : ℕ) (hf : M + 1 ≤ fuel) :
    ∃ tau, loopFuel (bfsBody L M gamma) fuel ([gamma], List.range M) = some tau ∧
      ∃ order, BfsInv M gamma L order tau ∧
        ∀ j ∈ order, ∀ i < M, (i, j) ∈ L → i ∈ order := by
  have hrange : ∀ i < M, (List.range M).getD i 0 = i := by
    intro i hi
    simp [List.getD_eq_getElem?_getD, hi]
  refine loopFuel_ghost (body := bfsBody L M gamma)
    (fun (done : List ℕ) (st : List ℕ × List ℕ) => BfsInv M gamma L (done ++ st.1) st.2 ∧
      ∀ j ∈ done, ∀ i < M, (i, j) ∈ L → i ∈ done ++ st.1)
    (fun tau => ∃ order, BfsInv M gamma L order tau ∧
        ∀ j ∈ order, ∀ i < M, (i, j) ∈ L → i ∈ order)
    (fun done _ => M - done.length) ?_ ?_ fuel [] ([gamma], List.range M) ?_ (by simp; omega)
  · rintro done ⟨q, tau⟩ b ⟨h1, h2⟩ hb
    cases q with
    | cons j q => simp [bfsBody] at hb
    | nil =>
      simp only [bfsBody, Sum.inl.injEq] at hb
      subst hb
      simp only [List.append_nil] at h1 h2
      exact ⟨done, h1, h2⟩
  · rintro done ⟨q, tau⟩ a' ⟨h1, h2⟩ hb
    cases q with
    | nil => simp [bfsBody] at hb
    | cons j q =>
      simp only [bfsBody, Sum.inr.injEq] at hb
      have e : done ++ j :: q = (done ++ [j]) ++ q := by simp
      have h1' : BfsInv M gamma L ((done ++ [j]) ++ q) tau := by rw [← e]; exact h1
      obtain ⟨g1, ⟨q2, e2⟩, g3⟩ := bfs_fold (gamma := gamma) (L := L) j (done ++ [j])
        (List.range M) (fun i hi => List.mem_range.1 hi) (q, tau) (by simp) h1'
      rw [hb] at g1 e2 g3
      refine ⟨done ++ [j], ⟨g1, ?_⟩, ?_⟩
      · intro j' hj' i hi hij
        rcases List.mem_append.1 hj' with hj' | hj'
        · have := h2 j' hj' i hi hij
          rw [e] at this
          rw [e2, ← List.append_assoc]
          exact List.mem_append_left _ this
        · rw [List.mem_singleton] at hj'
          subst hj'
          exact g3 i (List.mem_range.2 hi) hij
      · have hsub : (done ++ [j]).length ≤ M := by
          have hnd : (done ++ [j]).Nodup := (List.nodup_append.1 h1'.nodup).1
          have hs : (done ++ [j]) ⊆ List.range M := by
            intro k hk
            exact List.mem_range.2 (h1'.range k (List.mem_append_left _ hk))
          have := (hnd.subperm hs).length_le
          simpa using this
        simp only [List.length_append, List.length_singleton] at hsub ⊢
        omega
  · refine ⟨⟨by simp, by simpa using hg, ⟨[], rfl⟩, by simp, fun i hi _ => hrange i hi,
      hrange gamma hg, ?_⟩, by simp⟩
    intro i hi hn
    simp at hi
    exact absurd hi hn

/-- The function `tau` after unreached values are sent to `gamma`. -/
structure TauOk (M gamma : ℕ) (L : Finset (ℕ × ℕ)) (tau : ℕ → ℕ) : Prop where
  range : ∀ v < M, tau v < M
  fix : tau gamma = gamma
  iter : ∀ v < M, tau^[M - 1] v = gamma
  reached : ∀ v < M, v ≠ gamma → Reach L v gamma → (v, tau v) ∈ L
  unreached : ∀ v < M, ¬ Reach L v gamma → tau v = gamma

theorem iterate_fix {f : ℕ → ℕ} {x : ℕ} (h : f x = x) (n : ℕ) : f^[n] x = x := by
  induction n with
  | zero => rfl
  | succ n ih => rw [Function.iterate_succ_apply, h, ih]

theorem tauOk (hr : ∀ p ∈ L, p.1 < M ∧ p.2 < M) (hg : gamma < M) (order tau : List ℕ)
    (h : BfsInv M gamma L order tau) (hc : ∀ j ∈ order, ∀ i < M, (i, j) ∈ L → i ∈ order) :
    TauOk M gamma L fun v => (closeTau tau M gamma).getD v 0 := by
  have hget : ∀ v < M, (closeTau tau M gamma).getD v 0 =
      if tau.getD v 0 = v then gamma else tau.getD v 0 := by
    intro v hv
    unfold closeTau
    rw [List.getD_eq_getElem?_getD, List.getElem?_map, List.getElem?_range hv]
    rfl
  obtain ⟨l, hl⟩ := h.head
  have hgo : gamma ∈ order := by rw [hl]; simp
  have hfix : (closeTau tau M gamma).getD gamma 0 = gamma := by
    rw [hget gamma hg, if_pos h.fix]
  have hin : ∀ v ∈ order, v ≠ gamma → (closeTau tau M gamma).getD v 0 = tau.getD v 0 := by
    intro v hv hn
    rw [hget v (h.range v hv), if_neg]
    intro he
    have := (h.tree v hv hn).2.1
    rw [he] at this
    exact lt_irrefl _ this
  have hout : ∀ v < M, v ∉ order → (closeTau tau M gamma).getD v 0 = gamma := by
    intro v hv hn
    rw [hget v hv, if_pos (h.out v hv hn)]
  have hreach : ∀ v, Reach L v gamma → v ∈ order := by
    intro v hv
    induction hv using Relation.ReflTransGen.head_induction_on with
    | refl => exact hgo
    | head hst _ ih => exact hc _ ih _ (hr _ hst).1 hst
  have hlen : order.length ≤ M := by
    have hs : order ⊆ List.range M := fun k hk => List.mem_range.2 (h.range k hk)
    have := (h.nodup.subperm hs).length_le
    simpa using this
  have hit : ∀ k, ∀ v ∈ order, order.idxOf v ≤ k →
      (fun v => (closeTau tau M gamma).getD v 0)^[k] v = gamma := by
    intro k
    induction k with
    | zero =>
      intro v hv hk
      have : order.idxOf v = 0 := by omega
      by_contra hne
      rw [hl] at this
      simp only [List.idxOf_cons] at this
      have hgv : (gamma == v) = false := by
        simp only [beq_eq_false_iff_ne]; exact fun e => hne e.symm
      rw [hgv] at this
      simp at this
    | succ k ih =>
      intro v hv hk
      rw [Function.iterate_succ_apply]
      by_cases hvg : v = gamma
      · subst hvg
        rw [hfix]
        exact iterate_fix hfix k
      · rw [hin v hv hvg]
        obtain ⟨t1, t2, -⟩ := h.tree v hv hvg
        exact ih _ t1 (by omega)
  refine ⟨fun v hv => ?_, hfix, fun v hv => ?_, fun v hv hn hrv => ?_, fun v hv hn => ?_⟩
  · by_cases hm : v ∈ order
    · by_cases hvg : v = gamma
      · subst hvg; simp only [hfix]; exact hg
      · simp only [hin v hm hvg]; exact h.range _ (h.tree v hm hvg).1
    · simp only [hout v hv hm]; exact hg
  · by_cases hm : v ∈ order
    · apply hit _ v hm
      have := List.idxOf_lt_length_iff.2 hm
      omega
    · have hne : v ≠ gamma := by rintro rfl; exact hm hgo
      obtain ⟨m, hm'⟩ : ∃ m, M - 1 = m + 1 := ⟨M - 2, by omega⟩
      rw [hm', Function.iterate_succ_apply, hout v hv hm]
      exact iterate_fix hfix m
  · have hm := hreach v hrv
    simp only [hin v hm hn]
    exact (h.tree v hm hn).2.2
  · have hm : v ∉ order := by
      intro hm
      apply hn
      have aux : ∀ k, ∀ v ∈ order, order.idxOf v ≤ k → Reach L v gamma := by
        intro k
        induction k with
        | zero =>
          intro v hv hk
          have := hit 0 v hv hk
          simp only [Function.iterate_zero, id] at this
          rw [this]
          exact Relation.ReflTransGen.refl
        | succ k ih =>
          intro v hv hk
          by_cases hvg : v = gamma
          · rw [hvg]; exact Relation.ReflTransGen.refl
          · obtain ⟨t1, t2, t3⟩ := h.tree v hv hvg
            exact Relation.ReflTransGen.head t3 (ih _ t1 (by omega))
      exact aux _ v hm le_rfl
    exact hout v hv hm

end Bfs

/-! ### Executions -/

section Exec
variable {M gamma n : ℕ} [NeZero n]

/-- After `k` actions in total every process acted at most `M - 1` times. -/
theorem exec_count {Lp : ℕ → ℕ → Prop} {tau : ℕ → ℕ} {f : ZMod n → ℕ → ℕ → ℕ → Prop}
    (hf : ∀ i a b c, f i a b c → ¬ Lp a b ∧ tau a ≠ b ∧ c = tau a)
    (hγ : Lp gamma gamma) (hfix : tau gamma = gamma) (hrange : ∀ v < M, tau v < M)
    (hit : ∀ v < M, tau^[M - 1] v = gamma)
    (e : ℕ → ZMod n → ℕ) (h0 : ∀ i, e 0 i < M) (k : ℕ)
    (he : ∀ t < k, RStep f (e t) (e (t + 1))) :
    ∃ cnt : ZMod n → ℕ, ∑ i, cnt i = k ∧ ∀ i, cnt i ≤ M - 1 ∧
      (∃ v < M, e k i = tau^[cnt i] v) ∧ cnt i ≤ cnt (i - 1) + 1 ∧
      (cnt i = cnt (i - 1) + 1 → e k i = tau (e k (i - 1))) := by
  induction k with
  | zero =>
    refine ⟨fun _ => 0, by simp, fun i => ⟨Nat.zero_le _, ⟨e 0 i, h0 i, rfl⟩, Nat.zero_le _, fun h => ?_⟩⟩
    simp at h
  | succ k ih =>
    obtain ⟨cnt, hsum, hinv⟩ := ih fun t ht => he t (by omega)
    obtain ⟨i, c, hfc, hy⟩ := he k (by omega)
    obtain ⟨f1, f2, f3⟩ := hf _ _ _ _ hfc
    have itr : ∀ m v, v < M → tau^[m] v < M := by
      intro m
      induction m with
      | zero => intro v hv; exact hv
      | succ m ih => intro v hv; rw [Function.iterate_succ_apply]; exact ih _ (hrange v hv)
    have big : ∀ m v, v < M → M - 1 ≤ m → tau^[m] v = gamma := by
      intro m v hv hm
      obtain ⟨q, rfl⟩ : ∃ q, m = q + (M - 1) := ⟨m - (M - 1), by omega⟩
      rw [Function.iterate_add_apply, hit v hv]
      exact iterate_fix hfix q
    obtain ⟨b1, ⟨v, hv, hxv⟩, b3, b4⟩ := hinv i
    obtain ⟨p1, ⟨u, hu, hxu⟩, p3, p4⟩ := hinv (i - 1)
    have hle : cnt i ≤ cnt (i - 1) := by
      by_contra hc
      exact f2 (b4 (by omega)).symm
    have hlt : cnt i + 1 ≤ M - 1 := by
      by_contra hc
      have e1 := big (cnt i) v hv (by omega)
      have e2 := big (cnt (i - 1)) u hu (by omega)
      rw [← hxv] at e1
      rw [← hxu] at e2
      rw [e1, e2] at f1
      exact f1 hγ
    refine ⟨Function.update cnt i (cnt i + 1), ?_, fun j => ?_⟩
    · rw [Finset.sum_update_of_mem (Finset.mem_univ i)]
      have := Finset.add_sum_erase Finset.univ cnt (Finset.mem_univ i)
      rw [Finset.sdiff_singleton_eq_erase]
      omega
    · rw [hy]
      by_cases hj : j = i
      · subst hj
        simp only [Function.update_self]
        refine ⟨hlt, ⟨tau^[cnt (j - 1) - cnt j] u, itr _ _ hu, ?_⟩, ?_, ?_⟩
        · rw [f3, hxu, ← Function.iterate_succ_apply' tau, ← Function.iterate_add_apply]
          congr 2
          omega
        · by_cases hj1 : j - 1 = j
          · rw [hj1, Function.update_self]; omega
          · rw [Function.update_of_ne hj1]; omega
        · intro h
          by_cases hj1 : j - 1 = j
          · rw [hj1, Function.update_self] at h; omega
          · rw [Function.update_of_ne hj1, f3]
      · obtain ⟨c1, c2, c3, c4⟩ := hinv j
        rw [Function.update_of_ne hj, Function.update_of_ne hj]
        refine ⟨c1, c2, ?_, ?_⟩
        · by_cases hj1 : j - 1 = i
          · rw [hj1, Function.update_self]; rw [hj1] at c3; omega
          · rw [Function.update_of_ne hj1]; exact c3
        · intro h
          by_cases hj1 : j - 1 = i
          · rw [hj1, Function.update_self] at h; rw [hj1] at c3; omega
          · rw [Function.update_of_ne hj1] at h ⊢; exact c4 h

end Exec

end Verif.Proofs
