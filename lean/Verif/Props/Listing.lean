import Verif.Model.Listing
import Verif.Proofs.Conflict
import Mathlib.Data.Fintype.Powerset

/-!
# Property C115: listings of states, of transitions and of the topology

`oputPfmla` is `Net::oput_pfmla` and `gvEdges` the edges of `oput_graphviz_file`, see Model/Listing.
-/

namespace Verif.Props
open Verif.Model

section
variable {S : Type} [Fintype S] [DecidableEq S]

theorem oput_pairs {pick : Finset S → Option S} (hpick : ∀ A : Finset S, A.Nonempty → ∃ s ∈ A, pick A = some s) (sgn : Int) :
    ∀ (fuel : ℕ) (pf : Finset (S × S)), pf.card < fuel → ∃ prs : List (S × S),
      oputPfmla pick sgn false fuel pf = some (prs.flatMap fun p => oputLines sgn p.1 p.2) ∧ (∀ p ∈ prs, p ∈ pf) ∧
      (sgn < 0 → (prs.map Prod.fst).Nodup ∧ ∀ p ∈ pf, p.1 ∈ prs.map Prod.fst) ∧
      (sgn > 0 → (prs.map Prod.snd).Nodup ∧ ∀ p ∈ pf, p.2 ∈ prs.map Prod.snd) ∧
      (sgn = 0 → prs.Nodup ∧ ∀ p ∈ pf, p ∈ prs) := by
  intro fuel
  induction fuel with
  | zero => intro pf h; omega
  | succ fuel ih =>
    intro pf hc
    unfold oputPfmla
    by_cases h0 : pf = ∅
    · subst h0
      exact ⟨[], by simp, by simp, by simp, by simp, by simp⟩
    · rw [if_neg h0]
      obtain ⟨⟨s0, t0⟩, hp0⟩ := Finset.nonempty_iff_ne_empty.mpr h0
      obtain ⟨s, hs, es⟩ := hpick (dom pf) ⟨s0, by simp only [dom, Finset.mem_filter, Finset.mem_univ, true_and]; exact ⟨t0, hp0⟩⟩
      have hs' : ∃ t, (s, t) ∈ pf := by simpa [dom] using hs
      obtain ⟨t1, ht1⟩ := hs'
      obtain ⟨t, ht, et⟩ := hpick (img pf {s}) ⟨t1, by simp [img, ht1]⟩
      have hst : (s, t) ∈ pf := by simpa [img] using ht
      have hsub : oputRest sgn pf s t ⊆ pf.erase (s, t) := by
        intro p hp
        unfold oputRest at hp
        split_ifs at hp with h1 h2
        · obtain ⟨g1, g2⟩ := Finset.mem_filter.mp hp
          exact Finset.mem_erase.mpr ⟨fun e => g2 (by rw [e]), g1⟩
        · obtain ⟨g1, g2⟩ := Finset.mem_filter.mp hp
          exact Finset.mem_erase.mpr ⟨fun e => g2 (by rw [e]), g1⟩
        · exact hp
      have hcard := (Finset.card_le_card hsub).trans_lt (Finset.card_erase_lt_of_mem hst)
      obtain ⟨prs, r1, r2, r3, r4, r5⟩ := ih (oputRest sgn pf s t) (by omega)
      have hin : ∀ p ∈ oputRest sgn pf s t, p ∈ pf := fun p hp => Finset.mem_of_mem_erase (hsub hp)
      refine ⟨(s, t) :: prs, ?_, ?_, fun hg => ?_, fun hg => ?_, fun hg => ?_⟩
      · rw [es, Option.bind_some, et, Option.bind_some, if_neg (by simp), r1]
        rfl
      · intro p hp
        rcases List.mem_cons.mp hp with rfl | hp
        · exact hst
        · exact hin p (r2 p hp)
      · have hr : oputRest sgn pf s t = pf.filter fun p => p.1 ≠ s := by unfold oputRest; rw [if_pos hg]
        rw [hr] at r2 r3
        obtain ⟨n1, n2⟩ := r3 hg
        refine ⟨?_, fun p hp => ?_⟩
        · rw [List.map_cons, List.nodup_cons]
          refine ⟨fun hm => ?_, n1⟩
          obtain ⟨p, hp, e⟩ := List.mem_map.mp hm
          exact (Finset.mem_filter.mp (r2 p hp)).2 e
        · rw [List.map_cons, List.mem_cons]
          by_cases e : p.1 = s
          · exact Or.inl e
          · exact Or.inr (n2 p (Finset.mem_filter.mpr ⟨hp, e⟩))
      · have hr : oputRest sgn pf s t = pf.filter fun p => p.2 ≠ t := by
          unfold oputRest; rw [if_neg (by omega), if_pos hg]
        rw [hr] at r2 r4
        obtain ⟨n1, n2⟩ := r4 hg
        refine ⟨?_, fun p hp => ?_⟩
        · rw [List.map_cons, List.nodup_cons]
          refine ⟨fun hm => ?_, n1⟩
          obtain ⟨p, hp, e⟩ := List.mem_map.mp hm
          exact (Finset.mem_filter.mp (r2 p hp)).2 e
        · rw [List.map_cons, List.mem_cons]
          by_cases e : p.2 = t
          · exact Or.inl e
          · exact Or.inr (n2 p (Finset.mem_filter.mpr ⟨hp, e⟩))
      · have hr : oputRest sgn pf s t = pf.erase (s, t) := by
          unfold oputRest; rw [if_neg (by omega), if_neg (by omega)]
        rw [hr] at r2 r5
        obtain ⟨n1, n2⟩ := r5 hg
        refine ⟨List.nodup_cons.mpr ⟨fun hm => Finset.notMem_erase _ _ (r2 _ hm), n1⟩, fun p hp => ?_⟩
        by_cases e : p = (s, t)
        · rw [e]; exact List.mem_cons_self
        · exact List.mem_cons_of_mem _ (n2 p (Finset.mem_erase.mpr ⟨e, hp⟩))

/-- **C115, transitions.**  `oput_all_xn` ends and writes every transition of the formula exactly once, as a line with its
first and a line with its second state. -/
theorem C115_all_xn {pick : Finset S → Option S} (hpick : ∀ A : Finset S, A.Nonempty → ∃ s ∈ A, pick A = some s)
    (pf : Finset (S × S)) : ∃ l : List (S × S), oputAllXn pick pf = some (l.flatMap fun p => [(false, p.1), (true, p.2)]) ∧
      l.Nodup ∧ ∀ p, p ∈ l ↔ p ∈ pf := by
  obtain ⟨l, h1, h2, -, -, h5⟩ := oput_pairs hpick 0 (pf.card + 1) pf (by omega)
  exact ⟨l, h1, (h5 rfl).1, fun p => ⟨h2 p, (h5 rfl).2 p⟩⟩

/-- **C115, states.**  `oput_all_pf` ends and writes every state of the formula exactly once. -/
theorem C115_all_pf {pick : Finset S → Option S} (hpick : ∀ A : Finset S, A.Nonempty → ∃ s ∈ A, pick A = some s)
    (pf : Finset (S × S)) : ∃ l : List S, oputAllPf pick pf = some (l.map fun s => (false, s)) ∧ l.Nodup ∧
      ∀ s, s ∈ l ↔ ∃ t, (s, t) ∈ pf := by
  obtain ⟨l, h1, h2, h3, -, -⟩ := oput_pairs hpick (-1) (pf.card + 1) pf (by omega)
  obtain ⟨n1, n2⟩ := h3 (by omega)
  refine ⟨l.map Prod.fst, ?_, n1, fun s => ⟨fun hs => ?_, fun ⟨t, ht⟩ => n2 _ ht⟩⟩
  · unfold oputAllPf
    rw [h1]
    congr 1
    induction l with
    | nil => rfl
    | cons p l ih =>
      clear h1 h2 n1 n2 h3 ih
      induction l generalizing p with
      | nil => rfl
      | cons q l ih => rw [List.flatMap_cons, ih]; rfl
  · obtain ⟨p, hp, rfl⟩ := List.mem_map.mp hs
    exact ⟨p.2, h2 p hp⟩

/-- **C115, images.**  With the sign 1 every state that is reached by a transition is written exactly once. -/
theorem C115_all_img {pick : Finset S → Option S} (hpick : ∀ A : Finset S, A.Nonempty → ∃ s ∈ A, pick A = some s)
    (pf : Finset (S × S)) : ∃ l : List S, oputPfmla pick 1 false (pf.card + 1) pf = some (l.map fun s => (true, s)) ∧
      l.Nodup ∧ ∀ t, t ∈ l ↔ ∃ s, (s, t) ∈ pf := by
  obtain ⟨l, h1, h2, -, h4, -⟩ := oput_pairs hpick 1 (pf.card + 1) pf (by omega)
  obtain ⟨n1, n2⟩ := h4 (by omega)
  refine ⟨l.map Prod.snd, ?_, n1, fun s => ⟨fun hs => ?_, fun ⟨t, ht⟩ => n2 _ ht⟩⟩
  · rw [h1]
    clear h1 h2 n1 n2 h4
    congr 1
    induction l with
    | nil => rfl
    | cons q l ih => rw [List.flatMap_cons, ih]; rfl
  · obtain ⟨p, hp, rfl⟩ := List.mem_map.mp hs
    exact ⟨p.1, h2 p hp⟩

/-- **C115, one.**  `oput_one_xn` and `oput_one_pf` write nothing for a formula without states, otherwise one transition or
state of it. -/
theorem C115_one {pick : Finset S → Option S} (hpick : ∀ A : Finset S, A.Nonempty → ∃ s ∈ A, pick A = some s)
    (pf : Finset (S × S)) : (pf = ∅ → oputOneXn pick pf = some [] ∧ oputOnePf pick pf = some []) ∧
      (pf ≠ ∅ → ∃ s t, (s, t) ∈ pf ∧ oputOneXn pick pf = some [(false, s), (true, t)] ∧
        oputOnePf pick pf = some [(false, s)]) := by
  constructor
  · rintro rfl
    exact ⟨by simp [oputOneXn, oputPfmla], by simp [oputOnePf, oputPfmla]⟩
  · intro h0
    obtain ⟨⟨s0, t0⟩, hp0⟩ := Finset.nonempty_iff_ne_empty.mpr h0
    obtain ⟨s, hs, es⟩ := hpick (dom pf) ⟨s0, by simp only [dom, Finset.mem_filter, Finset.mem_univ, true_and]; exact ⟨t0, hp0⟩⟩
    have hs' : ∃ t, (s, t) ∈ pf := by simpa [dom] using hs
    obtain ⟨t1, ht1⟩ := hs'
    obtain ⟨t, ht, et⟩ := hpick (img pf {s}) ⟨t1, by simp [img, ht1]⟩
    refine ⟨s, t, by simpa [img] using ht, ?_, ?_⟩
    · simp [oputOneXn, oputPfmla, h0, es, et, oputLines]
    · simp [oputOnePf, oputPfmla, h0, es, et, oputLines]

end

/-- A case of C115: the listing of three transitions with a choice of the least state. -/
example : oputAllXn (S := Fin 3) (fun A => (List.finRange 3).find? (· ∈ A)) {(2, 1), (0, 1), (0, 2)} =
    some [(false, 0), (true, 1), (false, 0), (true, 2), (false, 2), (true, 1)] ∧
    oputAllPf (S := Fin 3) (fun A => (List.finRange 3).find? (· ∈ A)) {(2, 1), (0, 1), (0, 2)} =
    some [(false, 0), (false, 2)] ∧
    (∀ A : Finset (Fin 3), A.Nonempty → ∃ s ∈ A, (List.finRange 3).find? (· ∈ A) = some s) := by decide +kernel

/-! ### The topology -/

theorem mem_gvAdd {m : ℕ → Finset ℕ} {k i x y : ℕ} : y ∈ gvAdd m k i x ↔ y ∈ m x ∨ (x = k ∧ y = i) := by
  unfold gvAdd
  split_ifs with h
  · rw [Finset.mem_insert]; tauto
  · tauto

/-- A loop that only inserts. -/
theorem gv_fold {α : Type} (f : (ℕ → Finset ℕ) → α → ℕ → Finset ℕ) (P : α → ℕ → ℕ → Prop)
    (hf : ∀ m a x y, y ∈ f m a x ↔ y ∈ m x ∨ P a x y) : ∀ (l : List α) (m : ℕ → Finset ℕ) (x y : ℕ),
    y ∈ l.foldl f m x ↔ y ∈ m x ∨ ∃ a ∈ l, P a x y := by
  intro l
  induction l with
  | nil => simp
  | cons a l ih =>
    intro m x y
    rw [List.foldl_cons, ih, hf]
    simp only [List.mem_cons, exists_eq_or_imp, or_assoc]

theorem mem_zipIdx' {α : Type} {l : List α} {a : α} {i : ℕ} : (a, i) ∈ l.zipIdx ↔ l[i]? = some a := by
  rw [List.mem_zipIdx_iff_getElem?]

theorem mem_gvOwn {pcs : List GvPc} {v i : ℕ} : i ∈ gvOwn pcs v ↔ ∃ pc, pcs[i]? = some pc ∧ v ∈ pc.wvbls := by
  unfold gvOwn
  rw [gv_fold _ (fun p x y => x ∈ p.1.wvbls ∧ y = p.2) (fun m p x y => ?_)]
  · simp only [Finset.notMem_empty, false_or]
    constructor
    · rintro ⟨⟨pc, j⟩, hp, hv, rfl⟩
      exact ⟨pc, mem_zipIdx'.mp hp, hv⟩
    · rintro ⟨pc, hp, hv⟩
      exact ⟨(pc, i), mem_zipIdx'.mpr hp, hv, rfl⟩
  · rw [gv_fold _ (fun v x y => x = v ∧ y = p.2) (fun m v x y => mem_gvAdd)]
    refine or_congr_right ⟨?_, fun h => ⟨x, h.1, rfl, h.2⟩⟩
    rintro ⟨v, hv, rfl, h⟩
    exact ⟨hv, h⟩

/-- The process `i` writes a variable that the other process `j` reads. -/
def GvFeeds (pcs : List GvPc) (i j : ℕ) : Prop :=
  i ≠ j ∧ ∃ p q v, pcs[i]? = some p ∧ pcs[j]? = some q ∧ v ∈ p.wvbls ∧ v ∈ q.rvbls

theorem mem_gvRead {pcs : List GvPc} {i j : ℕ} : j ∈ gvRead pcs i ↔ GvFeeds pcs i j := by
  unfold gvRead
  rw [gv_fold _ (fun p x y => ∃ v ∈ p.1.rvbls, x ∈ gvOwn pcs v ∧ x ≠ p.2 ∧ y = p.2) (fun m p x y => ?_)]
  · simp only [Finset.notMem_empty, false_or]
    constructor
    · rintro ⟨⟨q, k⟩, hp, v, hv, ho, hne, rfl⟩
      obtain ⟨p, h1, h2⟩ := mem_gvOwn.mp ho
      exact ⟨hne, p, q, v, h1, mem_zipIdx'.mp hp, h2, hv⟩
    · rintro ⟨hne, p, q, v, h1, h2, h3, h4⟩
      exact ⟨(q, j), mem_zipIdx'.mpr h2, v, h4, mem_gvOwn.mpr ⟨p, h1, h3⟩, hne, rfl⟩
  · rw [gv_fold _ (fun v x y => x ∈ gvOwn pcs v ∧ x ≠ p.2 ∧ y = p.2) (fun m v x y => ?_)]
    rw [gv_fold _ (fun o x y => x = o ∧ x ≠ p.2 ∧ y = p.2) (fun m o x y => ?_)]
    · refine or_congr_right ⟨?_, fun h => ⟨x, mem_arr.mpr h.1, rfl, h.2⟩⟩
      rintro ⟨o, ho, rfl, h⟩
      exact ⟨mem_arr.mp ho, h⟩
    · split_ifs with h
      · rw [mem_gvAdd]
        refine or_congr_right ⟨fun g => ⟨g.1, by rw [g.1]; exact h, g.2⟩, fun g => ⟨g.1, g.2.2⟩⟩
      · refine ⟨Or.inl, fun g => g.resolve_right fun g => g.2.1 ?_⟩
        rw [g.1]
        exact not_not.mp h

/-- **C115, graphviz.**  There is a line for every process, and no edge is written twice.  Processes that write variables
of each other have one edge in both directions, from the one with the smaller number; otherwise there is an edge from `i`
to `j` if and only if `i` writes a variable that `j` reads. -/
theorem C115_graphviz (pcs : List GvPc) : (gvNodes pcs).length = pcs.length ∧
    (∀ (i : ℕ) (pc : GvPc), pcs[i]? = some pc → (gvNodes pcs)[i]? = some (i, pc.name)) ∧ (gvEdges pcs).Nodup ∧
    (∀ i j, (i, j, true) ∈ gvEdges pcs ↔ i < j ∧ GvFeeds pcs i j ∧ GvFeeds pcs j i) ∧
    ∀ i j, (i, j, false) ∈ gvEdges pcs ↔ GvFeeds pcs i j ∧ ¬ GvFeeds pcs j i := by
  have hlt : ∀ {i j}, GvFeeds pcs i j → i < pcs.length := by
    rintro i j ⟨-, p, q, v, h, -⟩
    exact (List.getElem?_eq_some_iff.mp h).1
  have hmem : ∀ i j b, (i, j, b) ∈ gvEdges pcs ↔ GvFeeds pcs i j ∧
      (i, j, b) ∈ (if i ∈ gvRead pcs j then (if i < j then [(i, j, true)] else []) else [(i, j, false)]) := by
    intro i j b
    unfold gvEdges
    simp only [List.mem_flatMap, List.mem_range, mem_arr, mem_gvRead]
    constructor
    · rintro ⟨i', hi', j', hj', h⟩
      have : i = i' ∧ j = j' := by
        split_ifs at h
        · simp only [List.mem_singleton, Prod.mk.injEq] at h; exact ⟨h.1, h.2.1⟩
        · simp at h
        · simp only [List.mem_singleton, Prod.mk.injEq] at h; exact ⟨h.1, h.2.1⟩
      obtain ⟨rfl, rfl⟩ := this
      exact ⟨hj', h⟩
    · rintro ⟨h1, h2⟩
      exact ⟨i, hlt h1, j, h1, h2⟩
  refine ⟨by simp [gvNodes], fun i pc h => by simp [gvNodes, h], ?_, fun i j => ?_, fun i j => ?_⟩
  · unfold gvEdges
    rw [List.nodup_flatMap]
    refine ⟨fun i _ => ?_, ?_⟩
    · rw [List.nodup_flatMap]
      refine ⟨fun j _ => by split_ifs <;> simp, ?_⟩
      refine (arr_nodup _).imp fun {j k} hjk => ?_
      rw [Function.onFun, List.disjoint_left]
      intro e h1 h2
      split_ifs at h1 h2 <;> simp_all
    · refine List.nodup_range.imp fun {i k} hik => ?_
      rw [Function.onFun, List.disjoint_left]
      intro e h1 h2
      obtain ⟨j, -, h1⟩ := List.mem_flatMap.mp h1
      obtain ⟨j', -, h2⟩ := List.mem_flatMap.mp h2
      split_ifs at h1 h2 <;> simp_all
  · rw [hmem]
    have := mem_gvRead (pcs := pcs) (i := j) (j := i)
    split_ifs with h1 h2 <;> simp_all
  · rw [hmem]
    have := mem_gvRead (pcs := pcs) (i := j) (j := i)
    split_ifs with h1 h2 <;> simp_all

/-- A case of C115: a chain of three processes; the first two read each other. -/
example : gvEdges [⟨"P[0]", [0], [0, 1]⟩, ⟨"P[1]", [1], [0, 1]⟩, ⟨"Q", [2], [1, 2]⟩] = [(0, 1, true), (1, 2, false)] := by
  decide +kernel

end Verif.Props
