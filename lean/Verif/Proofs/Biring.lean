import Verif.Model.Biring
import Mathlib.Logic.Relation
import Mathlib.Logic.Function.Iterate
import Mathlib.Data.Fintype.Powerset
import Mathlib.Data.Fintype.Pi
import Mathlib.Data.Fintype.EquivFin
import Mathlib.Data.Finset.Card
import Mathlib.Tactic.Tauto
import Mathlib.Tactic.Ring
import Mathlib.Tactic.Linarith
import Mathlib.Data.Fintype.Pigeonhole

/-!
Proofs about the checks of invariants of bidirectional rings.
-/

namespace Verif.Proofs
open Verif.Spec Verif.Model

/-! ### Walks -/

section
variable {d : ℕ} {S : Finset ℕ}

theorem biImg_iter_succ (a b n : ℕ) : b ∈ (biImg d S)^[n + 1] {a} ↔ ∃ c ∈ (biImg d S)^[n] {a}, b ∈ biConts d S c := by
  rw [Function.iterate_succ_apply']
  unfold biImg
  rw [Finset.mem_biUnion]

theorem biConts_sub {c : ℕ} : biConts d S c ⊆ S := Finset.inter_subset_right

theorem biImg_sub (P : Finset ℕ) : biImg d S P ⊆ S :=
  Finset.biUnion_subset.mpr fun _ _ => biConts_sub

theorem biImg_mono {P Q : Finset ℕ} (h : P ⊆ Q) : biImg d S P ⊆ biImg d S Q := Finset.biUnion_subset_biUnion_of_subset_left _ h

theorem biImg_iter_mono {P Q : Finset ℕ} (h : P ⊆ Q) (n : ℕ) : (biImg d S)^[n] P ⊆ (biImg d S)^[n] Q := by
  induction n with
  | zero => exact h
  | succ n ih => rw [Function.iterate_succ_apply', Function.iterate_succ_apply']; exact biImg_mono ih

theorem biImg_iter_sub {e : ℕ} (he : e ∈ S) (n : ℕ) : (biImg d S)^[n] {e} ⊆ S := by
  cases n with
  | zero => simpa using he
  | succ n => rw [Function.iterate_succ_apply']; exact biImg_sub _

theorem iter_walk (a : ℕ) : ∀ (n b : ℕ), b ∈ (biImg d S)^[n] {a} ↔
    ∃ w : ℕ → ℕ, w 0 = a ∧ w n = b ∧ ∀ i < n, w (i + 1) ∈ biConts d S (w i) := by
  intro n
  induction n with
  | zero =>
    intro b
    constructor
    · intro h
      exact ⟨fun _ => a, rfl, by simpa using (Finset.mem_singleton.mp h).symm, by simp⟩
    · rintro ⟨w, h0, h1, -⟩
      rw [← h1, h0]
      simp
  | succ n ih =>
    intro b
    rw [biImg_iter_succ]
    constructor
    · rintro ⟨c, hc, hb⟩
      obtain ⟨w, h0, h1, h2⟩ := (ih c).mp hc
      refine ⟨fun i => if i ≤ n then w i else b, by simpa using h0, by simp, fun i hi => ?_⟩
      by_cases hin : i + 1 ≤ n
      · simp only [hin, if_true, show i ≤ n by omega]
        exact h2 i (by omega)
      · have : i = n := by omega
        subst this
        simp only [hin, if_false, le_refl, if_true]
        rw [h1]
        exact hb
    · rintro ⟨w, h0, h1, h2⟩
      exact ⟨w n, (ih _).mpr ⟨w, h0, rfl, fun i hi => h2 i (by omega)⟩, by rw [← h1]; exact h2 n (by omega)⟩

theorem trans_iter (a b : ℕ) : Relation.TransGen (fun x y => y ∈ biConts d S x) a b ↔ ∃ n, 0 < n ∧ b ∈ (biImg d S)^[n] {a} := by
  constructor
  · intro h
    induction h with
    | single h => exact ⟨1, by omega, (biImg_iter_succ a _ 0).mpr ⟨a, by simp, h⟩⟩
    | tail _ h ih =>
      obtain ⟨n, _, hn⟩ := ih
      exact ⟨n + 1, by omega, (biImg_iter_succ a _ n).mpr ⟨_, hn, h⟩⟩
  · rintro ⟨n, hn, hb⟩
    induction n generalizing b with
    | zero => omega
    | succ n ih =>
      obtain ⟨c, hc, hbc⟩ := (biImg_iter_succ a b n).mp hb
      rcases Nat.eq_zero_or_pos n with rfl | hpos
      · rw [Function.iterate_zero, id_eq, Finset.mem_singleton] at hc
        rw [hc] at hbc
        exact .single hbc
      · exact (ih c hpos hc).tail hbc

/-! ### Rings -/

/-- Numbers of configurations. -/
structure BiCoded (d : ℕ) : Prop where
  dec : ∀ i < d * d * d, enumIdxOfPcConfig (pcConfigOfEnumIdx i d) d = i ∧
    (pcConfigOfEnumIdx i d).1 < d ∧ (pcConfigOfEnumIdx i d).2.1 < d ∧ (pcConfigOfEnumIdx i d).2.2 < d
  enc : ∀ a b c, a < d → b < d → c < d →
    pcConfigOfEnumIdx (enumIdxOfPcConfig (a, b, c) d) d = (a, b, c) ∧ enumIdxOfPcConfig (a, b, c) d < d * d * d

theorem next_iff (hd : BiCoded d) {i j : ℕ} (hi : i < d * d * d) : j ∈ biNext d i ↔ j < d * d * d ∧
    (pcConfigOfEnumIdx j d).1 = (pcConfigOfEnumIdx i d).2.1 ∧ (pcConfigOfEnumIdx j d).2.1 = (pcConfigOfEnumIdx i d).2.2 := by
  obtain ⟨-, -, h2, h3⟩ := hd.dec i hi
  unfold biNext
  simp only [Finset.mem_image, Finset.mem_range]
  constructor
  · rintro ⟨k, hk, rfl⟩
    obtain ⟨e1, e2⟩ := hd.enc _ _ k h2 h3 hk
    rw [e1]
    exact ⟨e2, rfl, rfl⟩
  · rintro ⟨hj, e1, e2⟩
    obtain ⟨q1, -, -, q4⟩ := hd.dec j hj
    refine ⟨_, q4, ?_⟩
    rw [← e1, ← e2]
    exact q1

theorem ring_iff (hd : BiCoded d) (hS : ∀ i ∈ S, i < d * d * d) {e n : ℕ} (he : e ∈ S) :
    (0 < n ∧ e ∈ (biImg d S)^[n] {e}) ↔
      BiRingAt d (fun c => enumIdxOfPcConfig c d ∈ S) n (pcConfigOfEnumIdx e d) := by
  constructor
  · rintro ⟨hn, h⟩
    obtain ⟨w, h0, h1, h2⟩ := (iter_walk e n e).mp h
    have hwS : ∀ i ≤ n, w i ∈ S := by
      intro i hi
      cases i with
      | zero => rw [h0]; exact he
      | succ i => exact biConts_sub (h2 i (by omega))
    have hu : ∀ i, w (i % n) ∈ S := fun i => hwS _ (Nat.mod_lt i hn).le
    have hstep : ∀ i, w ((i + 1) % n) ∈ biNext d (w (i % n)) := by
      intro i
      have hlt := Nat.mod_lt i hn
      have := h2 (i % n) hlt
      by_cases hl : i % n + 1 = n
      · have e1 : (i + 1) % n = 0 := by
          rw [← Nat.mod_add_mod, hl, Nat.mod_self]
        rw [hl, h1, ← h0] at this
        rw [e1]
        exact (Finset.mem_inter.mp this).1
      · have e1 : (i + 1) % n = i % n + 1 := by
          rw [← Nat.mod_add_mod]
          exact Nat.mod_eq_of_lt (by omega)
        rw [e1]
        exact (Finset.mem_inter.mp this).1
    have hA : ∀ i, (pcConfigOfEnumIdx (w (i % n)) d).2.1 = (pcConfigOfEnumIdx (w ((i + 1) % n)) d).1 := fun i =>
      ((next_iff hd (hS _ (hu i))).mp (hstep i)).2.1.symm
    have hB : ∀ i, (pcConfigOfEnumIdx (w (i % n)) d).2.2 = (pcConfigOfEnumIdx (w ((i + 2) % n)) d).1 := fun i => by
      rw [← hA (i + 1)]
      exact ((next_iff hd (hS _ (hu i))).mp (hstep i)).2.2.symm
    have hC : ∀ i, ((pcConfigOfEnumIdx (w (i % n)) d).1, (pcConfigOfEnumIdx (w ((i + 1) % n)) d).1,
        (pcConfigOfEnumIdx (w ((i + 2) % n)) d).1) = pcConfigOfEnumIdx (w (i % n)) d := fun i => by
      rw [← hA i, ← hB i]
    refine ⟨hn, fun i => (pcConfigOfEnumIdx (w (i % n)) d).1, fun i => by simp, fun i => (hd.dec _ (hS _ (hu i))).2.1,
      fun i => ?_, ?_⟩
    · show enumIdxOfPcConfig _ d ∈ S
      rw [hC i, (hd.dec _ (hS _ (hu i))).1]
      exact hu i
    · refine (hC 0).trans ?_
      rw [Nat.zero_mod, h0]
  · rintro ⟨hn, x, hper, hlt, hleg, hx⟩
    refine ⟨hn, (iter_walk e n e).mpr ⟨fun i => enumIdxOfPcConfig (x i, x (i + 1), x (i + 2)) d, ?_, ?_, ?_⟩⟩
    · show enumIdxOfPcConfig (x 0, x 1, x 2) d = e
      rw [hx]
      exact (hd.dec e (hS e he)).1
    · show enumIdxOfPcConfig (x n, x (n + 1), x (n + 2)) d = e
      have a0 := hper 0
      have a1 := hper 1
      have a2 := hper 2
      rw [Nat.add_comm] at a1 a2
      rw [Nat.zero_add] at a0
      rw [a0, a1, a2, hx]
      exact (hd.dec e (hS e he)).1
    · intro i _
      refine Finset.mem_inter.mpr ⟨?_, hleg (i + 1)⟩
      have q := hd.enc _ _ _ (hlt i) (hlt (i + 1)) (hlt (i + 2))
      have q' := hd.enc _ _ _ (hlt (i + 1)) (hlt (i + 2)) (hlt (i + 3))
      rw [next_iff hd q.2]
      show enumIdxOfPcConfig (x (i + 1), x (i + 2), x (i + 3)) d < _ ∧ _
      refine ⟨q'.2, ?_, ?_⟩
      · show (pcConfigOfEnumIdx (enumIdxOfPcConfig (x (i + 1), x (i + 2), x (i + 3)) d) d).1 = _
        rw [q'.1, q.1]
      · show (pcConfigOfEnumIdx (enumIdxOfPcConfig (x (i + 1), x (i + 2), x (i + 3)) d) d).2.1 = _
        rw [q'.1, q.1]

theorem biRing_iff (hd : BiCoded d) (hS : ∀ i ∈ S, i < d * d * d) {n : ℕ} :
    BiRing d (fun c => enumIdxOfPcConfig c d ∈ S) n ↔ 0 < n ∧ ∃ e ∈ S, e ∈ (biImg d S)^[n] {e} := by
  constructor
  · rintro ⟨c, h⟩
    have h' := h
    obtain ⟨hn, x, -, hlt, hleg, hx⟩ := h'
    have he := hleg 0
    have e0 : pcConfigOfEnumIdx (enumIdxOfPcConfig (x 0, x 1, x 2) d) d = c := by
      rw [← hx]; exact (hd.enc _ _ _ (hlt 0) (hlt 1) (hlt 2)).1
    exact ⟨hn, _, he, ((ring_iff hd hS he).mpr (by rw [e0]; exact h)).2⟩
  · rintro ⟨hn, e, he, h⟩
    exact ⟨_, (ring_iff hd hS he).mp ⟨hn, h⟩⟩

/-! ### The search for a cycle -/

theorem legitLoop_spec (e : ℕ) : ∀ (fuel : ℕ) (cache frontier : Finset ℕ) (idx : ℕ), idx ∈ frontier → frontier ⊆ cache →
    cache ⊆ insert e S → (∀ c ∈ cache, Relation.ReflTransGen (fun x y => y ∈ biConts d S x) e c) →
    (∀ c ∈ cache \ frontier, e ∉ biConts d S c ∧ biConts d S c ⊆ cache) → e ∈ cache →
    (insert e S).card < fuel + (cache \ frontier).card →
    ∃ b, biLegitLoop d S e fuel cache frontier idx = some b ∧
      (b = true ↔ Relation.TransGen (fun x y => y ∈ biConts d S x) e e) := by
  intro fuel
  induction fuel with
  | zero =>
    intro cache frontier idx hidx hfc hcS _ _ _ hf
    have h1 := Finset.card_le_card hcS
    have h2 := Finset.card_le_card (Finset.sdiff_subset (s := cache) (t := frontier))
    omega
  | succ fuel ih =>
    intro cache frontier idx hidx hfc hcS hreach hdone hec hf
    rw [biLegitLoop]
    simp only
    by_cases hce : e ∈ biConts d S idx
    · rw [if_pos hce]
      exact ⟨true, rfl, by simpa using Relation.TransGen.tail' (hreach idx (hfc hidx)) hce⟩
    rw [if_neg hce]
    have hnewmem : ∀ c, c ∈ (cache ∪ biConts d S idx) \ (frontier.erase idx ∪ (biConts d S idx \ cache)) ↔
        c ∈ cache \ frontier ∨ c = idx := by
      intro c
      have hi := hfc hidx
      by_cases hci : c = idx
      · subst hci
        simp [hi]
      · simp only [Finset.mem_sdiff, Finset.mem_union, Finset.mem_erase, hci, or_false]
        tauto
    have hdone' : ∀ c ∈ (cache ∪ biConts d S idx) \ (frontier.erase idx ∪ (biConts d S idx \ cache)),
        e ∉ biConts d S c ∧ biConts d S c ⊆ cache ∪ biConts d S idx := by
      intro c hc
      rcases (hnewmem c).mp hc with h | rfl
      · exact ⟨(hdone c h).1, (hdone c h).2.trans Finset.subset_union_left⟩
      · exact ⟨hce, Finset.subset_union_right⟩
    have hreach' : ∀ c ∈ cache ∪ biConts d S idx, Relation.ReflTransGen (fun x y => y ∈ biConts d S x) e c := by
      intro c hc
      rcases Finset.mem_union.mp hc with h | h
      · exact hreach c h
      · exact (hreach idx (hfc hidx)).tail h
    split
    · rename_i hne
      refine ih _ _ _ (Finset.min'_mem _ hne) ?_ ?_ hreach' hdone' (Finset.mem_union_left _ hec) ?_
      · intro c hc
        rcases Finset.mem_union.mp hc with h | h
        · exact Finset.mem_union_left _ (hfc (Finset.mem_of_mem_erase h))
        · exact Finset.mem_union_right _ (Finset.mem_sdiff.mp h).1
      · exact Finset.union_subset hcS (biConts_sub.trans (Finset.subset_insert _ _))
      · have : (cache ∪ biConts d S idx) \ (frontier.erase idx ∪ (biConts d S idx \ cache)) =
            insert idx (cache \ frontier) := by
          ext c
          rw [hnewmem, Finset.mem_insert, or_comm]
        rw [this, Finset.card_insert_of_notMem (fun h => (Finset.mem_sdiff.mp h).2 hidx)]
        omega
    · rename_i hne
      rw [Finset.not_nonempty_iff_eq_empty] at hne
      rw [hne, Finset.sdiff_empty] at hdone'
      refine ⟨false, rfl, ?_⟩
      simp only [Bool.false_eq_true, false_iff]
      intro ht
      have hcl : ∀ c, Relation.ReflTransGen (fun x y => y ∈ biConts d S x) e c → c ∈ cache ∪ biConts d S idx := by
        intro c hc
        induction hc with
        | refl => exact Finset.mem_union_left _ hec
        | tail _ h ih2 => exact (hdone' _ ih2).2 h
      obtain ⟨c, hc, hce'⟩ := Relation.TransGen.tail'_iff.mp ht
      exact (hdone' c (hcl c hc)).1 hce'

theorem biLegit_spec (d : ℕ) (S : Finset ℕ) (e : ℕ) : ∃ b, biLegit d S e = some b ∧
    (b = true ↔ Relation.TransGen (fun x y => y ∈ biConts d S x) e e) := by
  unfold biLegit
  refine legitLoop_spec e _ _ _ _ (by simp) (by simp) (by simp) ?_ (by simp) (by simp) ?_
  · intro c hc
    rw [Finset.mem_singleton.mp hc]
  · have := Finset.card_insert_le e S
    simp
    omega

/-! ### The configurations on cycles -/

theorem cycle_in {S T : Finset ℕ} (hTS : T ⊆ S)
    (hT : ∀ i ∈ S, Relation.TransGen (fun x y => y ∈ biConts d S x) i i → i ∈ T) (i : ℕ) :
    Relation.TransGen (fun x y => y ∈ biConts d T x) i i ↔ Relation.TransGen (fun x y => y ∈ biConts d S x) i i := by
  constructor
  · intro h
    refine Relation.TransGen.mono (fun x y (h : y ∈ biConts d T x) => ?_) _ _ h
    exact Finset.mem_inter.mpr ⟨(Finset.mem_inter.mp h).1, hTS (Finset.mem_inter.mp h).2⟩
  · have key : ∀ j, Relation.TransGen (fun x y => y ∈ biConts d S x) i j →
        Relation.ReflTransGen (fun x y => y ∈ biConts d S x) j i →
        Relation.TransGen (fun x y => y ∈ biConts d T x) i j := by
      intro j h
      induction h with
      | single h =>
        intro hb
        refine .single (Finset.mem_inter.mpr ⟨(Finset.mem_inter.mp h).1, hT _ (biConts_sub h) ?_⟩)
        exact Relation.TransGen.tail' hb h
      | tail h1 h2 ih =>
        intro hb
        refine (ih (Relation.ReflTransGen.head h2 hb)).tail
          (Finset.mem_inter.mpr ⟨(Finset.mem_inter.mp h2).1, hT _ (biConts_sub h2) ?_⟩)
        exact Relation.TransGen.trans_right hb (h1.tail h2)
    exact fun h => key i h .refl

theorem fixFold_spec (S0 : Finset ℕ) : ∀ (l : List ℕ) (S : Finset ℕ), S ⊆ S0 →
    (∀ i ∈ S0, Relation.TransGen (fun x y => y ∈ biConts d S0 x) i i → i ∈ S) →
    ∃ T, l.foldlM (biFixRound d) S = some T ∧ T ⊆ S ∧
      (∀ i ∈ S0, Relation.TransGen (fun x y => y ∈ biConts d S0 x) i i → i ∈ T) ∧
      ∀ i ∈ l, i ∈ T → Relation.TransGen (fun x y => y ∈ biConts d S0 x) i i := by
  intro l
  induction l with
  | nil => intro S _ h; exact ⟨S, rfl, subset_rfl, h, by simp⟩
  | cons i l ih =>
    intro S hS h
    obtain ⟨b, hb, hb'⟩ := biLegit_spec d S i
    rw [cycle_in hS h] at hb'
    have hround : ∃ S', biFixRound d S i = some S' ∧ S' ⊆ S ∧
        (∀ j ∈ S0, Relation.TransGen (fun x y => y ∈ biConts d S0 x) j j → j ∈ S') ∧
        (i ∈ S' → Relation.TransGen (fun x y => y ∈ biConts d S0 x) i i) := by
      unfold biFixRound
      by_cases hi : i ∈ S
      · rw [if_pos hi, hb]
        cases b with
        | true => exact ⟨S, rfl, subset_rfl, h, fun _ => hb'.mp rfl⟩
        | false =>
          refine ⟨S.erase i, rfl, Finset.erase_subset _ _, fun j hj hc => ?_, by simp⟩
          refine Finset.mem_erase.mpr ⟨?_, h j hj hc⟩
          rintro rfl
          exact absurd (hb'.mpr hc) (by simp)
      · rw [if_neg hi]
        exact ⟨S, rfl, subset_rfl, h, fun h' => absurd h' hi⟩
    obtain ⟨S', e1, e2, e3, e4⟩ := hround
    obtain ⟨T, t1, t2, t3, t4⟩ := ih S' (e2.trans hS) e3
    refine ⟨T, ?_, t2.trans e2, t3, ?_⟩
    · rw [List.foldlM_cons, e1]; exact t1
    · intro j hj hjT
      rcases List.mem_cons.mp hj with rfl | hj
      · exact e4 (t2 hjT)
      · exact t4 j hj hjT

theorem biFix_mem (d : ℕ) {S : Finset ℕ} (hS : ∀ i ∈ S, i < d * d * d) : ∃ T, biFix d S = some T ∧
    ∀ i, i ∈ T ↔ i ∈ S ∧ Relation.TransGen (fun x y => y ∈ biConts d S x) i i := by
  obtain ⟨T, h1, h2, h3, h4⟩ := fixFold_spec (d := d) S (List.range (d * d * d)) S subset_rfl (fun i hi _ => hi)
  exact ⟨T, h1, fun i => ⟨fun h => ⟨h2 h, h4 i (List.mem_range.mpr (hS i (h2 h))) h⟩, fun h => h3 i h.1 h.2⟩⟩

/-! ### Rings of all large sizes -/

/-- The images of the configurations repeat. -/
theorem iter_periodic (d : ℕ) (S : Finset ℕ) : ∃ m p, 0 < p ∧ ∀ e ∈ S, ∀ n ≥ m,
    (biImg d S)^[n + p] {e} = (biImg d S)^[n] {e} := by
  let g : ℕ → ({e // e ∈ S} → {T // T ∈ S.powerset}) := fun n e =>
    ⟨(biImg d S)^[n] {e.1}, Finset.mem_powerset.mpr (biImg_iter_sub e.2 n)⟩
  obtain ⟨a, b, hab, hg⟩ := Finite.exists_ne_map_eq_of_infinite g
  have key : ∀ a b, a < b → g a = g b → ∃ m p, 0 < p ∧ ∀ e ∈ S, ∀ n ≥ m,
      (biImg d S)^[n + p] {e} = (biImg d S)^[n] {e} := by
    intro a b hlt hg
    refine ⟨a, b - a, by omega, fun e he n hn => ?_⟩
    have h0 : (biImg d S)^[a] {e} = (biImg d S)^[b] {e} := congrArg Subtype.val (congrFun hg ⟨e, he⟩)
    have e1 : n + (b - a) = (n - a) + b := by omega
    have e2 : n = (n - a) + a := by omega
    rw [e1, Function.iterate_add_apply, ← h0, ← Function.iterate_add_apply, ← e2]
  rcases lt_or_gt_of_ne hab with h | h
  · exact key a b h hg
  · exact key b a h hg.symm

/-- All large sizes, and an image that stays the same and contains its origin. -/
theorem large_iff (d : ℕ) (S : Finset ℕ) : (∃ m, ∀ n ≥ m, 0 < n → ∃ e ∈ S, e ∈ (biImg d S)^[n] {e}) ↔
    ∃ e ∈ S, ∃ k, (biImg d S)^[k + 1] {e} = (biImg d S)^[k] {e} ∧ e ∈ (biImg d S)^[k] {e} := by
  constructor
  · rintro ⟨m, hm⟩
    obtain ⟨mu, p, hp, hper⟩ := iter_periodic d S
    have hperk : ∀ e ∈ S, ∀ n ≥ mu, ∀ k, (biImg d S)^[n + k * p] {e} = (biImg d S)^[n] {e} := by
      intro e he n hn k
      induction k with
      | zero => simp
      | succ k ih =>
        rw [← ih, ← hper e he (n + k * p) (by omega)]
        congr 1
        ring_nf
    obtain ⟨e, he, hmem⟩ := hm (1 + (m + mu) * p) (by nlinarith) (by omega)
    have hge : 1 + (m + mu) * p ≥ mu := by nlinarith
    have hstep : ∀ n ≥ mu, (biImg d S)^[n] {e} ⊆ (biImg d S)^[n + 1] {e} := by
      intro n hn
      have h1 : (biImg d S)^[n] {e} ⊆ (biImg d S)^[n] ((biImg d S)^[1 + (m + mu) * p] {e}) :=
        biImg_iter_mono (Finset.singleton_subset_iff.mpr hmem) n
      rw [← Function.iterate_add_apply, ← Nat.add_assoc, hperk e he (n + 1) (by omega)] at h1
      exact h1
    have hup : ∀ k, ∀ n ≥ mu, (biImg d S)^[n] {e} ⊆ (biImg d S)^[n + k] {e} := by
      intro k
      induction k with
      | zero => intro n _; exact subset_rfl
      | succ k ih => intro n hn; exact (ih n hn).trans (hstep (n + k) (by omega))
    refine ⟨e, he, 1 + (m + mu) * p, Finset.Subset.antisymm ?_ (hstep _ hge), hmem⟩
    have h2 := hup (p - 1) (1 + (m + mu) * p + 1) (by omega)
    have e1 : 1 + (m + mu) * p + 1 + (p - 1) = 1 + (m + mu) * p + p := by omega
    rw [e1, hper e he _ hge] at h2
    exact h2
  · rintro ⟨e, he, k, h1, h2⟩
    refine ⟨k, fun n hn _ => ⟨e, he, ?_⟩⟩
    obtain ⟨j, rfl⟩ := Nat.exists_eq_add_of_le hn
    have : ∀ j, (biImg d S)^[k + j] {e} = (biImg d S)^[k] {e} := by
      intro j
      induction j with
      | zero => rfl
      | succ j ih => rw [← Nat.add_assoc, Function.iterate_succ_apply', ih, ← Function.iterate_succ_apply' (biImg d S) k {e}, h1]
    rw [this]
    exact h2

/-! ### The loops of `true_biring_sat_ck` -/

/-- The image of `e` stays the same after `j` steps and contains `e`. -/
def BiStays (d : ℕ) (S : Finset ℕ) (e j : ℕ) : Prop :=
  (biImg d S)^[j + 1] {e} = (biImg d S)^[j] {e} ∧ e ∈ (biImg d S)^[j] {e}

theorem trueLoop_spec {e : ℕ} (he : e ∈ S) : ∀ (fuel k : ℕ) (visited : Finset (Finset ℕ)),
    visited = (Finset.range k).image (fun i => (biImg d S)^[i] {e}) → visited.card = k →
    (∀ j < k, ¬ BiStays d S e j) → 2 ^ S.card < fuel + k →
    ∃ r, biTrueLoop d S e fuel visited ((biImg d S)^[k] {e}) = some r ∧
      (∀ n, r = some n → ∃ j, n = j + 1 ∧ BiStays d S e j) ∧ (r = none → ∀ j, ¬ BiStays d S e j) := by
  intro fuel
  induction fuel with
  | zero =>
    intro k visited hv hk _ hf
    have : visited ⊆ S.powerset := by
      rw [hv]
      intro T hT
      obtain ⟨i, -, rfl⟩ := Finset.mem_image.mp hT
      exact Finset.mem_powerset.mpr (biImg_iter_sub he i)
    have := Finset.card_le_card this
    rw [Finset.card_powerset] at this
    omega
  | succ fuel ih =>
    intro k visited hv hk hno hf
    rw [biTrueLoop]
    by_cases hm : (biImg d S)^[k] {e} ∈ visited
    · rw [if_pos hm]
      refine ⟨none, rfl, by simp, fun _ => ?_⟩
      rw [hv] at hm
      obtain ⟨i, hi, hie⟩ := Finset.mem_image.mp hm
      rw [Finset.mem_range] at hi
      have hall : ∀ j, ∃ i < k, (biImg d S)^[j] {e} = (biImg d S)^[i] {e} := by
        intro j
        induction j with
        | zero => exact ⟨0, by omega, rfl⟩
        | succ j ihj =>
          obtain ⟨i', hi', e'⟩ := ihj
          rw [Function.iterate_succ_apply', e', ← Function.iterate_succ_apply' (biImg d S) i' {e}]
          by_cases hlt : i' + 1 < k
          · exact ⟨i' + 1, hlt, rfl⟩
          · have : i' + 1 = k := by omega
            exact ⟨i, hi, by rw [Nat.succ_eq_add_one, this]; exact hie.symm⟩
      intro j hj
      obtain ⟨i', hi', e'⟩ := hall j
      refine hno i' hi' ⟨?_, by rw [← e']; exact hj.2⟩
      rw [Function.iterate_succ_apply', ← e', ← Function.iterate_succ_apply' (biImg d S) j {e}]
      exact hj.1
    · rw [if_neg hm]
      simp only
      rw [← Function.iterate_succ_apply' (biImg d S) k {e}]
      have hcard : (insert ((biImg d S)^[k] {e}) visited).card = k + 1 := by
        rw [Finset.card_insert_of_notMem hm, hk]
      by_cases hg : BiStays d S e k
      · rw [if_pos ⟨by rw [Nat.succ_eq_add_one, hg.1]; exact hg.2, hg.1.symm⟩, hcard]
        exact ⟨some (k + 1), rfl, fun n hn => ⟨k, by cases hn; rfl, hg⟩, by simp⟩
      · rw [if_neg (fun h => hg ⟨h.2.symm, by rw [h.2]; exact h.1⟩)]
        refine ih (k + 1) _ ?_ hcard ?_ (by omega)
        · rw [hv, Finset.range_add_one, Finset.image_insert]
        · intro j hj
          rcases Nat.lt_succ_iff_lt_or_eq.mp hj with h | rfl
          · exact hno j h
          · exact hg

theorem trueOuter_spec : ∀ (l : List ℕ), (∀ e ∈ l, e ∈ S) → ∃ r, biTrueOuter d S l = some r ∧
    (∀ n, r = some n → ∃ e ∈ S, ∃ j, n = j + 1 ∧ BiStays d S e j) ∧
    (r = none → ∀ e ∈ l, ∀ j, ¬ BiStays d S e j) := by
  intro l
  induction l with
  | nil => intro _; exact ⟨none, rfl, by simp, by simp⟩
  | cons e l ih =>
    intro hl
    have he := hl e List.mem_cons_self
    obtain ⟨r, h1, h2, h3⟩ := trueLoop_spec (d := d) he (2 ^ S.card + 1) 0 ∅ (by simp) (by simp) (by simp) (by omega)
    rw [Function.iterate_zero, id_eq] at h1
    rw [biTrueOuter, h1]
    cases r with
    | some n =>
      obtain ⟨j, hj, hs⟩ := h2 n rfl
      exact ⟨some n, rfl, fun n' hn' => ⟨e, he, j, by cases hn'; exact hj, hs⟩, by simp⟩
    | none =>
      obtain ⟨r, q1, q2, q3⟩ := ih fun x hx => hl x (List.mem_cons_of_mem _ hx)
      refine ⟨r, q1, q2, fun hr x hx j => ?_⟩
      rcases List.mem_cons.mp hx with rfl | hx
      · exact h3 rfl j
      · exact q3 hr x hx j

theorem mem_biList (hS : ∀ i ∈ S, i < d * d * d) {e : ℕ} : e ∈ biList d S ↔ e ∈ S := by
  unfold biList
  simp only [List.mem_filter, List.mem_range, decide_eq_true_eq]
  exact ⟨fun h => h.2, fun h => ⟨hS e h, h⟩⟩

theorem descend_spec {n0 : ℕ} (h0 : 0 < n0) (sats : Finset ℕ) : ∀ n, biDescend n0 sats n ≤ n ∧
    (∀ s, biDescend n0 sats n < s → s ≤ n → s ∈ sats) ∧
    (biDescend n0 sats n < n0 ∨ biDescend n0 sats n ∉ sats) := by
  intro n
  induction n with
  | zero => exact ⟨le_refl _, fun s h1 h2 => by simp [biDescend] at h1; omega, Or.inl (by simpa [biDescend] using h0)⟩
  | succ n ih =>
    rw [biDescend]
    split
    · rename_i h
      refine ⟨by omega, fun s h1 h2 => ?_, ih.2.2⟩
      rcases Nat.lt_succ_iff_lt_or_eq.mp (Nat.lt_succ_of_le h2) with h3 | rfl
      · exact ih.2.1 s h1 (by omega)
      · exact h.2
    · rename_i h
      refine ⟨le_refl _, fun s h1 h2 => by omega, ?_⟩
      by_cases hn : n + 1 < n0
      · exact Or.inl hn
      · exact Or.inr fun hm => h ⟨by omega, hm⟩

theorem sizes_spec {n0 : ℕ} (h0 : 0 < n0) : ∀ (l : List ℕ) (sats : Finset ℕ) (n : ℕ), (∀ e ∈ l, e ∈ S) → n0 ≤ n →
    (∀ e ∈ S, e ∈ l ∨ ∀ s, 1 ≤ s → s ≤ n → e ∈ (biImg d S)^[s] {e} → s ∈ sats) → n ∉ sats →
    (∀ s ∈ sats, ∃ e ∈ S, e ∈ (biImg d S)^[s] {e}) → (∀ s, n < s → ∃ e ∈ S, e ∈ (biImg d S)^[s] {e}) →
    (biSizes d S n0 l sats n = true ↔ ∀ s ≥ n0, ∃ e ∈ S, e ∈ (biImg d S)^[s] {e}) := by
  intro l
  induction l with
  | nil =>
    intro sats n _ hn hcov hns _ _
    simp only [biSizes, Bool.false_eq_true, false_iff]
    intro hall
    obtain ⟨e, he, hm⟩ := hall n hn
    rcases hcov e he with h | h
    · simp at h
    · exact hns (h n (by omega) (le_refl _) hm)
  | cons e l ih =>
    intro sats n hl hn hcov hns hsat hup
    rw [biSizes]
    have he := hl e List.mem_cons_self
    obtain ⟨d1, d2, d3⟩ := descend_spec h0 (sats ∪ biSteps d S e n) n
    have hsat' : ∀ s ∈ sats ∪ biSteps d S e n, ∃ e ∈ S, e ∈ (biImg d S)^[s] {e} := by
      intro s hs
      rcases Finset.mem_union.mp hs with h | h
      · exact hsat s h
      · exact ⟨e, he, (Finset.mem_filter.mp h).2.2⟩
    have hup' : ∀ s, biDescend n0 (sats ∪ biSteps d S e n) n < s → ∃ e ∈ S, e ∈ (biImg d S)^[s] {e} := by
      intro s hs
      by_cases hsn : s ≤ n
      · exact hsat' s (d2 s hs hsn)
      · exact hup s (by omega)
    split
    · rename_i hlt
      simp only [true_iff]
      exact fun s hs => hup' s (by omega)
    · rename_i hlt
      refine ih _ _ (fun x hx => hl x (List.mem_cons_of_mem _ hx)) (by omega) ?_ (d3.resolve_left hlt) hsat' hup'
      intro x hx
      rcases hcov x hx with h | h
      · rcases List.mem_cons.mp h with rfl | h
        · refine Or.inr fun s h1 h2 h3 => Finset.mem_union_right _ ?_
          exact Finset.mem_filter.mpr ⟨Finset.mem_range.mpr (by omega), h1, h3⟩
        · exact Or.inl h
      · exact Or.inr fun s h1 h2 h3 => Finset.mem_union_left _ (h s h1 (by omega) h3)

theorem biSat_spec (d : ℕ) {S : Finset ℕ} (hS : ∀ i ∈ S, i < d * d * d) (n0 : ℕ) : ∃ b, biSat d S n0 = some b ∧
    (b = true ↔ (∃ m, ∀ n ≥ m, 0 < n → ∃ e ∈ S, e ∈ (biImg d S)^[n] {e}) ∧
      (0 < n0 → ∀ n ≥ n0, ∃ e ∈ S, e ∈ (biImg d S)^[n] {e})) := by
  obtain ⟨r, h1, h2, h3⟩ := trueOuter_spec (d := d) (S := S) (biList d S) fun e he => (mem_biList hS).mp he
  unfold biSat biTrue
  rw [h1, large_iff]
  cases r with
  | none =>
    refine ⟨false, rfl, ?_⟩
    simp only [Bool.false_eq_true, false_iff]
    rintro ⟨⟨e, he, k, hk⟩, -⟩
    exact h3 rfl e ((mem_biList hS).mpr he) k hk
  | some n =>
    obtain ⟨e, he, j, rfl, hs⟩ := h2 n rfl
    have hlarge : ∀ n, j < n → ∃ e ∈ S, e ∈ (biImg d S)^[n] {e} := by
      intro n hn
      refine ⟨e, he, ?_⟩
      obtain ⟨i, rfl⟩ := Nat.exists_eq_add_of_le hn.le
      have : ∀ i, (biImg d S)^[j + i] {e} = (biImg d S)^[j] {e} := by
        intro i
        induction i with
        | zero => rfl
        | succ i ih => rw [← Nat.add_assoc, Function.iterate_succ_apply', ih, ← Function.iterate_succ_apply' (biImg d S) j {e}, hs.1]
      rw [this]
      exact hs.2
    refine ⟨_, rfl, ?_⟩
    have hex : ∃ e ∈ S, ∃ k, (biImg d S)^[k + 1] {e} = (biImg d S)^[k] {e} ∧ e ∈ (biImg d S)^[k] {e} := ⟨e, he, j, hs⟩
    show (if n0 = 0 ∨ j < n0 then true else biSizes d S n0 (biList d S) ∅ j) = true ↔ _
    by_cases hc : n0 = 0 ∨ j < n0
    · rw [if_pos hc]
      simp only [true_iff]
      refine ⟨hex, fun h0 n hn => ?_⟩
      rcases hc with hc | hc
      · omega
      · exact hlarge n (by omega)
    · rw [if_neg hc]
      push Not at hc
      have h0 : 0 < n0 := by omega
      rw [sizes_spec h0 _ _ _ (fun e he => (mem_biList hS).mp he) (by omega)
        (fun e he => Or.inl ((mem_biList hS).mpr he)) (by simp) (by simp) hlarge]
      exact ⟨fun h => ⟨hex, fun _ => h⟩, fun h => h.2 h0⟩

end
end Verif.Proofs
