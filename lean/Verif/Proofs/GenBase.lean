import Verif.Model.Generate
import Verif.Spec.Generate
import Verif.Props.UniId
import Verif.Proofs.Loop

/-! Identifiers, masks and the depth-first search of the generator. -/

set_option linter.unusedSectionVars false

namespace Verif.Proofs
open Verif.Model Verif.Spec

/-! ### Identifiers -/

theorem id3_lt {d a b c : ℕ} (ha : a < d) (hb : b < d) (hc : c < d) : id3 d a b c < d * d * d := by
  have h1 : a * d + b < d * d := by
    calc a * d + b < a * d + d := by omega
      _ = (a + 1) * d := by ring
      _ ≤ d * d := Nat.mul_le_mul_right d ha
  calc (a * d + b) * d + c < (a * d + b) * d + d := by omega
    _ = (a * d + b + 1) * d := by ring
    _ ≤ (d * d) * d := Nat.mul_le_mul_right d h1

theorem actOfId_id3 {d a b c : ℕ} (hd : d ≤ 256) (ha : a < d) (hb : b < d) (hc : c < d) :
    actOfId (id3 d a b c) d = (a, b, c) := by
  obtain ⟨i, h1, -, h2⟩ := (Props.C23_action_ids d (by omega) hd).1 a b c ha hb hc
  simp only [idOf3, ha, hb, hc, and_self, if_true, Option.some.injEq] at h1
  subst h1; exact h2

theorem id3_actOfId {d i : ℕ} (hd : d ≤ 256) (hi : i < d * d * d) :
    (actOfId i d).1 < d ∧ (actOfId i d).2.1 < d ∧ (actOfId i d).2.2 < d ∧
      id3 d (actOfId i d).1 (actOfId i d).2.1 (actOfId i d).2.2 = i := by
  have h0 : 0 < d := by rcases Nat.eq_zero_or_pos d with h | h <;> simp_all
  obtain ⟨h1, h2, h3, h4⟩ := (Props.C23_action_ids d h0 hd).2 i (by rw [show d ^ 3 = d * d * d by ring]; exact hi)
  refine ⟨h1, h2, h3, ?_⟩
  simp only [idOf3, h1, h2, h3, and_self, if_true, Option.some.injEq] at h4
  exact h4

theorem id3_inj {d a b c a' b' c' : ℕ} (hd : d ≤ 256) (ha : a < d) (hb : b < d) (hc : c < d) (ha' : a' < d)
    (hb' : b' < d) (hc' : c' < d) (h : id3 d a b c = id3 d a' b' c') : a = a' ∧ b = b' ∧ c = c' := by
  have h1 := actOfId_id3 hd ha hb hc
  rw [h, actOfId_id3 hd ha' hb' hc'] at h1
  simp only [Prod.mk.injEq] at h1
  exact ⟨h1.1.symm, h1.2.1.symm, h1.2.2.symm⟩

/-- Identifiers are ordered like the triples. -/
theorem id3_lt_iff {d a b c a' b' c' : ℕ} (hb : b < d) (hc : c < d) (hb' : b' < d) (hc' : c' < d) :
    id3 d a b c < id3 d a' b' c' ↔ a < a' ∨ (a = a' ∧ (b < b' ∨ (b = b' ∧ c < c'))) := by
  have aux : ∀ x y z w : ℕ, y < d → w < d → (x * d + y < z * d + w ↔ x < z ∨ (x = z ∧ y < w)) := by
    intro x y z w hy hw
    rcases Nat.lt_trichotomy x z with h | h | h
    · have : (x + 1) * d ≤ z * d := Nat.mul_le_mul_right d h
      rw [Nat.add_mul] at this
      constructor
      · intro; exact .inl h
      · intro; omega
    · subst h; simp
    · have : (z + 1) * d ≤ x * d := Nat.mul_le_mul_right d h
      rw [Nat.add_mul] at this
      constructor
      · intro; omega
      · intro; omega
  unfold id3
  rw [aux _ _ _ _ hc hc', aux _ _ _ _ hb hb']
  constructor
  · rintro (( h | ⟨rfl, h⟩) | ⟨h1, h⟩)
    · exact .inl h
    · exact .inr ⟨rfl, .inl h⟩
    · have : ¬ (a < a' ∨ (a = a' ∧ b < b')) := by rw [← aux _ _ _ _ hb hb']; omega
      have : ¬ (a' < a ∨ (a' = a ∧ b' < b)) := by rw [← aux _ _ _ _ hb' hb]; omega
      omega
  · rintro (h | ⟨rfl, h | ⟨rfl, h⟩⟩)
    · exact .inl (.inl h)
    · exact .inl (.inr ⟨rfl, h⟩)
    · exact .inr ⟨rfl, h⟩

theorem mem_eachAct {d i : ℕ} {s : Finset ℕ} : i ∈ eachAct d s ↔ i < d * d * d ∧ i ∈ s := by
  simp [eachAct]

theorem eachAct_sorted {d : ℕ} {s : Finset ℕ} : (eachAct d s).Pairwise (· < ·) :=
  List.Pairwise.filter _ List.pairwise_lt_range

/-! ### Masks -/

theorem mem_maskVals {d m x : ℕ} (hm : m ≤ d) : x ∈ maskVals d m ↔ x < d ∧ (m = d ∨ x = m) := by
  unfold maskVals
  simp only [List.mem_filter, List.mem_map, List.mem_range, decide_eq_true_eq]
  by_cases h : m = d
  · simp only [h, ne_eq, not_true, if_false]
    constructor
    · rintro ⟨-, h⟩; exact ⟨h, .inl trivial⟩
    · rintro ⟨h, -⟩; exact ⟨⟨x, h, by omega⟩, h⟩
  · simp only [h, ne_eq, not_false_eq_true, if_true, false_or]
    constructor
    · rintro ⟨⟨k, hk, rfl⟩, h2⟩
      refine ⟨h2, ?_⟩
      rcases Nat.eq_zero_or_pos k with rfl | hk
      · simp
      · have := Nat.mul_le_mul_right d hk; omega
    · rintro ⟨h1, rfl⟩; exact ⟨⟨0, by omega, by simp⟩, h1⟩

/-- The triple matches the mask. -/
def Matches (d : ℕ) (m x : ℕ × ℕ × ℕ) : Prop :=
  (m.1 = d ∨ x.1 = m.1) ∧ (m.2.1 = d ∨ x.2.1 = m.2.1) ∧ (m.2.2 = d ∨ x.2.2 = m.2.2)

/-- The triple is in range. -/
def InDom (d : ℕ) (x : ℕ × ℕ × ℕ) : Prop := x.1 < d ∧ x.2.1 < d ∧ x.2.2 < d

theorem mem_maskIds {d : ℕ} {m : UniAct} (h1 : m.1 ≤ d) (h2 : m.2.1 ≤ d) (h3 : m.2.2 ≤ d) {i : ℕ} :
    i ∈ maskIds d m ↔ ∃ a b c, InDom d (a, b, c) ∧ Matches d m (a, b, c) ∧ id3 d a b c = i := by
  simp only [maskIds, List.mem_flatMap, List.mem_map, mem_maskVals h1, mem_maskVals h2, mem_maskVals h3, InDom,
    Matches]
  constructor
  · rintro ⟨a, ha, b, hb, c, hc, h⟩; exact ⟨a, b, c, ⟨ha.1, hb.1, hc.1⟩, ⟨ha.2, hb.2, hc.2⟩, h⟩
  · rintro ⟨a, b, c, ⟨ha, hb, hc⟩, ⟨ha', hb', hc'⟩, h⟩
    exact ⟨a, ⟨ha, ha'⟩, b, ⟨hb, hb'⟩, c, ⟨hc, hc'⟩, h⟩

theorem mem_foldl_erase (l : List ℕ) (s : Finset ℕ) (i : ℕ) :
    i ∈ l.foldl (fun s i => s.erase i) s ↔ i ∈ s ∧ i ∉ l := by
  induction l generalizing s with
  | nil => simp
  | cons x l ih =>
    rw [List.foldl_cons, ih, Finset.mem_erase, List.mem_cons]
    tauto

theorem mem_subtractMask {d : ℕ} {m : UniAct} (h1 : m.1 ≤ d) (h2 : m.2.1 ≤ d) (h3 : m.2.2 ≤ d) (hd : d ≤ 256)
    {s : Finset ℕ} {x : UniAct} (hx : InDom d x) :
    id3 d x.1 x.2.1 x.2.2 ∈ subtractMask d s m ↔ id3 d x.1 x.2.1 x.2.2 ∈ s ∧ ¬ Matches d m x := by
  unfold subtractMask
  rw [mem_foldl_erase, mem_maskIds h1 h2 h3]
  refine and_congr_right fun _ => not_congr ⟨?_, fun h => ⟨_, _, _, hx, h, rfl⟩⟩
  rintro ⟨a, b, c, h, hm, e⟩
  obtain ⟨rfl, rfl, rfl⟩ := id3_inj hd h.1 h.2.1 h.2.2 hx.1 hx.2.1 hx.2.2 e
  exact hm

theorem subtractMask_subset {d : ℕ} {s : Finset ℕ} {m : UniAct} : subtractMask d s m ⊆ s := by
  intro i hi
  exact ((mem_foldl_erase _ _ _).1 hi).1

theorem maskOverlapCk_iff {d : ℕ} {m : UniAct} (h1 : m.1 ≤ d) (h2 : m.2.1 ≤ d) (h3 : m.2.2 ≤ d) {s : Finset ℕ} :
    maskOverlapCk d m s = true ↔ ∃ a b c, InDom d (a, b, c) ∧ Matches d m (a, b, c) ∧ id3 d a b c ∈ s := by
  simp only [maskOverlapCk, List.any_eq_true, mem_maskIds h1 h2 h3, decide_eq_true_eq]
  constructor
  · rintro ⟨i, ⟨a, b, c, h, hm, rfl⟩, hi⟩; exact ⟨a, b, c, h, hm, hi⟩
  · rintro ⟨a, b, c, h, hm, hi⟩; exact ⟨_, ⟨a, b, c, h, hm, rfl⟩, hi⟩

theorem trimCoexist_subset {d : ℕ} {nw : Bool} {s : Finset ℕ} {i : ℕ} : trimCoexist d nw s i ⊆ s := by
  intro x hx
  unfold trimCoexist at hx
  have h := @subtractMask_subset d
  cases nw <;> simp only [Bool.not_true, Bool.not_false, if_true, if_false, Bool.false_eq_true] at hx
  all_goals
    repeat (first | exact hx | replace hx := h hx | split at hx)

theorem mem_trimCoexist {d : ℕ} (hd : d ≤ 256) {nw : Bool} {s : Finset ℕ} {x y : UniAct} (hx : InDom d x)
    (hy : InDom d y) :
    id3 d y.1 y.2.1 y.2.2 ∈ trimCoexist d nw s (id3 d x.1 x.2.1 x.2.2) ↔
      id3 d y.1 y.2.1 y.2.2 ∈ s ∧ ¬ Exclude nw x y := by
  obtain ⟨a, b, c⟩ := x
  obtain ⟨a', b', c'⟩ := y
  obtain ⟨ha, hb, hc⟩ := hx
  simp only at ha hb hc
  have ne : a ≠ d ∧ b ≠ d ∧ c ≠ d := by omega
  have M : ∀ (p q r : ℕ) (t : Finset ℕ), p ≤ d → q ≤ d → r ≤ d →
      (id3 d a' b' c' ∈ subtractMask d t (p, q, r) ↔ id3 d a' b' c' ∈ t ∧
        ¬ ((p = d ∨ a' = p) ∧ (q = d ∨ b' = q) ∧ (r = d ∨ c' = r))) :=
    fun p q r t h1 h2 h3 => mem_subtractMask (s := t) h1 h2 h3 hd hy
  have I : ∀ (p : Prop) [Decidable p] (m : UniAct) (t : Finset ℕ),
      (id3 d a' b' c' ∈ (if p then subtractMask d t m else t) ↔ id3 d a' b' c' ∈ t ∧
        ¬ (p ∧ id3 d a' b' c' ∉ subtractMask d t m)) := by
    intro p _ m t
    have := @subtractMask_subset d t m (id3 d a' b' c')
    by_cases h : p
    · simp only [h, if_true, true_and, not_not]; exact ⟨fun h => ⟨this h, h⟩, And.right⟩
    · simp [h]
  have A : ∀ p q r : Prop, (p ∧ ¬ (q ∧ ¬ (p ∧ ¬ r)) ↔ p ∧ ¬ (q ∧ r)) := by
    intro p q r; by_cases p <;> by_cases q <;> by_cases r <;> simp_all
  unfold trimCoexist
  simp only [actOfId_id3 hd ha hb hc]
  cases nw
  all_goals
    simp only [Bool.not_true, Bool.not_false, if_true, if_false, Bool.false_eq_true]
    simp only [M c c a _ hc.le hc.le ha.le, M b a b _ hb.le ha.le hb.le, M a b d _ ha.le hb.le le_rfl,
      M a c d _ ha.le hc.le le_rfl, M a d b _ ha.le le_rfl hb.le, M c b d _ hc.le hb.le le_rfl,
      M d b a _ le_rfl hb.le ha.le, I, A, ne.1, ne.2.1, ne.2.2, false_or, true_or, and_true, true_and]
    simp only [Exclude, not_or, and_assoc, Bool.false_eq_true, false_and, not_false_eq_true, true_and, and_or_left,
      and_true]
    refine and_congr_right fun _ => ?_
  · constructor
    · rintro ⟨h1, h2, h3, h4, h5⟩; exact ⟨h3, h4, h5, h1, h2⟩
    · rintro ⟨h3, h4, h5, h1, h2⟩; exact ⟨h1, h2, h3, h4, h5⟩
  · constructor
    · rintro ⟨h1, h2, h3, h4, h5, h6, h7⟩; exact ⟨h3, h4, h5, h1, h2, fun h => h6 ⟨h.2, h.1⟩, h7⟩
    · rintro ⟨h3, h4, h5, h1, h2, h6, h7⟩; exact ⟨h1, h2, h3, h4, h5, fun h => h6 ⟨h.2, h.1⟩, h7⟩

end Verif.Proofs
