import Mathlib.Data.Finset.Card
import Mathlib.Data.Fintype.Card
import Verif.Model.Sym
import Verif.Spec.Trans
import Verif.Proofs.Loop

/-! Helper lemmas: reachability loops. -/

set_option linter.unusedSectionVars false

namespace Verif.Model
open Verif.Spec

universe u
variable {σ : Type u} [Fintype σ] [DecidableEq σ]

@[simp] theorem mem_pre {xn : Finset (σ × σ)} {p : Finset σ} {s : σ} :
    s ∈ pre xn p ↔ ∃ t ∈ p, (s, t) ∈ xn := by simp [pre]

@[simp] theorem mem_img {xn : Finset (σ × σ)} {p : Finset σ} {t : σ} :
    t ∈ img xn p ↔ ∃ s ∈ p, (s, t) ∈ xn := by simp [img]

@[simp] theorem mem_dom {xn : Finset (σ × σ)} {s : σ} : s ∈ dom xn ↔ ∃ t, (s, t) ∈ xn := by
  simp [dom]

@[simp] theorem mem_rng {xn : Finset (σ × σ)} {t : σ} : t ∈ rng xn ↔ ∃ s, (s, t) ∈ xn := by
  simp [rng]

@[simp] theorem mem_restr {xn : Finset (σ × σ)} {p : Finset σ} {e : σ × σ} :
    e ∈ restr xn p ↔ e ∈ xn ∧ e.1 ∈ p := by simp [restr]

@[simp] theorem mem_restrImg {xn : Finset (σ × σ)} {p : Finset σ} {e : σ × σ} :
    e ∈ restrImg xn p ↔ e ∈ xn ∧ e.2 ∈ p := by simp [restrImg]

theorem pre_mono {xn : Finset (σ × σ)} {p q : Finset σ} (h : p ⊆ q) : pre xn p ⊆ pre xn q := by
  intro s hs; simp only [mem_pre] at *; obtain ⟨t, ht, he⟩ := hs; exact ⟨t, h ht, he⟩

theorem img_mono {xn : Finset (σ × σ)} {p q : Finset σ} (h : p ⊆ q) : img xn p ⊆ img xn q := by
  intro s hs; simp only [mem_img] at *; obtain ⟨t, ht, he⟩ := hs; exact ⟨t, h ht, he⟩

/-- Invariant of the loop of `pre_reach`. -/
structure PreInv (xn : Finset (σ × σ)) (p : Finset σ) (st : Finset σ × Finset σ) : Prop where
  base : p ⊆ st.1
  disj : ∀ s ∈ st.2, s ∉ st.1
  front : pre xn st.1 ⊆ st.1 ∪ st.2
  sound : ∀ s ∈ st.1 ∪ st.2, ∃ t ∈ p, Reach xn s t

theorem preReach_total (xn : Finset (σ × σ)) (p : Finset σ) (fuel : ℕ)
    (hf : Fintype.card σ < fuel) :
    ∃ r, preReach fuel xn p = some r ∧ ∀ s, s ∈ r ↔ ∃ t ∈ p, Reach xn s t := by
  have key := loopFuel_total (body := preReachBody xn) (PreInv xn p)
    (fun r => p ⊆ r ∧ pre xn r ⊆ r ∧ ∀ s ∈ r, ∃ t ∈ p, Reach xn s t)
    (fun st => (st.1ᶜ).card) ?_ ?_ fuel (p, pre xn p \ p) ?_ ?_
  · obtain ⟨r, hr, hbase, hpre, hs⟩ := key
    refine ⟨r, hr, fun s => ⟨hs s, ?_⟩⟩
    rintro ⟨t, ht, hst⟩
    induction hst using Relation.ReflTransGen.head_induction_on with
    | refl => exact hbase ht
    | head h1 _ ih => exact hpre (mem_pre.2 ⟨_, ih, h1⟩)
  · intro st r hI hb
    unfold preReachBody at hb
    split at hb
    · next h =>
      cases hb
      refine ⟨hI.base, ?_, ?_⟩
      · have := hI.front; rwa [h, Finset.union_empty] at this
      · intro s hs; exact hI.sound s (Finset.mem_union_left _ hs)
    · cases hb
  · intro st st' hI hb
    unfold preReachBody at hb
    split at hb
    · cases hb
    · next h =>
      cases hb
      refine ⟨⟨?_, ?_, ?_, ?_⟩, ?_⟩
      · exact hI.base.trans Finset.subset_union_left
      · intro s hs; exact (Finset.mem_sdiff.1 hs).2
      · intro s hs
        simp only [mem_pre] at hs
        obtain ⟨t, ht, he⟩ := hs
        rcases Finset.mem_union.1 ht with ht | ht
        · exact Finset.mem_union_left _ (hI.front (mem_pre.2 ⟨t, ht, he⟩))
        · by_cases hv : s ∈ st.1 ∪ st.2
          · exact Finset.mem_union_left _ hv
          · exact Finset.mem_union_right _ (Finset.mem_sdiff.2 ⟨mem_pre.2 ⟨t, ht, he⟩, hv⟩)
      · intro s hs
        rcases Finset.mem_union.1 hs with hs | hs
        · exact hI.sound s hs
        · obtain ⟨t, ht, he⟩ := mem_pre.1 (Finset.mem_sdiff.1 hs).1
          obtain ⟨w, hw, hr⟩ := hI.sound t (Finset.mem_union_right _ ht)
          exact ⟨w, hw, Relation.ReflTransGen.head he hr⟩
      · apply Finset.card_lt_card
        rw [Finset.ssubset_iff_of_subset]
        · obtain ⟨x, hx⟩ := Finset.nonempty_iff_ne_empty.2 h
          refine ⟨x, ?_, ?_⟩
          · simpa using hI.disj x hx
          · simp [hx]
        · intro x hx; simp at hx ⊢; tauto
  · refine ⟨Finset.Subset.refl _, ?_, ?_, ?_⟩
    · intro s hs; exact (Finset.mem_sdiff.1 hs).2
    · intro s hs
      by_cases h : s ∈ p
      · exact Finset.mem_union_left _ h
      · exact Finset.mem_union_right _ (Finset.mem_sdiff.2 ⟨hs, h⟩)
    · intro s hs
      rcases Finset.mem_union.1 hs with hs | hs
      · exact ⟨s, hs, Relation.ReflTransGen.refl⟩
      · obtain ⟨t, ht, he⟩ := mem_pre.1 (Finset.mem_sdiff.1 hs).1
        exact ⟨t, ht, Relation.ReflTransGen.single he⟩
  · exact lt_of_le_of_lt (Finset.card_le_univ _) hf

/-- The reversed relation. -/
def rev (xn : Finset (σ × σ)) : Finset (σ × σ) := xn.image Prod.swap

theorem mem_rev {xn : Finset (σ × σ)} {s t : σ} : (s, t) ∈ rev xn ↔ (t, s) ∈ xn := by
  simp [rev]

theorem img_eq_pre_rev (xn : Finset (σ × σ)) (p : Finset σ) : img xn p = pre (rev xn) p := by
  ext s; simp [mem_rev]

theorem imgReach_eq_preReach_rev (fuel : ℕ) (xn : Finset (σ × σ)) (p : Finset σ) :
    imgReach fuel xn p = preReach fuel (rev xn) p := by
  have : imgReachBody xn = preReachBody (rev xn) := by
    funext st; unfold imgReachBody preReachBody; simp only [img_eq_pre_rev]
  unfold imgReach preReach
  rw [this, img_eq_pre_rev]

theorem reach_rev {xn : Finset (σ × σ)} {s t : σ} : Reach (rev xn) s t ↔ Reach xn t s := by
  have h : (Step (rev xn)) = Function.swap (Step xn) := by
    funext a b; simp [Step, Function.swap, mem_rev]
  unfold Reach
  rw [h, Relation.reflTransGen_swap]

theorem imgReach_total (xn : Finset (σ × σ)) (p : Finset σ) (fuel : ℕ)
    (hf : Fintype.card σ < fuel) :
    ∃ r, imgReach fuel xn p = some r ∧ ∀ t, t ∈ r ↔ ∃ s ∈ p, Reach xn s t := by
  rw [imgReach_eq_preReach_rev]
  obtain ⟨r, hr, h⟩ := preReach_total (rev xn) p fuel hf
  refine ⟨r, hr, fun t => ?_⟩
  rw [h t]
  simp only [reach_rev]

theorem closureWithin_total (xn : Finset (σ × σ)) (p : Finset σ) (fuel : ℕ)
    (hf : Fintype.card σ < fuel) :
    ∃ r, closureWithin fuel xn p = some r ∧ ∀ s, s ∈ r ↔ ∀ t, Reach xn s t → t ∈ p := by
  obtain ⟨r, hr, h⟩ := preReach_total xn pᶜ fuel hf
  refine ⟨p \ r, by simp [closureWithin, hr], fun s => ?_⟩
  rw [Finset.mem_sdiff, h s]
  constructor
  · rintro ⟨_, h2⟩ t hst
    by_contra htp
    exact h2 ⟨t, by simpa using htp, hst⟩
  · intro hall
    refine ⟨hall s Relation.ReflTransGen.refl, ?_⟩
    rintro ⟨t, ht, hst⟩
    exact (by simpa using ht : t ∉ p) (hall t hst)

end Verif.Model
