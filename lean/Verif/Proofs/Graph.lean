import Verif.Model.Graph
import Verif.Proofs.Cycle
import Verif.Proofs.Fmlae

/-! Helper lemmas: undirected reachability and transitive closures. -/

set_option linter.unusedSectionVars false

namespace Verif.Model
open Verif.Spec

universe u
variable {σ : Type u} [Fintype σ] [DecidableEq σ]

/-- Both directions of a relation. -/
def both (xn : Finset (σ × σ)) : Finset (σ × σ) := xn ∪ rev xn

theorem mem_both {xn : Finset (σ × σ)} {s t : σ} : (s, t) ∈ both xn ↔ (s, t) ∈ xn ∨ (t, s) ∈ xn := by
  simp [both, mem_rev]

theorem undir_eq (fuel : ℕ) (xn : Finset (σ × σ)) (p : Finset σ) : undirReach fuel xn p = preReach fuel (both xn) p := by
  have h : ∀ q, pre xn q ∪ img xn q = pre (both xn) q := by
    intro q; ext s; simp only [Finset.mem_union, mem_pre, mem_img, mem_both]
    constructor
    · rintro (⟨t, h1, h2⟩ | ⟨t, h1, h2⟩)
      · exact ⟨t, h1, .inl h2⟩
      · exact ⟨t, h1, .inr h2⟩
    · rintro ⟨t, h1, h2 | h2⟩
      · exact .inl ⟨t, h1, h2⟩
      · exact .inr ⟨t, h1, h2⟩
  have : undirBody xn = preReachBody (both xn) := by
    funext st; unfold undirBody preReachBody; simp only [h]
  unfold undirReach preReach
  rw [this, h]

@[simp] theorem mem_dotjoin {a b : Finset (σ × σ)} {s t : σ} :
    (s, t) ∈ dotjoin a b ↔ ∃ u, (s, u) ∈ a ∧ (u, t) ∈ b := by simp [dotjoin]

theorem transGen_of_closed {xn r : Finset (σ × σ)} (h1 : xn ⊆ r)
    (h2 : ∀ s t u, (s, t) ∈ r → (t, u) ∈ xn → (s, u) ∈ r) {s t : σ}
    (h : Relation.TransGen (Step xn) s t) : (s, t) ∈ r := by
  induction h with
  | single h => exact h1 h
  | tail _ h ih => exact h2 _ _ _ ih h

theorem transClosure_total (xn : Finset (σ × σ)) (fuel : ℕ) (hf : Fintype.card (σ × σ) + 1 < fuel) :
    ∃ r, transClosure fuel xn = some r ∧ ∀ s t, (s, t) ∈ r ↔ Relation.TransGen (Step xn) s t := by
  have key := loopFuel_total (body := tcBody (σ := σ))
    (fun st => st.1 ⊆ st.2 ∧ (∀ s t, (s, t) ∈ st.2 → Relation.TransGen (Step xn) s t) ∧ xn ⊆ st.2 ∧
      ∀ s t u, (s, t) ∈ st.1 → (t, u) ∈ st.1 → (s, u) ∈ st.2)
    (fun r => ∀ s t, (s, t) ∈ r ↔ Relation.TransGen (Step xn) s t)
    (fun st => (st.1ᶜ).card) ?_ ?_ fuel (∅, xn) ?_ ?_
  · exact key
  · rintro ⟨a, b⟩ r ⟨h1, h2, h3, h4⟩ hb
    unfold tcBody at hb
    split at hb
    · next h =>
      simp only at h; subst h; cases hb
      intro s t
      exact ⟨h2 s t, transGen_of_closed h3 fun x y z hxy hyz => h4 x y z hxy (h3 hyz)⟩
    · cases hb
  · rintro ⟨a, b⟩ st' ⟨h1, h2, h3, h4⟩ hb
    unfold tcBody at hb
    split at hb
    · cases hb
    · next h =>
      cases hb
      simp only at h h1 h2 h3 h4
      refine ⟨⟨Finset.subset_union_left, ?_, h3.trans Finset.subset_union_left, ?_⟩, ?_⟩
      · intro s t hst
        rcases Finset.mem_union.1 hst with hst | hst
        · exact h2 s t hst
        · obtain ⟨u, hu1, hu2⟩ := mem_dotjoin.1 hst
          exact (h2 _ _ hu1).trans (h2 _ _ hu2)
      · intro s t u hst htu
        exact Finset.mem_union_right _ (mem_dotjoin.2 ⟨t, hst, htu⟩)
      · apply Finset.card_lt_card
        exact Finset.compl_ssubset_compl.2 (lt_of_le_of_ne h1 h)
  · exact ⟨Finset.empty_subset _, fun s t h => .single h, Finset.Subset.refl _, by simp⟩
  · simp only [Finset.compl_empty, Finset.card_univ]; omega

/-- What the result of `X::Fmlae::transitive_closure` may contain. -/
def FromInit (ps : List (Finset (σ × σ))) (init : Option (Finset σ)) (r : Finset (σ × σ)) : Prop :=
  ∀ s t, (s, t) ∈ r → (∀ a, init = some a → s ∈ a) ∧ Relation.TransGen (Step (xfmla ps)) s t

theorem dotjoin_from {ps : List (Finset (σ × σ))} {init : Option (Finset σ)} {r p : Finset (σ × σ)}
    (h : FromInit ps init r) (hp : p ∈ ps) : FromInit ps init (r ∪ dotjoin r p) := by
  intro s t hst
  rcases Finset.mem_union.1 hst with hst | hst
  · exact h s t hst
  · obtain ⟨u, h1, h2⟩ := mem_dotjoin.1 hst
    exact ⟨(h s u h1).1, (h s u h1).2.tail (mem_xfmla.2 ⟨p, hp, h2⟩)⟩

theorem tce_fold {ps : List (Finset (σ × σ))} {init : Option (Finset σ)} :
    ∀ (l : List (Finset (σ × σ))) (r : Finset (σ × σ)), (∀ p ∈ l, p ∈ ps) → FromInit ps init r →
    FromInit ps init (l.foldl (fun next p => next ∪ dotjoin next p) r) ∧
      r ⊆ l.foldl (fun next p => next ∪ dotjoin next p) r ∧
      ∀ p ∈ l, ∀ s t u, (s, t) ∈ r → (t, u) ∈ p → (s, u) ∈ l.foldl (fun next p => next ∪ dotjoin next p) r := by
  intro l
  induction l with
  | nil => intro r _ h; exact ⟨h, Finset.Subset.refl _, by simp⟩
  | cons q l ih =>
    intro r hl h
    obtain ⟨h1, h2, h3⟩ := ih (r ∪ dotjoin r q) (fun p hp => hl p (List.mem_cons_of_mem _ hp))
      (dotjoin_from h (hl q List.mem_cons_self))
    refine ⟨h1, Finset.subset_union_left.trans h2, ?_⟩
    intro p hp s t u hst htu
    rcases List.mem_cons.1 hp with rfl | hp
    · exact h2 (Finset.mem_union_right _ (mem_dotjoin.2 ⟨t, hst, htu⟩))
    · exact h3 p hp s t u (Finset.mem_union_left _ hst) htu

theorem tcFirst_fold {ps : List (Finset (σ × σ))} {init : Option (Finset σ)} :
    ∀ (l : List (Finset (σ × σ))) (r : Finset (σ × σ)), (∀ p ∈ l, p ∈ ps) → FromInit ps init r →
    let f := tcFirstStep init
    FromInit ps init (l.foldl f r) ∧ r ⊆ l.foldl f r ∧
      ∀ p ∈ l, ∀ s t, (∀ a, init = some a → s ∈ a) → (s, t) ∈ p → (s, t) ∈ l.foldl f r := by
  intro l
  induction l with
  | nil => intro r _ h; exact ⟨h, Finset.Subset.refl _, by simp⟩
  | cons q l ih =>
    intro r hl h
    intro f
    have hq : ∀ s t, (s, t) ∈ startPart init q ↔
        (s, t) ∈ q ∧ ∀ a, init = some a → s ∈ a := by
      intro s t
      cases init with
      | none => simp [startPart]
      | some a => simp [startPart]
    have h0 : FromInit ps init (r ∪ startPart init q) := by
      intro s t hst
      rcases Finset.mem_union.1 hst with hst | hst
      · exact h s t hst
      · obtain ⟨a1, a2⟩ := (hq s t).1 hst
        exact ⟨a2, .single (mem_xfmla.2 ⟨q, hl q List.mem_cons_self, a1⟩)⟩
    obtain ⟨h1, h2, h3⟩ := ih (f r q) (fun p hp => hl p (List.mem_cons_of_mem _ hp))
      (dotjoin_from h0 (hl q List.mem_cons_self))
    have hsub : r ∪ startPart init q ⊆ f r q := Finset.subset_union_left
    refine ⟨h1, (Finset.subset_union_left.trans hsub).trans h2, ?_⟩
    intro p hp s t ha hst
    rcases List.mem_cons.1 hp with rfl | hp
    · exact h2 (hsub (Finset.mem_union_right _ ((hq s t).2 ⟨hst, ha⟩)))
    · exact h3 p hp s t ha hst

theorem transClosureE_total (ps : List (Finset (σ × σ))) (init : Option (Finset σ)) (fuel : ℕ)
    (hf : Fintype.card (σ × σ) + 1 < fuel) :
    ∃ r, transClosureE fuel ps init = some r ∧
      ∀ s t, (s, t) ∈ r ↔ (∀ a, init = some a → s ∈ a) ∧ Relation.TransGen (Step (xfmla ps)) s t := by
  obtain ⟨i1, _, i3⟩ := tcFirst_fold (ps := ps) (init := init) ps ∅ (fun _ h => h) (by intro s t h; simp at h)
  have key := loopFuel_total (body := tceBody (σ := σ) ps)
    (fun st => st.1 ⊆ st.2 ∧ FromInit ps init st.2 ∧
      (∀ p ∈ ps, ∀ s t, (∀ a, init = some a → s ∈ a) → (s, t) ∈ p → (s, t) ∈ st.2) ∧
      ∀ p ∈ ps, ∀ s t u, (s, t) ∈ st.1 → (t, u) ∈ p → (s, u) ∈ st.2)
    (fun r => ∀ s t, (s, t) ∈ r ↔ (∀ a, init = some a → s ∈ a) ∧ Relation.TransGen (Step (xfmla ps)) s t)
    (fun st => (st.1ᶜ).card) ?_ ?_ fuel (∅, tcFirst ps init) ?_ ?_
  · exact key
  · rintro ⟨a, b⟩ r ⟨h1, h2, h3, h4⟩ hb
    unfold tceBody at hb
    split at hb
    · next h =>
      simp only at h; subst h; cases hb
      intro s t
      refine ⟨h2 s t, ?_⟩
      rintro ⟨hs, hst⟩
      induction hst with
      | single h =>
        obtain ⟨p, hp, hh⟩ := mem_xfmla.1 h
        exact h3 p hp _ _ hs hh
      | tail _ h ih =>
        obtain ⟨p, hp, hh⟩ := mem_xfmla.1 h
        exact h4 p hp _ _ _ ih hh
    · cases hb
  · rintro ⟨a, b⟩ st' ⟨h1, h2, h3, h4⟩ hb
    unfold tceBody at hb
    split at hb
    · cases hb
    · next h =>
      cases hb
      simp only at h h1 h2 h3 h4
      obtain ⟨e1, e2, e3⟩ := tce_fold ps b (fun _ h => h) h2
      refine ⟨⟨e2, e1, fun p hp s t ha hst => e2 (h3 p hp s t ha hst), e3⟩, ?_⟩
      apply Finset.card_lt_card
      exact Finset.compl_ssubset_compl.2 (lt_of_le_of_ne h1 h)
  · exact ⟨Finset.empty_subset _, i1, i3, by simp⟩
  · simp only [Finset.compl_empty, Finset.card_univ]; omega

end Verif.Model
