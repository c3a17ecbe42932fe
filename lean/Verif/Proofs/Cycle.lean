import Mathlib.Data.Fintype.Pigeonhole
import Mathlib.Order.Lattice
import Verif.Proofs.Reach

/-! Helper lemmas: cycles in finite graphs and the loops of `cycle_ck`. -/

set_option linter.unusedSectionVars false

namespace Verif.Model
open Verif.Spec

universe u
variable {σ : Type u} [Fintype σ] [DecidableEq σ]

/-! ### Graph facts -/

/-- In a finite set where each state has a successor in the set, each state reaches, inside
the set, a cycle inside the set. -/
theorem exists_cycle_of_succ {xn : Finset (σ × σ)} {G : Finset σ}
    (h : ∀ s ∈ G, ∃ t ∈ G, (s, t) ∈ xn) {s : σ} (hs : s ∈ G) :
    ∃ c ∈ G, OnCycleIn xn G c ∧
      Relation.ReflTransGen (fun a b => Step xn a b ∧ a ∈ G ∧ b ∈ G) s c := by
  classical
  choose! f hf using h
  let w : ℕ → σ := fun n => f^[n] s
  have hw : ∀ n, w n ∈ G := by
    intro n
    induction n with
    | zero => exact hs
    | succ k ih => simp only [w, Function.iterate_succ_apply']; exact (hf _ ih).1
  have hstep : ∀ n, Step xn (w n) (w (n + 1)) ∧ w n ∈ G ∧ w (n + 1) ∈ G := by
    intro n
    refine ⟨?_, hw n, hw (n + 1)⟩
    simp only [w, Function.iterate_succ_apply']
    exact (hf _ (hw n)).2
  have hreach : ∀ n, Relation.ReflTransGen (fun a b => Step xn a b ∧ a ∈ G ∧ b ∈ G) s (w n) := by
    intro n
    induction n with
    | zero => exact Relation.ReflTransGen.refl
    | succ k ih => exact ih.tail (hstep k)
  have htrans : ∀ i d, Relation.TransGen (fun a b => Step xn a b ∧ a ∈ G ∧ b ∈ G)
      (w i) (w (i + d + 1)) := by
    intro i d
    induction d with
    | zero => exact Relation.TransGen.single (hstep i)
    | succ k ih => exact ih.tail (hstep (i + k + 1))
  obtain ⟨i, j, hij, heq⟩ := Finite.exists_ne_map_eq_of_infinite w
  rcases Nat.lt_or_gt_of_ne hij with hlt | hlt
  · obtain ⟨d, rfl⟩ : ∃ d, j = i + d + 1 := ⟨j - i - 1, by omega⟩
    refine ⟨w i, hw i, ?_, hreach i⟩
    have := htrans i d
    rw [← heq] at this; exact this
  · obtain ⟨d, rfl⟩ : ∃ d, i = j + d + 1 := ⟨i - j - 1, by omega⟩
    refine ⟨w j, hw j, ?_, hreach j⟩
    have := htrans j d
    rw [heq] at this; exact this

theorem onCycle_of_in {xn : Finset (σ × σ)} {A : Finset σ} {c : σ} (h : OnCycleIn xn A c) :
    OnCycle xn c := by
  unfold OnCycleIn at h; unfold OnCycle
  exact Relation.TransGen.mono (fun _ _ (h : _ ∧ _) => h.1) _ _ h

theorem reach_of_in {xn : Finset (σ × σ)} {A : Finset σ} {s t : σ}
    (h : Relation.ReflTransGen (fun a b => Step xn a b ∧ a ∈ A ∧ b ∈ A) s t) : Reach xn s t :=
  Relation.ReflTransGen.mono (fun _ _ (h : _ ∧ _) => h.1) _ _ h

theorem onCycle_rev {xn : Finset (σ × σ)} {s : σ} : OnCycle (rev xn) s ↔ OnCycle xn s := by
  have h : (Step (rev xn)) = Function.swap (Step xn) := by
    funext a b; simp [Step, Function.swap, mem_rev]
  unfold OnCycle
  rw [h, Relation.transGen_swap]

/-- Backward version of `exists_cycle_of_succ`. -/
theorem exists_cycle_of_pred {xn : Finset (σ × σ)} {G : Finset σ}
    (h : ∀ t ∈ G, ∃ s ∈ G, (s, t) ∈ xn) {s : σ} (hs : s ∈ G) :
    ∃ c ∈ G, OnCycle xn c ∧ Reach xn c s := by
  obtain ⟨c, hc, h1, h2⟩ := exists_cycle_of_succ (xn := rev xn) (G := G)
    (fun t ht => by obtain ⟨s, hs, he⟩ := h t ht; exact ⟨s, hs, mem_rev.2 he⟩) hs
  exact ⟨c, hc, onCycle_rev.1 (onCycle_of_in h1), reach_rev.1 (reach_of_in h2)⟩

/-- A state on a cycle has a successor on a cycle, and that successor reaches it. -/
theorem onCycle_succ {xn : Finset (σ × σ)} {c : σ} (h : OnCycle xn c) :
    ∃ d, Step xn c d ∧ OnCycle xn d ∧ Reach xn d c := by
  obtain ⟨d, h1, h2⟩ := Relation.TransGen.head'_iff.1 h
  exact ⟨d, h1, Relation.TransGen.tail' h2 h1, h2⟩

theorem onCycle_pred {xn : Finset (σ × σ)} {c : σ} (h : OnCycle xn c) :
    ∃ d, Step xn d c ∧ OnCycle xn d ∧ Reach xn c d := by
  obtain ⟨d, h1, h2⟩ := Relation.TransGen.tail'_iff.1 h
  exact ⟨d, h2, Relation.TransGen.head' h2 h1, h1⟩

/-! ### Iterated images -/

/-- The `k`-fold image. -/
def imgN (xn : Finset (σ × σ)) (A : Finset σ) : ℕ → Finset σ
  | 0 => A
  | k + 1 => img xn (imgN xn A k)

theorem stepN_succ' {xn : Finset (σ × σ)} {n : ℕ} {s t : σ} :
    StepN xn (n + 1) s t ↔ ∃ u, StepN xn n s u ∧ Step xn u t := by
  induction n generalizing s with
  | zero => simp [StepN]
  | succ k ih =>
    constructor
    · rintro ⟨u, hu, h⟩
      obtain ⟨v, hv, hvt⟩ := ih.1 h
      exact ⟨v, ⟨u, hu, hv⟩, hvt⟩
    · rintro ⟨v, ⟨u, hu, hv⟩, hvt⟩
      exact ⟨u, hu, ih.2 ⟨v, hv, hvt⟩⟩

theorem mem_imgN {xn : Finset (σ × σ)} {A : Finset σ} {k : ℕ} {t : σ} :
    t ∈ imgN xn A k ↔ ∃ s ∈ A, StepN xn k s t := by
  induction k generalizing t with
  | zero => simp [imgN, StepN]
  | succ k ih =>
    simp only [imgN, mem_img, ih, stepN_succ']
    constructor
    · rintro ⟨u, ⟨s, hs, h1⟩, h2⟩; exact ⟨s, hs, u, h1, h2⟩
    · rintro ⟨s, hs, u, h1, h2⟩; exact ⟨u, ⟨s, hs, h1⟩, h2⟩

theorem reach_iff_stepN {xn : Finset (σ × σ)} {s t : σ} :
    Reach xn s t ↔ ∃ n, StepN xn n s t := by
  constructor
  · intro h
    induction h with
    | refl => exact ⟨0, rfl⟩
    | tail _ h2 ih => obtain ⟨n, hn⟩ := ih; exact ⟨n + 1, stepN_succ'.2 ⟨_, hn, h2⟩⟩
  · rintro ⟨n, hn⟩
    induction n generalizing t with
    | zero => cases hn; exact Relation.ReflTransGen.refl
    | succ k ih =>
      obtain ⟨u, h1, h2⟩ := stepN_succ'.1 hn
      exact (ih h1).tail h2

theorem imgN_anti {xn : Finset (σ × σ)} {A : Finset σ} (hA : Closed xn A) (k : ℕ) :
    imgN xn A (k + 1) ⊆ imgN xn A k := by
  induction k with
  | zero =>
    intro t ht
    simp only [imgN, mem_img] at ht
    obtain ⟨s, hs, he⟩ := ht
    exact hA s hs t he
  | succ k ih => exact img_mono ih

theorem imgN_anti_from {xn : Finset (σ × σ)} {A : Finset σ} {N : ℕ}
    (h : imgN xn A (N + 1) ⊆ imgN xn A N) : ∀ k, N ≤ k → imgN xn A (k + 1) ⊆ imgN xn A k := by
  intro k hk
  induction k, hk using Nat.le_induction with
  | base => exact h
  | succ k _ ih => exact img_mono ih

/-- A walk of at least `card σ` steps from `s` meets a cycle reachable from `s`. -/
theorem cycle_of_long_walk {xn : Finset (σ × σ)} {n : ℕ} {s t : σ} (h : StepN xn n s t)
    (hn : Fintype.card σ ≤ n) : ∃ c, Reach xn s c ∧ OnCycle xn c := by
  have hw : ∃ w : ℕ → σ, w 0 = s ∧ ∀ i < n, Step xn (w i) (w (i + 1)) := by
    clear hn
    induction n generalizing s with
    | zero => exact ⟨fun _ => s, rfl, by intro i hi; omega⟩
    | succ k ih =>
      obtain ⟨u, hu, h⟩ := h
      obtain ⟨w, hw0, hw⟩ := ih h
      refine ⟨fun i => if i = 0 then s else w (i - 1), by simp, ?_⟩
      intro i hi
      by_cases hi0 : i = 0
      · subst hi0; simp [hw0, hu]
      · have := hw (i - 1) (by omega)
        have h2 : i - 1 + 1 = i := by omega
        rw [h2] at this
        simp [hi0, this]
  obtain ⟨w, hw0, hw⟩ := hw
  have hreach : ∀ i ≤ n, Reach xn s (w i) := by
    intro i hi
    induction i with
    | zero => rw [hw0]; exact Relation.ReflTransGen.refl
    | succ k ih => exact (ih (by omega)).tail (hw k (by omega))
  have htrans : ∀ i d, i + d + 1 ≤ n → Relation.TransGen (Step xn) (w i) (w (i + d + 1)) := by
    intro i d hd
    induction d with
    | zero => exact Relation.TransGen.single (hw i (by omega))
    | succ k ih => exact (ih (by omega)).tail (hw (i + k + 1) (by omega))
  obtain ⟨i, j, hij, heq⟩ := Fintype.exists_ne_map_eq_of_card_lt
    (fun i : Fin (n + 1) => w i) (by simp; omega)
  have hij' : (i : ℕ) ≠ j := fun h => hij (Fin.ext h)
  rcases Nat.lt_or_gt_of_ne hij' with hlt | hlt
  · refine ⟨w i, hreach i (by omega), ?_⟩
    have := htrans i (j - i - 1) (by omega)
    have h2 : (i : ℕ) + (j - i - 1) + 1 = j := by omega
    rw [h2, ← heq] at this; exact this
  · refine ⟨w j, hreach j (by omega), ?_⟩
    have := htrans j (i - j - 1) (by omega)
    have h2 : (j : ℕ) + (i - j - 1) + 1 = i := by omega
    rw [h2, heq] at this; exact this

/-- If transitions leaving `A` only lead to states that reach no cycle, the iterated images
decrease after `card σ` rounds. -/
theorem imgN_anti_of_escape {xn : Finset (σ × σ)} {A : Finset σ}
    (hesc : ∀ s ∈ A, ∀ t, Step xn s t → t ∉ A → ∀ c, Reach xn t c → ¬ OnCycle xn c) :
    imgN xn A (Fintype.card σ + 1) ⊆ imgN xn A (Fintype.card σ) := by
  intro t ht
  obtain ⟨s, hs, u, hu, h⟩ := mem_imgN.1 ht
  by_cases huA : u ∈ A
  · exact mem_imgN.2 ⟨u, huA, h⟩
  · obtain ⟨c, hc1, hc2⟩ := cycle_of_long_walk h (le_refl _)
    exact absurd hc2 (hesc s hs u hu huA c hc1)

/-- A cycle reachable from `A` keeps every iterated image nonempty. -/
theorem imgN_nonempty_of_cycle {xn : Finset (σ × σ)} {A : Finset σ} {a c : σ}
    (ha : a ∈ A) (hac : Reach xn a c) (hc : OnCycle xn c) (k : ℕ) : (imgN xn A k).Nonempty := by
  have h : ∃ t, (∃ s ∈ A, StepN xn k s t) ∧ ∃ c, OnCycle xn c ∧ Reach xn t c := by
    induction k with
    | zero => exact ⟨a, ⟨a, ha, rfl⟩, c, hc, hac⟩
    | succ k ih =>
      obtain ⟨t, ⟨s, hs, hst⟩, c, hc, htc⟩ := ih
      rcases Relation.ReflTransGen.cases_head htc with heq | ⟨u, hu, huc⟩
      · subst heq
        obtain ⟨d, h1, h2, _⟩ := onCycle_succ hc
        exact ⟨d, ⟨s, hs, stepN_succ'.2 ⟨_, hst, h1⟩⟩, d, h2, Relation.ReflTransGen.refl⟩
      · exact ⟨u, ⟨s, hs, stepN_succ'.2 ⟨_, hst, hu⟩⟩, c, hc, huc⟩
  obtain ⟨t, ht, _⟩ := h
  exact ⟨t, mem_imgN.2 ht⟩

/-- On a closed set, states reachable from a cycle in the set stay in every iterated image. -/
theorem mem_imgN_of_cycle {xn : Finset (σ × σ)} {A : Finset σ} (hA : Closed xn A) {c s : σ}
    (hcA : c ∈ A) (hc : OnCycle xn c) (hcs : Reach xn c s) (k : ℕ) : s ∈ imgN xn A k := by
  have hA' : ∀ x y, x ∈ A → Reach xn x y → y ∈ A := by
    intro x y hx hxy
    induction hxy with
    | refl => exact hx
    | tail _ h ih => exact hA _ ih _ h
  have hcyc : ∀ k c, c ∈ A → OnCycle xn c → c ∈ imgN xn A k := by
    intro k
    induction k with
    | zero => intro c hcA _; exact hcA
    | succ k ih =>
      intro c hcA hc
      obtain ⟨d, h1, h2, h3⟩ := onCycle_pred hc
      exact mem_img.2 ⟨d, ih d (hA' _ _ hcA h3) h2, h1⟩
  have hcl : Closed xn (imgN xn A k) := by
    intro x hx y hxy
    exact imgN_anti hA k (mem_img.2 ⟨x, hx, hxy⟩)
  induction hcs with
  | refl => exact hcyc k c hcA hc
  | tail _ h ih => exact hcl _ ih _ h

/-! ### The second loop -/

theorem cycleBody2_total (xn : Finset (σ × σ)) (F : Finset σ) (fuel : ℕ)
    (hf : Fintype.card σ < fuel) :
    ∃ G, loopFuel (cycleBody2 xn) fuel F = some G ∧ G ⊆ F ∧
      (∀ s ∈ G, ∃ t ∈ G, (s, t) ∈ xn) ∧
      ∀ X ⊆ F, (∀ s ∈ X, ∃ t ∈ X, (s, t) ∈ xn) → X ⊆ G := by
  refine loopFuel_total (body := cycleBody2 xn)
    (fun G => G ⊆ F ∧ ∀ X ⊆ F, (∀ s ∈ X, ∃ t ∈ X, (s, t) ∈ xn) → X ⊆ G)
    (fun G => G ⊆ F ∧ (∀ s ∈ G, ∃ t ∈ G, (s, t) ∈ xn) ∧
      ∀ X ⊆ F, (∀ s ∈ X, ∃ t ∈ X, (s, t) ∈ xn) → X ⊆ G)
    Finset.card ?_ ?_ fuel F ?_ ?_
  · rintro G G' ⟨h1, h2⟩ hb
    unfold cycleBody2 at hb
    simp only at hb
    split at hb
    · next h =>
      cases hb
      refine ⟨h1, ?_, h2⟩
      intro s hs
      rw [h] at hs
      exact mem_pre.1 (Finset.mem_inter.1 hs).2
    · cases hb
  · rintro G G' ⟨h1, h2⟩ hb
    unfold cycleBody2 at hb
    simp only at hb
    split at hb
    · cases hb
    · next h =>
      cases hb
      refine ⟨⟨Finset.inter_subset_left.trans h1, ?_⟩, ?_⟩
      · intro X hX hX2 s hs
        refine Finset.mem_inter.2 ⟨h2 X hX hX2 hs, ?_⟩
        obtain ⟨t, ht, he⟩ := hX2 s hs
        exact mem_pre.2 ⟨t, h2 X hX hX2 ht, he⟩
      · apply Finset.card_lt_card
        exact lt_of_le_of_ne Finset.inter_subset_left (fun h' => h h'.symm)
  · exact ⟨Finset.Subset.refl _, fun X hX _ => hX⟩
  · exact lt_of_le_of_lt (Finset.card_le_univ _) hf

/-! ### The first loop -/

/-- The optional invariant contains the set. -/
def InvSub (inv : Option (Finset σ)) (X : Finset σ) : Prop := ∃ I, inv = some I ∧ X ⊆ I

/-- Event that fixes the layer count. -/
def Stop (xn : Finset (σ × σ)) (inv : Option (Finset σ)) (A : Finset σ) (k : ℕ) : Prop :=
  imgN xn A k = imgN xn A (k + 1) ∨ InvSub inv (imgN xn A k)

/-- Loop invariant of the first loop at the beginning of round `k`. -/
structure Good (xn : Finset (σ × σ)) (inv : Option (Finset σ)) (lim : Option ℕ) (A : Finset σ)
    (k : ℕ) (st : CycSt σ) : Prop where
  span : st.span0 = imgN xn A k
  noFix : ∀ j < k, imgN xn A j ≠ imgN xn A (j + 1)
  noPtr : lim = none → st.ptr = false
  layers : ∀ m, lim = some m →
    (st.ptr = true ∧ st.nlayers = k + 1 ∧ st.out = m ∧ (∀ j < k, ¬ Stop xn inv A j) ∧
      (m = 0 ∨ k + 1 ≤ m)) ∨
    (st.ptr = false ∧ ∃ k0 < k, Stop xn inv A k0 ∧ (∀ j < k0, ¬ Stop xn inv A j) ∧
      st.out = k0 + 1 ∧ (m = 0 ∨ k0 + 1 ≤ m))

/-- What the first loop delivers. -/
def Post1 (xn : Finset (σ × σ)) (inv : Option (Finset σ)) (lim : Option ℕ) (A : Finset σ) :
    ℕ ⊕ CycSt σ → Prop
  | .inl n => ∃ m, lim = some m ∧ 0 < m ∧ n = m + 1 ∧ ∀ j < m, ¬ Stop xn inv A j
  | .inr st => ∃ k, st.span0 = imgN xn A k ∧ imgN xn A k = imgN xn A (k + 1) ∧
      (∀ j < k, imgN xn A j ≠ imgN xn A (j + 1)) ∧
      ∀ m, lim = some m → ∃ k0 ≤ k, Stop xn inv A k0 ∧ (∀ j < k0, ¬ Stop xn inv A j) ∧
        (if st.ptr then st.nlayers else st.out) = k0 + 1 ∧ (m = 0 ∨ k0 + 1 ≤ m)

theorem invSub_iff {inv : Option (Finset σ)} {X : Finset σ} :
    inv.any (fun i => decide (X ⊆ i)) = true ↔ InvSub inv X := by
  cases inv <;> simp [InvSub]

theorem body1_break {xn : Finset (σ × σ)} {inv : Option (Finset σ)} {lim : Option ℕ}
    {A : Finset σ} (k : ℕ) (st : CycSt σ) (r : ℕ ⊕ CycSt σ) (hG : Good xn inv lim A k st)
    (hb : cycleBody1 xn inv st = .inl r) : Post1 xn inv lim A r := by
  unfold cycleBody1 at hb
  simp only at hb
  split at hb
  · next hfix =>
    cases hb
    have hf : imgN xn A k = imgN xn A (k + 1) := by
      rw [hG.span] at hfix; exact hfix
    refine ⟨k, hG.span, hf, hG.noFix, ?_⟩
    intro m hm
    rcases hG.layers m hm with ⟨h1, h2, h3, h4, h5⟩ | ⟨h1, k0, hk0, h2, h3, h4, h5⟩
    · exact ⟨k, le_refl _, Or.inl hf, h4, by simp [h1, h2], h5⟩
    · exact ⟨k0, le_of_lt hk0, h2, h3, by simp [h1, h4], h5⟩
  · next hfix =>
    split at hb
    · next hptr =>
      split at hb
      · cases hb
      · next hinv =>
        split at hb
        · next hlim =>
          cases hb
          cases hl : lim with
          | none => have := hG.noPtr hl; simp [this] at hptr
          | some m =>
            rcases hG.layers m hl with ⟨h1, h2, h3, h4, h5⟩ | ⟨h1, _⟩
            · simp only [gt_iff_lt, Bool.and_eq_true, decide_eq_true_eq] at hlim
              have hmk : m = k + 1 := by omega
              refine ⟨m, rfl, by omega, by omega, ?_⟩
              intro j hj
              by_cases hjk : j < k
              · exact h4 j hjk
              · have : j = k := by omega
                subst this
                rintro (h | h)
                · apply hfix; rw [hG.span]; exact h
                · apply hinv; rw [hG.span]; exact invSub_iff.2 h
            · simp [h1] at hptr
        · cases hb
    · cases hb

theorem body1_continue {xn : Finset (σ × σ)} {inv : Option (Finset σ)} {lim : Option ℕ}
    {A : Finset σ} (k : ℕ) (st st' : CycSt σ) (hG : Good xn inv lim A k st)
    (hb : cycleBody1 xn inv st = .inr st') :
    Good xn inv lim A (k + 1) st' ∧ imgN xn A k ≠ imgN xn A (k + 1) := by
  unfold cycleBody1 at hb
  simp only at hb
  split at hb
  · cases hb
  · next hfix =>
    have hnf : imgN xn A k ≠ imgN xn A (k + 1) := by
      intro h; apply hfix; rw [hG.span]; exact h
    have hnoFix : ∀ j < k + 1, imgN xn A j ≠ imgN xn A (j + 1) := by
      intro j hj
      by_cases hjk : j < k
      · exact hG.noFix j hjk
      · have : j = k := by omega
        subst this; exact hnf
    refine ⟨?_, hnf⟩
    split at hb
    · next hptr =>
      split at hb
      · next hinv =>
        cases hb
        refine ⟨by simp [hG.span, imgN], hnoFix, fun _ => rfl, ?_⟩
        intro m hm
        right
        rcases hG.layers m hm with ⟨h1, h2, h3, h4, h5⟩ | ⟨h1, _⟩
        · refine ⟨rfl, k, by omega, Or.inr ?_, h4, h2, h5⟩
          rw [← hG.span]; exact invSub_iff.1 hinv
        · simp [h1] at hptr
      · next hinv =>
        split at hb
        · cases hb
        · next hlim =>
          cases hb
          refine ⟨by simp [hG.span, imgN], hnoFix, hG.noPtr, ?_⟩
          intro m hm
          left
          rcases hG.layers m hm with ⟨h1, h2, h3, h4, h5⟩ | ⟨h1, _⟩
          · refine ⟨h1, by simp [h2], h3, ?_, ?_⟩
            · intro j hj
              by_cases hjk : j < k
              · exact h4 j hjk
              · have : j = k := by omega
                subst this
                rintro (h | h)
                · exact hnf h
                · apply hinv; rw [hG.span]; exact invSub_iff.2 h
            · simp only [gt_iff_lt, Bool.and_eq_true, decide_eq_true_eq, not_and, not_lt] at hlim
              omega
          · simp [h1] at hptr
    · next hptr =>
      cases hb
      refine ⟨by simp [hG.span, imgN], hnoFix, hG.noPtr, ?_⟩
      intro m hm
      rcases hG.layers m hm with ⟨h1, _⟩ | ⟨h1, k0, hk0, h2⟩
      · exact absurd h1 hptr
      · exact Or.inr ⟨h1, k0, by omega, h2⟩

/-- Initial state of the first loop. -/
theorem good_init (xn : Finset (σ × σ)) (inv : Option (Finset σ)) (lim : Option ℕ)
    (A : Finset σ) :
    Good xn inv lim A 0 { span0 := A, nlayers := 1, ptr := lim.isSome, out := lim.getD 0 } := by
  refine ⟨rfl, by intro j hj; omega, by rintro rfl; rfl, ?_⟩
  rintro m rfl
  left
  refine ⟨rfl, rfl, rfl, by intro j hj; omega, by omega⟩

/-- Total correctness of the first loop once the iterated images become decreasing. -/
theorem loop1_total {xn : Finset (σ × σ)} (inv : Option (Finset σ)) (lim : Option ℕ)
    {A : Finset σ} {N : ℕ} (hN : imgN xn A (N + 1) ⊆ imgN xn A N) (fuel : ℕ)
    (hf : N + Fintype.card σ < fuel) :
    ∃ r, loopFuel (cycleBody1 xn inv) fuel
      { span0 := A, nlayers := 1, ptr := lim.isSome, out := lim.getD 0 } = some r ∧
      Post1 xn inv lim A r := by
  refine loopFuel_ghost (Good xn inv lim A) (Post1 xn inv lim A)
    (fun k st => if k < N then (N - k) + Fintype.card σ else st.span0.card)
    body1_break ?_ fuel 0 _ (good_init xn inv lim A) ?_
  · intro k st st' hG hb
    obtain ⟨h1, h2⟩ := body1_continue k st st' hG hb
    refine ⟨k + 1, h1, ?_⟩
    by_cases hk : k < N
    · by_cases hk' : k + 1 < N
      · simp [hk, hk']; omega
      · simp only [hk, hk', if_false, if_true]
        have := Finset.card_le_univ st'.span0
        omega
    · have hk' : ¬ k + 1 < N := by omega
      simp only [hk, hk', if_false]
      rw [h1.span, hG.span]
      apply Finset.card_lt_card
      exact lt_of_le_of_ne (imgN_anti_from hN k (by omega)) (fun h => h2 h.symm)
  · have := Finset.card_le_univ A
    by_cases h : 0 < N
    · simp [h]; omega
    · simp only [h, if_false]; omega

/-- Partial correctness of the first loop. -/
theorem loop1_partial {xn : Finset (σ × σ)} (inv : Option (Finset σ)) (lim : Option ℕ)
    {A : Finset σ} (fuel : ℕ) (r : ℕ ⊕ CycSt σ)
    (h : loopFuel (cycleBody1 xn inv) fuel
      { span0 := A, nlayers := 1, ptr := lim.isSome, out := lim.getD 0 } = some r) :
    Post1 xn inv lim A r :=
  loopFuel_partial (fun st => ∃ k, Good xn inv lim A k st) (Post1 xn inv lim A)
    (fun st r ⟨k, hk⟩ hb => body1_break k st r hk hb)
    (fun st st' ⟨k, hk⟩ hb => ⟨k + 1, (body1_continue k st st' hk hb).1⟩)
    fuel _ r ⟨0, good_init xn inv lim A⟩ h

/-! ### Reading off the result -/

/-- Full description of a result of `cycle_ck` started from `A`. -/
def CyclePost (xn : Finset (σ × σ)) (inv : Option (Finset σ)) (lim : Option ℕ) (A : Finset σ)
    (r : CycleRes σ) : Prop :=
  (∃ m, lim = some m ∧ 0 < m ∧ r = ⟨false, none, m + 1⟩ ∧ ∀ j < m, ¬ Stop xn inv A j) ∨
  (∃ k G, imgN xn A k = imgN xn A (k + 1) ∧ (∀ j < k, imgN xn A j ≠ imgN xn A (j + 1)) ∧
    r.scc = some G ∧ r.ret = decide G.Nonempty ∧
    (∀ s, s ∈ G ↔ s ∈ imgN xn A k ∧ ∃ c, OnCycle xn c ∧ Reach xn s c) ∧
    ∀ m, lim = some m → ∃ k0 ≤ k, Stop xn inv A k0 ∧ (∀ j < k0, ¬ Stop xn inv A j) ∧
      r.nlayers = k0 + 1 ∧ (m = 0 ∨ k0 + 1 ≤ m))

theorem scc_char {xn : Finset (σ × σ)} {F G : Finset σ} (hF : F = img xn F) (hGF : G ⊆ F)
    (hG : ∀ s ∈ G, ∃ t ∈ G, (s, t) ∈ xn)
    (hmax : ∀ X ⊆ F, (∀ s ∈ X, ∃ t ∈ X, (s, t) ∈ xn) → X ⊆ G) (s : σ) :
    s ∈ G ↔ s ∈ F ∧ ∃ c, OnCycle xn c ∧ Reach xn s c := by
  classical
  constructor
  · intro hs
    obtain ⟨c, _, h1, h2⟩ := exists_cycle_of_succ hG hs
    exact ⟨hGF hs, c, onCycle_of_in h1, reach_of_in h2⟩
  · rintro ⟨hs, hc⟩
    let X := F.filter fun s => ∃ c, OnCycle xn c ∧ Reach xn s c
    have hX : X ⊆ G := by
      apply hmax X (Finset.filter_subset _ _)
      intro x hx
      obtain ⟨hxF, c, hc, hxc⟩ := Finset.mem_filter.1 hx
      rcases Relation.ReflTransGen.cases_head hxc with heq | ⟨u, hu, huc⟩
      · subst heq
        obtain ⟨d, h1, h2, _⟩ := onCycle_succ hc
        refine ⟨d, Finset.mem_filter.2 ⟨?_, d, h2, Relation.ReflTransGen.refl⟩, h1⟩
        rw [hF]; exact mem_img.2 ⟨_, hxF, h1⟩
      · refine ⟨u, Finset.mem_filter.2 ⟨?_, c, hc, huc⟩, hu⟩
        rw [hF]; exact mem_img.2 ⟨_, hxF, hu⟩
    exact hX (Finset.mem_filter.2 ⟨hs, hc⟩)

theorem cycle_post_of_loop1 {xn : Finset (σ × σ)} {inv : Option (Finset σ)} {lim : Option ℕ}
    {assumed : Option (Finset σ)} {fuel : ℕ} (hf : Fintype.card σ < fuel) {r1 : ℕ ⊕ CycSt σ}
    (h1 : loopFuel (cycleBody1 xn inv) fuel { span0 := assumed.getD Finset.univ, nlayers := 1, ptr := lim.isSome, out := lim.getD 0 } = some r1)
    (hp : Post1 xn inv lim (assumed.getD Finset.univ) r1) :
    ∃ r, cycleCk fuel xn lim inv assumed = some r ∧
      CyclePost xn inv lim (assumed.getD Finset.univ) r := by
  unfold cycleCk
  simp only [h1]
  cases r1 with
  | inl n =>
    obtain ⟨m, hm1, hm2, hm3, hm4⟩ := hp
    exact ⟨_, rfl, Or.inl ⟨m, hm1, hm2, by rw [hm3], hm4⟩⟩
  | inr st =>
    obtain ⟨k, hk1, hk2, hk3, hk4⟩ := hp
    obtain ⟨G, hG, hG1, hG2, hG3⟩ := cycleBody2_total xn st.span0 fuel hf
    simp only [hG]
    refine ⟨_, rfl, Or.inr ⟨k, G, hk2, hk3, rfl, rfl, ?_, ?_⟩⟩
    · intro s
      rw [← hk1]
      apply scc_char _ hG1 hG2 hG3
      rw [hk1]; exact hk2
    · intro m hm
      exact hk4 m hm

theorem cycleCk_total {xn : Finset (σ × σ)} (inv : Option (Finset σ)) (lim : Option ℕ)
    (assumed : Option (Finset σ)) {N : ℕ}
    (hN : imgN xn (assumed.getD Finset.univ) (N + 1) ⊆ imgN xn (assumed.getD Finset.univ) N)
    (fuel : ℕ) (hf : N + Fintype.card σ < fuel) :
    ∃ r, cycleCk fuel xn lim inv assumed = some r ∧
      CyclePost xn inv lim (assumed.getD Finset.univ) r := by
  obtain ⟨r1, h1, hp⟩ := loop1_total inv lim hN fuel hf
  exact cycle_post_of_loop1 (by omega) h1 hp

/-- Whatever `cycle_ck` returns, with whatever fuel, satisfies the description. -/
theorem cycleCk_partial {xn : Finset (σ × σ)} (inv : Option (Finset σ)) (lim : Option ℕ)
    (assumed : Option (Finset σ)) (fuel : ℕ) (r : CycleRes σ)
    (h : cycleCk fuel xn lim inv assumed = some r) :
    CyclePost xn inv lim (assumed.getD Finset.univ) r := by
  have hmono : ∃ fuel', Fintype.card σ < fuel' ∧ cycleCk fuel' xn lim inv assumed = some r := by
    refine ⟨fuel + Fintype.card σ + 1, by omega, ?_⟩
    unfold cycleCk at h ⊢
    simp only at h ⊢
    cases hl : loopFuel (cycleBody1 xn inv) fuel { span0 := assumed.getD Finset.univ, nlayers := 1, ptr := lim.isSome, out := lim.getD 0 } with
    | none => simp [hl] at h
    | some r1 =>
      rw [hl] at h
      rw [loopFuel_mono (by omega : fuel ≤ fuel + Fintype.card σ + 1) _ _ hl]
      cases r1 with
      | inl n => exact h
      | inr st =>
        simp only at h ⊢
        cases hl2 : loopFuel (cycleBody2 xn) fuel st.span0 with
        | none => simp [hl2] at h
        | some G =>
          rw [hl2] at h
          rw [loopFuel_mono (by omega : fuel ≤ fuel + Fintype.card σ + 1) _ _ hl2]
          exact h
  obtain ⟨fuel', hf, h'⟩ := hmono
  unfold cycleCk at h'
  simp only at h'
  cases hl : loopFuel (cycleBody1 xn inv) fuel' { span0 := assumed.getD Finset.univ, nlayers := 1, ptr := lim.isSome, out := lim.getD 0 } with
  | none => simp [hl] at h'
  | some r1 =>
    have hp := loop1_partial inv lim fuel' r1 hl
    obtain ⟨r', hr', hpost⟩ := cycle_post_of_loop1 hf hl hp
    have : cycleCk fuel' xn lim inv assumed = some r := by
      unfold cycleCk; simpa using h'
    rw [this] at hr'
    cases hr'
    exact hpost

/-! ### Consequences -/

/-- Each member of a fixed iterated image is reachable from a cycle that is reachable from `A`. -/
theorem fix_from_cycle {xn : Finset (σ × σ)} {A : Finset σ} {k : ℕ}
    (hk : imgN xn A k = imgN xn A (k + 1)) {s : σ} (hs : s ∈ imgN xn A k) :
    ∃ c ∈ imgN xn A k, OnCycle xn c ∧ Reach xn c s := by
  refine exists_cycle_of_pred ?_ hs
  intro t ht
  rw [hk] at ht
  exact mem_img.1 ht

theorem fix_cycle_from {xn : Finset (σ × σ)} {A : Finset σ} {k : ℕ} {s : σ}
    (hs : s ∈ imgN xn A k) : ∃ a ∈ A, Reach xn a s := by
  obtain ⟨a, ha, h⟩ := mem_imgN.1 hs
  exact ⟨a, ha, reach_iff_stepN.2 ⟨k, h⟩⟩

end Verif.Model
