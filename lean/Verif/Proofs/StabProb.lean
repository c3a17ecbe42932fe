import Verif.Proofs.StabSound
import Verif.Spec.Prob

/-! Helper lemmas: the stabilization check for systems with random assignments. -/

set_option linter.unusedSectionVars false

namespace Verif.Model
open Verif.Spec

universe u v
variable {σ : Type u} [Fintype σ] [DecidableEq σ] {τ : Type v} [DecidableEq τ]

/-- The cycle part for probabilistic systems. -/
theorem stabCycles_prob {sys : Sys σ τ} (hp : sys.probabilistic = true) {opt : StabOpt}
    {lo : Finset (σ × σ)} {ps : List (Finset (σ × σ))} (hps : ∀ p ∈ ps, p ⊆ lo) {fuel : ℕ}
    (hf : Fintype.card σ + 1 < fuel) :
    ∃ X Y, stabCycles fuel sys opt lo ps = some (.ok (Y, 1)) ∧
      Trap ps (cross (cls lo sys.shInv)ᶜ (cls lo sys.shInv)) sys.closedAssume X ∧
      (∀ Z, Trap ps (cross (cls lo sys.shInv)ᶜ (cls lo sys.shInv)) sys.closedAssume Z → Z ⊆ X) ∧
      Y ⊆ X ∧ (∀ Z ⊆ X, HasPred lo Z → Z ⊆ Y) := by
  obtain ⟨X, Y, h1, h2, h3, h4, _, h6⟩ := probLivelock_scc_spec hps sys.closedAssume
    (cross (cls lo sys.shInv)ᶜ (cls lo sys.shInv)) hf
  refine ⟨X, Y, ?_, h2, h3, h4, h6⟩
  simp [stabCycles, hp, closureWithin_eq (show Fintype.card σ < fuel by omega), h1]

theorem stabCk_prob {sys : Sys σ τ} (hp : sys.probabilistic = true) {opt : StabOpt}
    {lo hi : Finset (σ × σ)} {ps : List (Finset (σ × σ))} (hps : ∀ p ∈ ps, p ⊆ lo) {fuel : ℕ}
    (hf : Fintype.card σ + 1 < fuel) :
    ∃ v, stabCk fuel sys opt lo hi ps = some v ∧ v ≠ .abort ∧
      ∀ I n, v = .accept (I, n) ↔
        ∃ scc, stabCycles fuel sys opt lo ps = some (.ok (scc, n)) ∧
          (opt.maxNlayers = 0 ∨ n ≤ opt.maxNlayers) ∧ StabAcceptG sys lo hi ps scc I := by
  refine stabCk_specG (fun _ => hps) hf fun _ => ?_
  obtain ⟨_, Y, h, _⟩ := stabCycles_prob hp (opt := opt) hps hf
  refine ⟨Y, 1, h, fun _ => ?_⟩
  obtain ⟨X, h1, h2, h3⟩ := probLivelock_spec hps sys.shInv sys.live hf
  refine ⟨decide X.Nonempty, by simp [nonProgress, hp, h1], ?_⟩
  simp only [NS, hp, if_true, NoStutterP, decide_eq_false_iff_not, Finset.not_nonempty_iff_eq_empty]
  constructor
  · intro hX Z hZ
    exact Finset.subset_empty.1 (hX ▸ h3 Z hZ)
  · intro h; exact h X h2

/-- No adversarial trap avoids the reported invariant. -/
theorem no_trap_outside {sys : Sys σ τ} (hp : sys.probabilistic = true)
    {lo hi : Finset (σ × σ)} {ps : List (Finset (σ × σ))} (hps : ∀ p ∈ ps, p ⊆ lo)
    {X Y I : Finset σ}
    (hXmax : ∀ Z, Trap ps (cross (cls lo sys.shInv)ᶜ (cls lo sys.shInv)) sys.closedAssume Z → Z ⊆ X)
    (hXA : X ⊆ sys.closedAssume) (hYX : Y ⊆ X)
    (hYmax : ∀ Z ⊆ X, HasPred lo Z → Z ⊆ Y) (h : StabAcceptG sys lo hi ps Y I) :
    ∀ Z, Trap ps ∅ (sys.closedAssume \ I) Z → Z = ∅ := by
  obtain ⟨H, hHI, _, _, _, _, hco, _⟩ := accept_core h (hYX.trans hXA)
  simp only [CO, hp, if_true] at hco
  -- traps that avoid progress transitions are empty
  have key : ∀ Z, Trap ps (cross (cls lo sys.shInv)ᶜ (cls lo sys.shInv)) (sys.closedAssume \ I) Z →
      Z = ∅ := by
    intro Z hZ
    have hZX : Z ⊆ X := hXmax Z ⟨hZ.1.trans Finset.sdiff_subset, hZ.2⟩
    by_contra hne
    obtain ⟨s, hs⟩ := Finset.nonempty_iff_ne_empty.2 hne
    have hsucc : HasSucc lo Z := by
      intro s hs
      obtain ⟨p, hp, ⟨t, ht⟩, h2⟩ := hZ.2 s hs
      exact ⟨t, (h2 t ht).2, hps p hp ht⟩
    obtain ⟨c, _, hc, _⟩ := exists_cycle_of_succ hsucc hs
    -- states of `Z` reachable inside `Z` from a cycle of `Z`
    classical
    let W := Z.filter fun s => ∃ c, OnCycleIn lo Z c ∧
      Relation.ReflTransGen (fun a b => Step lo a b ∧ a ∈ Z ∧ b ∈ Z) c s
    have hcZ : ∀ c, OnCycleIn lo Z c → c ∈ Z := by
      intro c hc
      obtain ⟨d, h1, _⟩ := Relation.TransGen.head'_iff.1 hc
      exact h1.2.1
    have hWpred : HasPred lo W := by
      intro t ht
      obtain ⟨htZ, c, hc, hct⟩ := Finset.mem_filter.1 ht
      rcases Relation.ReflTransGen.cases_tail hct with h | ⟨u, hcu, hut⟩
      · subst h
        obtain ⟨u, h1, h2⟩ := Relation.TransGen.tail'_iff.1 hc
        exact ⟨u, Finset.mem_filter.2 ⟨h2.2.1, _, hc, h1⟩, h2.1⟩
      · exact ⟨u, Finset.mem_filter.2 ⟨hut.2.1, c, hc, hcu⟩, hut.1⟩
    have hWY : W ⊆ Y := hYmax W ((Finset.filter_subset _ _).trans hZX) hWpred
    have hW : W = ∅ := by
      apply hco
      refine ⟨?_, ?_⟩
      · intro x hx
        refine Finset.mem_sdiff.2 ⟨hWY hx, fun hxH => ?_⟩
        exact (Finset.mem_sdiff.1 (hZ.1 (Finset.mem_filter.1 hx).1)).2 (hHI hxH)
      · intro x hx
        obtain ⟨hxZ, c, hc, hcx⟩ := Finset.mem_filter.1 hx
        obtain ⟨p, hp, h1, h2⟩ := hZ.2 x hxZ
        refine ⟨p, hp, h1, fun t ht => ⟨by simp, Finset.mem_filter.2 ⟨(h2 t ht).2, c, hc, ?_⟩⟩⟩
        exact hcx.tail ⟨hps p hp ht, hxZ, (h2 t ht).2⟩
    have : c ∈ W := Finset.mem_filter.2 ⟨hcZ c hc, c, hc, Relation.ReflTransGen.refl⟩
    rw [hW] at this
    exact absurd this (by simp)
  intro Z hZ
  have h1 : Z ∩ cls lo sys.shInv = ∅ := by
    apply key
    refine ⟨Finset.inter_subset_left.trans hZ.1, ?_⟩
    intro s hs
    obtain ⟨hsZ, hsT⟩ := Finset.mem_inter.1 hs
    obtain ⟨p, hp, h1, h2⟩ := hZ.2 s hsZ
    refine ⟨p, hp, h1, fun t ht => ⟨?_, Finset.mem_inter.2 ⟨(h2 t ht).2, ?_⟩⟩⟩
    · intro hc
      exact Finset.mem_compl.1 (Finset.mem_product.1 hc).1 hsT
    · exact cls_closed s hsT t (hps p hp ht)
  apply key
  refine ⟨hZ.1, ?_⟩
  intro s hs
  obtain ⟨p, hp, h2, h3⟩ := hZ.2 s hs
  refine ⟨p, hp, h2, fun t ht => ⟨?_, (h3 t ht).2⟩⟩
  intro hc
  have : t ∈ Z ∩ cls lo sys.shInv := Finset.mem_inter.2 ⟨(h3 t ht).2, (Finset.mem_product.1 hc).2⟩
  rw [h1] at this
  exact absurd this (by simp)

theorem mayReach_mono {ps : List (Finset (σ × σ))} {I : Finset σ} {n : ℕ} {s : σ}
    (h : MayReach ps I n s) : ∀ m, n ≤ m → MayReach ps I m s := by
  induction n generalizing s with
  | zero =>
    intro m _
    cases m with
    | zero => exact h
    | succ m => exact Or.inl h
  | succ n ih =>
    intro m hm
    cases m with
    | zero => omega
    | succ m =>
      rcases h with h | ⟨h1, h2⟩
      · exact Or.inl h
      · refine Or.inr ⟨h1, fun p hp he => ?_⟩
        obtain ⟨t, ht, ht'⟩ := h2 p hp he
        exact ⟨t, ht, ih ht' m (by omega)⟩

/-- Without traps, every state of a closed set may reach `I` within `card σ` steps. -/
theorem mayReach_of_noTrap {ps : List (Finset (σ × σ))} {A I : Finset σ}
    (hcl : ∀ s ∈ A, ∀ p ∈ ps, ∀ t, (s, t) ∈ p → t ∈ A)
    (hen : ∀ s ∈ A, s ∉ I → ∃ p ∈ ps, Enabled p s)
    (hnt : ∀ Z, Trap ps ∅ (A \ I) Z → Z = ∅) : ∀ s ∈ A, MayReach ps I (Fintype.card σ) s := by
  classical
  let W : ℕ → Finset σ := fun n => A.filter (MayReach ps I n)
  have hmono : ∀ n m, n ≤ m → W n ⊆ W m := by
    intro n m hnm s hs
    obtain ⟨h1, h2⟩ := Finset.mem_filter.1 hs
    exact Finset.mem_filter.2 ⟨h1, mayReach_mono h2 m hnm⟩
  have hstep : ∀ n, W n = W (n + 1) → W n = A := by
    intro n hn
    have : A \ W n = ∅ := by
      apply hnt
      refine ⟨?_, ?_⟩
      · intro s hs
        obtain ⟨h1, h2⟩ := Finset.mem_sdiff.1 hs
        refine Finset.mem_sdiff.2 ⟨h1, fun hI => h2 ?_⟩
        exact Finset.mem_filter.2 ⟨h1, mayReach_mono (n := 0) hI n (Nat.zero_le _)⟩
      · intro s hs
        obtain ⟨h1, h2⟩ := Finset.mem_sdiff.1 hs
        rw [hn] at h2
        have h3 : ¬ MayReach ps I (n + 1) s := fun h => h2 (Finset.mem_filter.2 ⟨h1, h⟩)
        simp only [MayReach, not_or, not_and, not_forall] at h3
        obtain ⟨hI, h4⟩ := h3
        obtain ⟨p, hp, he, h5⟩ := h4 (hen s h1 hI)
        refine ⟨p, hp, he, fun t ht => ⟨by simp, Finset.mem_sdiff.2 ⟨hcl s h1 p hp t ht, ?_⟩⟩⟩
        intro htW
        exact h5 ⟨t, ht, (Finset.mem_filter.1 htW).2⟩
    apply Finset.Subset.antisymm (Finset.filter_subset _ _)
    exact Finset.sdiff_eq_empty_iff_subset.1 this
  have hcard : ∀ n, W n = A ∨ n ≤ (W n).card := by
    intro n
    induction n with
    | zero => right; omega
    | succ n ih =>
      rcases ih with ih | ih
      · left
        apply Finset.Subset.antisymm (Finset.filter_subset _ _)
        intro s hs
        exact hmono n (n + 1) (by omega) (by rw [ih]; exact hs)
      · by_cases heq : W n = W (n + 1)
        · left; rw [← heq]; exact hstep n heq
        · right
          have : W n ⊂ W (n + 1) :=
            Finset.ssubset_iff_subset_ne.2 ⟨hmono n (n + 1) (by omega), heq⟩
          have := Finset.card_lt_card this
          omega
  have hfin : W (Fintype.card σ) = A := by
    rcases hcard (Fintype.card σ) with h | h
    · exact h
    · have : W (Fintype.card σ) = Finset.univ :=
        Finset.eq_univ_of_card _ (le_antisymm (Finset.card_le_univ _) h)
      apply Finset.Subset.antisymm (Finset.filter_subset _ _)
      change A ⊆ W _
      rw [this]; exact Finset.subset_univ _
  intro s hs
  rw [← hfin] at hs
  exact (Finset.mem_filter.1 hs).2

end Verif.Model
