import Verif.Proofs.StabSound
import Verif.Proofs.OneCycle
import Verif.Spec.Synth

/-!
Lemmas for property C79: stabilization of subsets of a solution, and validity of livelock conflicts.
-/

set_option linter.unusedSectionVars false

namespace Verif.Proofs
open Verif.Model Verif.Spec

section
variable {σ : Type} [Fintype σ] [DecidableEq σ]

/-- Cycles of a stabilizing protocol are legitimate. -/
theorem cycle_legit {xn : Finset (σ × σ)} {A I : Finset σ} (hst : SelfStab xn A I) {c : σ} (hcA : c ∈ A)
    (hc : OnCycle xn c) : c ∈ I := by
  obtain ⟨f, hf1, hf2, hf3⟩ : ∃ f : ℕ → σ, InfExec xn f ∧ f 0 = c ∧ ∀ n, Reach xn (f n) c := by
    classical
    have hs : ∀ s : {s // Relation.TransGen (Step xn) s c},
        ∃ t : {s // Relation.TransGen (Step xn) s c}, Step xn s.1 t.1 := by
      rintro ⟨s, hs⟩
      obtain ⟨t, hst', htc⟩ := Relation.TransGen.head'_iff.1 hs
      rcases Relation.ReflTransGen.cases_head htc with rfl | ⟨u, hu, huc⟩
      · exact ⟨⟨_, hc⟩, hst'⟩
      · exact ⟨⟨t, Relation.TransGen.head' hu huc⟩, hst'⟩
    choose g hg using hs
    refine ⟨fun n => (g^[n] ⟨c, hc⟩).1, ?_, rfl, ?_⟩
    · intro n
      simp only [Function.iterate_succ_apply']
      exact hg _
    · intro n
      exact (g^[n] ⟨c, hc⟩).2.to_reflTransGen
  obtain ⟨n, hn⟩ := hst.converges f (fun n => Or.inl (hf1 n)) (by rw [hf2]; exact hcA)
  exact reach_closed hst.closed (hn n (le_refl _)) (hf3 n)

theorem scc_legit {xn : Finset (σ × σ)} {A I : Finset σ} (hst : SelfStab xn A I) : sccOf xn A ⊆ I := by
  intro s hs
  obtain ⟨⟨c, hcA, hc, hcs⟩, _⟩ := mem_sccOf.1 hs
  exact reach_closed hst.closed (cycle_legit hst hcA hc) hcs

/-- A part of a protocol that meets the requirements meets them, if it can move wherever it must. -/
theorem meets_part {d : Demand σ} {xn yn : Finset (σ × σ)} (h : Meets d xn) (hs : yn ⊆ xn)
    (hm : ∀ s, d.Must s → ¬ Deadlock yn s) : Meets d yn := by
  have hA : Closed yn d.assume := fun s h1 t h2 => h.stab.closed_assume s h1 t (hs h2)
  have hI : Closed yn d.legit := fun s h1 t h2 => h.stab.closed s h1 t (hs h2)
  refine ⟨⟨h.stab.nonempty, h.stab.subset, hA, hI, fun e he h0 => ?_⟩,
    fun s h1 h2 => h.noSelf s h1 (hs h2), fun hd e he => h.quiet hd e fun n => hs (he n), hm⟩
  refine converge_of hA hI (fun s h1 h2 => ?_) (fun s h1 h2 => cycle_legit h.stab h1 (onCycle_mono hs h2)) he h0
  have := hm s ⟨h1, Or.inl h2⟩
  unfold Deadlock at this
  push Not at this
  exact mem_dom.2 this

/-- A protocol that meets the requirements, inside `hi`, makes `hi` weakly converging. -/
theorem meets_weak {d : Demand σ} {xn hi : Finset (σ × σ)} (h : Meets d xn) (hs : xn ⊆ hi) :
    ∀ s ∈ d.assume, ∃ t ∈ d.legit, ReachIn hi d.assume s t := by
  intro s hsA
  obtain ⟨e, he, rfl⟩ := exists_maxExec xn s
  obtain ⟨n, hn⟩ := h.stab.converges e he hsA
  exact ⟨e n, hn n (le_refl _), reachIn_mono hs (reachIn_of_maxExec h.stab.closed_assume he hsA n)⟩

theorem scc_succ {xn : Finset (σ × σ)} {A : Finset σ} {s : σ} (hs : s ∈ sccOf xn A) :
    ∃ t ∈ sccOf xn A, (s, t) ∈ xn := by
  obtain ⟨⟨c, hcA, hc, hcs⟩, d, hd, hsd⟩ := mem_sccOf.1 hs
  rcases Relation.ReflTransGen.cases_head hsd with rfl | ⟨t, ht, htd⟩
  · obtain ⟨t, h1, h2, _⟩ := onCycle_succ hd
    exact ⟨t, mem_sccOf.2 ⟨⟨c, hcA, hc, hcs.tail h1⟩, t, h2, .refl⟩, h1⟩
  · exact ⟨t, mem_sccOf.2 ⟨⟨c, hcA, hc, hcs.tail ht⟩, d, hd, htd⟩, ht⟩

theorem scc_pred {xn : Finset (σ × σ)} {A : Finset σ} (hA : Closed xn A) {t : σ} (ht : t ∈ sccOf xn A) :
    ∃ s ∈ sccOf xn A, (s, t) ∈ xn := by
  obtain ⟨⟨c, hcA, hc, hct⟩, d, hd, htd⟩ := mem_sccOf.1 ht
  rcases Relation.ReflTransGen.cases_tail hct with rfl | ⟨s, hs, hst⟩
  · obtain ⟨s, h1, h2, h3⟩ := onCycle_pred hc
    exact ⟨s, mem_sccOf.2 ⟨⟨s, reach_closed hA hcA h3, h2, .refl⟩, d, hd, .head h1 htd⟩, h1⟩
  · exact ⟨s, mem_sccOf.2 ⟨⟨c, hcA, hc, hs⟩, d, hd, .head hst htd⟩, hst⟩

/-- `find_livelock_actions` on the cycles of a protocol: no stabilizing protocol contains the reported
actions. -/
theorem livelock_conflict {pick : Finset σ → Option σ} (hp : ∀ S : Finset σ, S.Nonempty → ∃ s ∈ S, pick S = some s)
    {xn : Finset (σ × σ)} {A inv : Finset σ} (hA : Closed xn A) {act : ℕ → Finset (σ × σ)} {actions : List ℕ}
    (hxn : ∀ s t, (s, t) ∈ xn → ∃ a ∈ actions, (s, t) ∈ act a) (hne : ¬ sccOf xn A ⊆ inv) {fuel : ℕ}
    (hf : Fintype.card σ < fuel) :
    ∃ R, findLivelockActions fuel pick xn (sccOf xn A) inv act actions = some R ∧ R ⊆ actions.toFinset ∧
      ∀ (yn : Finset (σ × σ)) (I : Finset σ), (∀ a ∈ R, act a ⊆ yn) → SelfStab yn A I → ¬ I ⊆ inv := by
  have hsccA := sccOf_subset hA
  have hne' : (sccOf xn A \ inv).Nonempty := by
    rw [Finset.nonempty_iff_ne_empty]
    exact fun h => hne (Finset.sdiff_eq_empty_iff_subset.1 h)
  obtain ⟨c, t, h1, h2, h3, h4⟩ := findOneCycle_spec hp (xn := xn) (scc := sccOf xn A)
    (initial := sccOf xn A \ inv) (fun s hs => scc_succ hs) hne'
    (fun s hs => scc_succ (Finset.mem_sdiff.1 hs).1) fuel hf
  have hdl : (t :: (c ++ [t])).dropLast = t :: c := by
    rw [← List.cons_append]; exact List.dropLast_concat
  unfold findLivelockActions
  rw [h1]
  simp only
  split
  · rename_i hfound
    rw [hdl, List.any_eq_true] at hfound
    obtain ⟨s, hs, hsi⟩ := hfound
    have hsi : s ∉ inv := by simpa using hsi
    refine ⟨_, rfl, fun a ha => (Finset.mem_filter.1 ha).1, fun yn I hy hst hI => ?_⟩
    have hch : List.IsChain (Step yn) (t :: (c ++ [t])) := by
      apply chain_of_zip_tail
      intro e he
      obtain ⟨a, ha, hst⟩ := hxn _ _ (zip_tail_mem_of_chain h2 e he)
      refine hy a (Finset.mem_filter.2 ⟨List.mem_toFinset.2 ha, e, he, e.2, ?_⟩) hst
      simp only [Finset.mem_inter, mem_img_singleton, Finset.mem_singleton, and_true]
      exact hst
    exact hsi (hI (cycle_legit hst (hsccA (h4 s hs)) (onCycle_of_chain hch hs)))
  · refine ⟨_, rfl, fun a ha => (Finset.mem_filter.1 ha).1, fun yn I hy hst hI => ?_⟩
    obtain ⟨s, hs⟩ := hne'
    rw [Finset.mem_sdiff] at hs
    have hin : ∀ s ∈ sccOf xn A, ∀ t ∈ sccOf xn A, (s, t) ∈ xn → (s, t) ∈ yn := by
      intro s hs t ht hst
      obtain ⟨a, ha, hst'⟩ := hxn s t hst
      refine hy a (Finset.mem_filter.2 ⟨List.mem_toFinset.2 ha, t, Finset.mem_inter.2 ⟨?_, ht⟩⟩) hst'
      rw [mem_img]
      exact ⟨s, hs, hst'⟩
    obtain ⟨c, hc, hc1, hc2⟩ := exists_cycle_of_pred (xn := yn) (G := sccOf xn A) (fun t ht => by
      obtain ⟨s, hs, h⟩ := scc_pred hA ht
      exact ⟨s, hs, hin s hs t ht h⟩) hs.1
    exact hs.2 (hI (reach_closed hst.closed (cycle_legit hst (hsccA hc) hc1) hc2))

end

end Verif.Proofs
