import Verif.Proofs.Rank

/-! Properties C43 and C62: ranking of deadlocks by the number of candidates that resolve them. -/

set_option linter.unusedSectionVars false

namespace Verif.Props
open Verif.Model Verif.Proofs

variable {σ : Type} [DecidableEq σ]

/-- **C43.** A state is in bucket `k` exactly when it is one of the given deadlocks and `k` of the
candidates have a transition from it; bucket `k` lists exactly the candidates that resolve one of its
states; there are no buckets beyond the last nonempty one, and no bucket at all if there are
no deadlocks. -/
theorem C43_rank (pre : ℕ → Finset σ) (candidates : List ℕ) (deadlock : Finset σ) :
    let ds := rankDeadlocksMRV pre candidates deadlock
    (∀ k s, (k < ds.sz ∧ s ∈ ds.dl k) ↔
      s ∈ deadlock ∧ candidates.countP (fun a => decide (s ∈ pre a)) = k) ∧
    (∀ k < ds.sz, ∀ a, a ∈ ds.cands k ↔ a ∈ candidates ∧ ∃ s, s ∈ ds.dl k ∧ s ∈ pre a) ∧
    (deadlock = ∅ → ds.sz = 0) ∧ (0 < ds.sz → (ds.dl (ds.sz - 1)).Nonempty) := by
  intro ds
  simp only [ds, rankDeadlocksMRV]
  split
  · rename_i hne
    have h0 : RankedBy pre [] deadlock
        ⟨1, fun i => if i = 0 then deadlock else ∅, fun _ => ∅⟩ := by
      refine ⟨fun k s => ?_, fun k hk => ?_, by simp, by simpa using hne⟩
      · by_cases hk : k = 0
        · subst hk; simp [resolvers]
        · simp only [if_neg hk, Finset.notMem_empty, resolvers, List.countP_nil, false_iff]
          exact fun h => hk h.2.symm
      · simp only at hk ⊢
        rw [if_neg (by omega)]
    obtain ⟨h1, h2⟩ := rankedBy_fold candidates [] _ h0 (fun _ => rfl)
    rw [List.nil_append] at h1
    obtain ⟨e1, e2, e3⟩ := rankCands_spec pre candidates
      (candidates.foldl (fun ds a => rankShift (pre a) ds.sz ds)
        ⟨1, fun i => if i = 0 then deadlock else ∅, fun _ => ∅⟩)
    rw [e1, e2]
    refine ⟨fun k s => ?_, fun k hk a => ?_, fun he => ?_, fun _ => h1.top.2⟩
    · rw [h1.dl]
      constructor
      · exact fun h => h.2
      · intro h
        refine ⟨?_, h⟩
        by_contra hc
        have := (h1.dl k s).2 h
        rw [h1.out k (by omega)] at this
        simp at this
    · rw [e3, h2]
      simp only [Finset.notMem_empty, false_or, hk, true_and, Finset.Nonempty, Finset.mem_inter]
      exact and_congr_right fun _ => exists_congr fun _ => and_comm
    · rw [he] at hne; simp at hne
  · rename_i hne
    rw [Finset.not_nonempty_iff_eq_empty] at hne
    simp [hne]

/-- Three deadlocks: 0 is resolved by no candidate, 1 by one, 2 by both. -/
def exPre : ℕ → Finset (Fin 4) := fun a => if a = 5 then {1, 2} else if a = 7 then {2, 3} else ∅

example : (rankDeadlocksMRV exPre [5, 7, 9] {0, 1, 2}).sz = 3 ∧
    (List.range 3).map (rankDeadlocksMRV exPre [5, 7, 9] {0, 1, 2}).dl = [{0}, {1}, {2}] ∧
    (List.range 3).map (rankDeadlocksMRV exPre [5, 7, 9] {0, 1, 2}).cands = [∅, {5}, {5, 7}] := by
  decide +kernel

/-- The buckets rank the deadlocks `D` by the number of candidates in `C` that resolve them, and list
the candidates with a resolved state in the bucket. -/
def Ranking (pre : ℕ → Finset σ) (C : Finset ℕ) (D : Finset σ) (ds : DlSets σ) : Prop :=
  (∀ k s, (k < ds.sz ∧ s ∈ ds.dl k) ↔ s ∈ D ∧ (C.filter fun a => s ∈ pre a).card = k) ∧
  (∀ k < ds.sz, ∀ a, a ∈ ds.cands k ↔ a ∈ C ∧ ∃ s, s ∈ ds.dl k ∧ s ∈ pre a)

/-- `RankDeadlocksMRV` gives a ranking (in the sense used by C62). -/
theorem rank_ranking (pre : ℕ → Finset σ) (candidates : List ℕ) (hnd : candidates.Nodup)
    (deadlock : Finset σ) :
    Ranking pre candidates.toFinset deadlock (rankDeadlocksMRV pre candidates deadlock) := by
  obtain ⟨h1, h2, -, -⟩ := C43_rank pre candidates deadlock
  have hc : ∀ s, (candidates.toFinset.filter fun a => s ∈ pre a).card =
      candidates.countP (fun a => decide (s ∈ pre a)) := by
    intro s
    rw [List.countP_eq_length_filter, ← List.toFinset_card_of_nodup (hnd.filter _)]
    congr 1
    ext a; simp
  refine ⟨fun k s => by rw [h1, hc], fun k hk a => ?_⟩
  rw [h2 k hk, List.mem_toFinset]

/-- **C62.** If `ReviseDeadlocksMRV` completes, then the revised table ranks the deadlocks that the
added actions do not resolve by the number of remaining candidates: the result of ranking from
scratch.  What is missing for the full claim: it can stop at the failed assertion
"BUG! Don't use -fast-deadlock-mrv flag", see `C62_claim_fails`. -/
theorem C62_revise_partial (pre : ℕ → Finset σ) (C adds dels : Finset ℕ) (D : Finset σ)
    (ds ds' : DlSets σ) (hadd : adds ⊆ C) (hdel : dels ⊆ C) (hdis : Disjoint adds dels)
    (hrank : Ranking pre C D ds) (hr : reviseDeadlocksMRV pre adds dels ds = some ds') :
    ds'.sz = ds.sz ∧
    Ranking pre ((C \ adds) \ dels) (D.filter fun s => ∀ a ∈ adds, s ∉ pre a) ds' := by
  obtain ⟨h1, h2⟩ := hrank
  have hD : (D.filter fun s => ∀ a ∈ adds, s ∉ pre a) = D \ adds.biUnion pre := by
    ext s; simp
  rw [hD]
  by_cases hsz : ds.sz = 0
  · have hD0 : D = ∅ := by
      apply Finset.eq_empty_of_forall_notMem
      intro s hs
      have := ((h1 _ s).2 ⟨hs, rfl⟩).1
      omega
    simp only [reviseDeadlocksMRV, hsz, List.range_zero, List.drop_nil, reviseLoop, Option.some.injEq] at hr
    subst hr
    refine ⟨hsz ▸ rfl, fun k s => ?_, fun k hk => by omega⟩
    simp [hD0, hsz]
  · have hmid : MidRank pre C adds dels D 1 ds := by
      have hno : ∀ s, s ∈ D → nres pre C s = 0 → ∀ a ∈ C, s ∉ pre a := by
        intro s _ h a ha hs
        have := nres_pos.2 ⟨a, ha, hs⟩
        omega
      refine ⟨fun k hk s => ?_, fun k hk a => ?_⟩
      · have hk1 : s ∈ ds.dl k ↔ s ∈ D ∧ nres pre C s = k := by
          rw [show nres pre C s = (C.filter fun a => s ∈ pre a).card from rfl, ← h1]
          simp [hk]
        rw [hk1]
        constructor
        · rintro ⟨a, b⟩
          by_cases hk0 : k = 0
          · refine .inl ⟨by omega, ?_, by omega, ?_⟩
            · rw [Finset.mem_sdiff, Finset.mem_biUnion]
              refine ⟨a, ?_⟩
              rintro ⟨x, hx, hs⟩
              exact hno s a (by omega) x (hadd hx) hs
            · by_contra hc
              have : 0 < nres pre ((C \ adds) \ dels) s := by omega
              obtain ⟨x, hx, hs⟩ := nres_pos.1 this
              simp only [Finset.mem_sdiff] at hx
              exact hno s a (by omega) x hx.1.1 hs
          · exact .inr ⟨by omega, a, b⟩
        · rintro (⟨a, b, c, d⟩ | ⟨a, b⟩)
          · exact ⟨(Finset.mem_sdiff.1 b).1, by omega⟩
          · exact b
      · have hca : a ∈ ds.cands k ↔ a ∈ C ∧ (pre a ∩ ds.dl k).Nonempty := by
          rw [h2 k hk]
          simp only [Finset.Nonempty, Finset.mem_inter]
          exact and_congr_right fun _ => exists_congr fun _ => and_comm
        rw [hca]
        by_cases hk0 : k = 0
        · have hnone : a ∈ C → ¬ (pre a ∩ ds.dl k).Nonempty := by
            rintro ha ⟨s, hs⟩
            rw [Finset.mem_inter] at hs
            have := (h1 k s).1 ⟨hk, hs.2⟩
            exact hno s this.1 (by rw [← hk0]; exact this.2) a ha hs.1
          constructor
          · rintro ⟨x, y⟩; exact absurd y (hnone x)
          · rintro (⟨-, x, y⟩ | ⟨x, -⟩)
            · simp only [Finset.mem_sdiff] at x
              exact absurd y (hnone x.1.1)
            · omega
        · constructor
          · intro h; exact .inr ⟨by omega, h⟩
          · rintro (⟨x, -⟩ | ⟨-, x⟩)
            · omega
            · exact x
    have hdrop : (List.range ds.sz).drop 1 = List.range' 1 (ds.sz - 1) := by
      rw [List.range_eq_range', List.drop_range']
    rw [reviseDeadlocksMRV, hdrop] at hr
    obtain ⟨e1, e2⟩ := rankReviseLoop_spec hadd hdel hdis (ds.sz - 1) 1 ds ds' (by omega) (by omega) hmid hr
    rw [show 1 + (ds.sz - 1) = ds.sz by omega] at e2
    have hlt : ∀ s ∈ D, nres pre C s < ds.sz := fun s hs => ((h1 _ s).2 ⟨hs, rfl⟩).1
    refine ⟨e1, fun k s => ?_, fun k hk a => ?_⟩
    · show _ ↔ _ ∧ nres pre ((C \ adds) \ dels) s = k
      constructor
      · rintro ⟨hk, hs⟩
        rcases (e2.dl k hk s).1 hs with ⟨-, a, -, b⟩ | ⟨a, -⟩
        · exact ⟨a, b⟩
        · omega
      · rintro ⟨a, b⟩
        have hlt' := hlt s (Finset.mem_sdiff.1 a).1
        have hle : nres pre ((C \ adds) \ dels) s ≤ nres pre C s := by
          rw [nres_split hdel hdis (Finset.mem_sdiff.1 a).2]; omega
        have hk : k < ds'.sz := by omega
        exact ⟨hk, (e2.dl k hk s).2 (.inl ⟨by omega, a, hlt', b⟩)⟩
    · rw [e2.cands k hk]
      have hk1 : k < ds.sz := by omega
      have hk2 : ¬ ds.sz ≤ k := by omega
      simp only [hk1, true_and, hk2, false_and, or_false, Finset.Nonempty, Finset.mem_inter]
      exact and_congr_right fun _ => exists_congr fun _ => and_comm

/-- **C62, additions.** Without removed candidates the revision always completes (this is how the
least-constraining-value heuristic uses it, src/synthesis.cc:535). -/
theorem C62_adds_complete (pre : ℕ → Finset σ) (adds : Finset ℕ) (ds : DlSets σ) :
    ∃ ds', reviseDeadlocksMRV pre adds ∅ ds = some ds' := by
  unfold reviseDeadlocksMRV
  rw [Finset.biUnion_empty]
  exact rankReviseLoop_adds _ _

/-- Deadlocks 1 and 2, resolved by action 5 and action 7. -/
def exPre2 : ℕ → Finset (Fin 4) := fun a => if a = 5 then {1} else if a = 7 then {2} else ∅

/-- **C62, limit.** Two candidates that each are the only one to resolve some deadlock are removed
at once: the revision stops at its assertion although the table was a correct ranking. -/
theorem C62_claim_fails : Ranking exPre2 {5, 7} {1, 2} (rankDeadlocksMRV exPre2 [5, 7] {1, 2}) ∧
    reviseDeadlocksMRV exPre2 ∅ {5, 7} (rankDeadlocksMRV exPre2 [5, 7] {1, 2}) = none := by
  refine ⟨rank_ranking exPre2 [5, 7] (by decide) {1, 2}, ?_⟩
  have h : (reviseDeadlocksMRV exPre2 ∅ {5, 7} (rankDeadlocksMRV exPre2 [5, 7] {1, 2})).isNone = true := by
    decide +kernel
  exact Option.isNone_iff_eq_none.1 h

/-- A revision that completes: action 7 is removed, action 9 is added. -/
def exPre3 : ℕ → Finset (Fin 4) := fun a =>
  if a = 5 then {1, 2} else if a = 7 then {2, 3} else if a = 9 then {0} else ∅

example : (reviseDeadlocksMRV exPre3 {9} {7} (rankDeadlocksMRV exPre3 [5, 7, 9] {0, 1, 2, 3})).map
    (fun ds => (ds.sz, (List.range 3).map ds.dl, (List.range 3).map ds.cands)) =
    some (3, [{3}, {1, 2}, ∅], [∅, {5}, ∅]) := by decide +kernel

example : ∃ ds', reviseDeadlocksMRV exPre3 {9} {7} (rankDeadlocksMRV exPre3 [5, 7, 9] {0, 1, 2, 3}) = some ds' ∧
    ds'.sz = 3 := by
  have h : (reviseDeadlocksMRV exPre3 {9} {7}
      (rankDeadlocksMRV exPre3 [5, 7, 9] {0, 1, 2, 3})).isSome = true := by decide +kernel
  obtain ⟨ds', hds⟩ := Option.isSome_iff_exists.1 h
  refine ⟨ds', hds, ?_⟩
  rw [(C62_revise_partial exPre3 {5, 7, 9} {9} {7} {0, 1, 2, 3} _ ds' (by decide) (by decide) (by decide)
    (rank_ranking exPre3 [5, 7, 9] (by decide) _) hds).1]
  decide +kernel

end Verif.Props
