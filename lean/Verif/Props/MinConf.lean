import Verif.Proofs.MinConf

/-!
# Property C106: conflicts from a file are made smaller

`minimize` (Model/MinConf) is the database at the end of `stabilization_search` for `MinimizeConflictsTask`
(src/search.cc:455-515, 744-830, 1031-1034) with any number of threads.
-/

set_option linter.unusedSectionVars false

namespace Verif.Props
open Verif.Spec Verif.Model Verif.Proofs

variable {σ τ : ℕ → Type} [∀ i, Fintype (σ i)] [∀ i, DecidableEq (σ i)] [∀ i, DecidableEq (τ i)] {ρ : Type}

/-- **C106.** The conflicts are taken from the smallest to the largest (`lohi`), from the largest to the smallest
(`hilo`), or in random order; each is taken once, and conflicts of the same size stay in the order of the database. -/
theorem C106_order {shuffle : List (Finset ℕ) → List (Finset ℕ)} (hs : ∀ l, (shuffle l).Perm l) (fam : CFam) :
    StableSort Finset.card (· ≤ ·) fam.sets (flatConflicts shuffle .lohi fam) ∧
    StableSort Finset.card (· ≥ ·) fam.sets (flatConflicts shuffle .hilo fam) ∧
    (flatConflicts shuffle .random fam).Perm fam.sets := by
  obtain ⟨N, h1, h2⟩ := buckets fam.sets
  unfold flatConflicts
  simp only [h2]
  refine ⟨?_, ?_, hs _⟩
  · exact sorted_by fam.sets (fun k => le_refl k) List.nodup_range (fun b hb => List.mem_range.2 (h1 b hb))
      (List.pairwise_lt_range.imp fun h => Nat.le_of_lt h)
  · rw [← List.map_reverse]
    refine sorted_by fam.sets (r := (· ≥ ·)) (fun k => le_refl k) (List.nodup_reverse.2 List.nodup_range)
      (fun b hb => List.mem_reverse.2 (List.mem_range.2 (h1 b hb))) ?_
    rw [List.pairwise_reverse]
    exact List.pairwise_lt_range.imp fun h => Nat.le_of_lt h

/-- What is asked of the input: the case of the synthesizer covered by C79, conflicts from the file that are in no
solution and not empty, and only actions in them that are given, candidates, or rejected. -/
structure MinSetting (cfg : SynCfg σ τ ρ) (n : ℕ) (file : CFam) : Prop where
  open_ : OpenSetting cfg n
  pos : 1 ≤ n
  two : n ≤ 2
  ok : FileFam cfg n file
  acts : ∀ b ∈ file.sets, ∀ a ∈ b, a ∈ cfg.given ∨ ∃ i < n, a ∈ cfg.cands i ∨ a ∈ cfg.rejs i

/-- The conflicts that the threads take are those of the database. -/
def TakesAll (cfg : SynCfg σ τ ρ) (file : CFam) (ts : List (ρ × List (Finset ℕ))) : Prop :=
  (ts.flatMap Prod.snd).Perm (trim cfg.maxConflictSz file).sets

section
variable {cfg : SynCfg σ τ ρ} {n : ℕ} {file : CFam} {ts : List (ρ × List (Finset ℕ))}

theorem trim_mem {k : ℕ} {fam : CFam} {b : Finset ℕ} : b ∈ (trim k fam).sets ↔ b ∈ fam.sets ∧ (k = 0 ∨ b.card ≤ k) := by
  unfold trim
  split
  · rename_i h; simp [h]
  · rename_i h
    rw [List.mem_filter]
    simp only [not_lt, decide_eq_true_eq, h, false_or]

theorem file_part (h : MinSetting cfg n file) {b : Finset ℕ} (hb : b ∈ (trim cfg.maxConflictSz file).sets) :
    PartOk cfg n (startFrom cfg n (trim cfg.maxConflictSz file)) b := by
  have hF := trim_file (k := cfg.maxConflictSz) h.ok
  obtain ⟨-, -, f3, -, f5, -⟩ := start_from h.open_ h.pos hF rfl
  refine ⟨fun T hT hs => ?_, fun a ha => ?_⟩
  · have := hF.valid T hT
    rw [conflictCk_iff.2 ⟨b, hb, hs⟩] at this
    cases this
  · by_cases hr : ∃ j < n, a ∈ cfg.rejs j
    · obtain ⟨j, hj, haj⟩ := hr
      exact .inr (f5 {a} ⟨j, hj, .inr ⟨a, haj, rfl⟩⟩)
    · push Not at hr
      left
      rcases h.acts b (trim_mem.1 hb).1 a ha with hg | ⟨i, hi, hc | hc⟩
      · exact ⟨.inl hg, h.open_.given a hg⟩
      · exact ⟨.inr ⟨i, hi, hc⟩, h.open_.cand i hi a hc hr⟩
      · exact absurd hc (hr i hi)

theorem minimize_ok (h : MinSetting cfg n file) (hts : TakesAll cfg file ts) :
    ∃ fam, minimize cfg n file ts = some (trim cfg.maxConflictSz fam) ∧ Anti fam.sets ∧ Valid cfg n fam ∧
      (∀ S, Knows (trim cfg.maxConflictSz file) S → Knows fam S) ∧
      (ts ≠ [] → ∀ S, Knows (startFrom cfg n (trim cfg.maxConflictSz file)) S → Knows fam S) ∧
      ∀ b ∈ (trim cfg.maxConflictSz file).sets, Effective cfg n → (∃ T, SolOf cfg n T) →
        (cfg.maxConflictSz = 0 ∨ b.card ≤ cfg.maxConflictSz) → 1 < b.card →
          DealtWith cfg n (startFrom cfg n (trim cfg.maxConflictSz file)) fam b := by
  have hF := trim_file (k := cfg.maxConflictSz) h.ok
  obtain ⟨fam, m1, m2, m3, m4, m5, m6⟩ := minMerge_ok h.open_ h.pos h.two hF
    (done := ts.any fun t => minBad cfg n (trim cfg.maxConflictSz file) t.1)
    (fun ⟨T, hT⟩ => by
      rw [List.any_eq_false]
      intro t _
      rw [minBad_sol h.open_ h.pos h.two hF hT]
      simp) ts (trim cfg.maxConflictSz file)
    (fun hd t ht => by
      rw [List.any_eq_false] at hd
      simpa using hd t ht)
    (fun t ht b hb => file_part h (hts.mem_iff.1 (List.mem_flatMap.2 ⟨t, ht, hb⟩))) hF.anti hF.valid
  refine ⟨fam, ?_, m2, m3, m4, m5, fun b hb => ?_⟩
  · unfold minimize
    simp only [m1, Option.map_some]
  · obtain ⟨t, ht, hbt⟩ := List.mem_flatMap.1 (hts.mem_iff.2 hb)
    exact m6 t ht b hbt

/-- **C106.** No thread fails a `Claim` while it starts, and of the conflicts at the end: none is part of a solution;
none contains another, none is larger than `max_conflict_sz`; each conflict of the file that is not larger than
`max_conflict_sz` contains one of them, and so does each declared conflict and each rejected action.  This holds for
any number of threads, any assignment of the conflicts to threads, and any answers of `done_ck`. -/
theorem C106_conflicts (h : MinSetting cfg n file) (hts : TakesAll cfg file ts) :
    ∃ res, minimize cfg n file ts = some res ∧
      (∀ c ∈ res.sets, ∀ T, Solves (taskOf cfg n) T → ¬ c ⊆ T) ∧
      res.sets.Nodup ∧ (∀ a ∈ res.sets, ∀ c ∈ res.sets, a ⊆ c → a = c) ∧
      (0 < cfg.maxConflictSz → ∀ c ∈ res.sets, c.card ≤ cfg.maxConflictSz) ∧
      (∀ b ∈ file.sets, (cfg.maxConflictSz = 0 ∨ b.card ≤ cfg.maxConflictSz) → ∃ c ∈ res.sets, c ⊆ b) ∧
      (ts ≠ [] → ∀ B, (taskOf cfg n).banned B → (cfg.maxConflictSz = 0 ∨ B.card ≤ cfg.maxConflictSz) →
        ∃ c ∈ res.sets, c ⊆ B) := by
  obtain ⟨fam, m1, m2, m3, m4, m5, -⟩ := minimize_ok h hts
  have hsub : (trim cfg.maxConflictSz fam).sets.Sublist fam.sets := by
    unfold trim
    split
    · exact List.Sublist.refl _
    · exact List.filter_sublist
  have ha := m2.sublist hsub
  refine ⟨_, m1, fun c hc T hT hs => ?_, ha.nodup, ha.anti, fun h0 c hc => ?_, fun b hb hz => ?_, fun hne B hB hz => ?_⟩
  · have := m3 T hT
    rw [conflictCk_iff.2 ⟨c, hsub.subset hc, hs⟩] at this
    cases this
  · exact (trim_mem.1 hc).2.resolve_left (by omega)
  · exact (trim_knows hz).2 (m4 b ⟨b, trim_mem.2 ⟨hb, hz⟩, Finset.Subset.refl _⟩)
  · refine (trim_knows hz).2 (m5 hne B ?_)
    exact (start_from h.open_ h.pos (trim_file h.ok) rfl).2.2.2.2.1 B hB

/-- **C106.** If the task is not interrupted and the problem has a solution, then a conflict of the file with at
least two actions that is still there at the end is one from which no action could be taken away: without any one
of its actions it is, together with the given actions, to blame for nothing in a system that is looked at (the
legitimate states are closed, all cycles are legitimate), and contains no other conflict of the file, no declared
conflict and no rejected action. -/
theorem C106_minimal (h : MinSetting cfg n file) (hts : TakesAll cfg file ts) (hE : Effective cfg n)
    (hT : ∃ T, Solves (taskOf cfg n) T) {res : CFam} (hr : minimize cfg n file ts = some res) {b : Finset ℕ}
    (hb : b ∈ file.sets) (h1 : 1 < b.card) (hres : b ∈ res.sets) {p : ℕ} (hp : p ∈ b) :
    (∀ i < n, cfg.noConflict i = false →
      Blameless ((taskOf cfg n).demand i) ((cfg.given.toFinset ∪ b.erase p).biUnion (cfg.actXn i))) ∧
    (∀ c ∈ file.sets, (cfg.maxConflictSz = 0 ∨ c.card ≤ cfg.maxConflictSz) → ¬ c ⊆ cfg.given.toFinset ∪ b.erase p) ∧
    ∀ B, (taskOf cfg n).banned B → ¬ B ⊆ cfg.given.toFinset ∪ b.erase p := by
  obtain ⟨fam, m1, m2, m3, m4, m5, m6⟩ := minimize_ok h hts
  rw [hr, Option.some.injEq] at m1
  subst m1
  obtain ⟨hbf, hz⟩ := trim_mem.1 hres
  obtain ⟨-, -, -, -, f5, f6⟩ := start_from h.open_ h.pos (trim_file (k := cfg.maxConflictSz) h.ok) rfl
  have hal : Alright cfg n (startFrom cfg n (trim cfg.maxConflictSz file)) (b.erase p) := by
    rcases m6 b (trim_mem.2 ⟨hb, hz⟩) hE hT hz h1 with ⟨C, c1, c2, x, hx1, hx2⟩ | hd
    · have := m2.anti x hx1 b hbf (hx2.trans c1)
      subst this
      exact absurd (Finset.Subset.antisymm c1 hx2) c2
    · exact hd p hp
  refine ⟨hal.blame, fun c hc hcz hs => ?_, fun B hB hs => ?_⟩
  · exact hal.free hE.looks (f6 _ ⟨c, trim_mem.2 ⟨hc, hcz⟩, hs⟩)
  · obtain ⟨x, hx1, hx2⟩ := f5 B hB
    exact hal.free hE.looks ⟨x, hx1, hx2.trans hs⟩

end

/-! ### A concrete problem -/

/-- Actions 0, 1, 2 lead to the legitimate state; 3 and 4 make a cycle. -/
def minAct : ℕ → ℕ → Finset (Fin 4 × Fin 4)
  | _, 0 => {(1, 0)}
  | _, 1 => {(2, 0)}
  | _, 2 => {(3, 0)}
  | _, 3 => {(1, 2)}
  | _, 4 => {(2, 1)}
  | _, _ => ∅

def minCfg : SynCfg (fun _ => Fin 4) (fun _ => Unit) Unit := tinyCfg minAct [0, 1, 2, 3, 4] [] noTrim false 0

/-- Two conflicts that are larger than necessary. -/
def minFile : CFam := ⟨[{1, 3, 4}, {2, 3, 4}], [], false, ∅⟩

/-- The conflict behind them. -/
def minFile2 : CFam := ⟨[{3, 4}], [], false, ∅⟩

theorem minCfg_no {T : Finset ℕ} (hT : Solves (taskOf minCfg 1) T) (hs : ({3, 4} : Finset ℕ) ⊆ T) : False := by
  have h := (hT.meets 0 (by decide)).quiet rfl (fun k => if k % 2 = 0 then 1 else 2) (by
    intro k
    have h3 : (3 : ℕ) ∈ T := hs (by decide)
    have h4 : (4 : ℕ) ∈ T := hs (by decide)
    rcases Nat.mod_two_eq_zero_or_one k with h | h
    · have h' : (k + 1) % 2 = 1 := by omega
      simp only [h, h']
      exact Finset.mem_biUnion.2 ⟨3, h3, by decide⟩
    · have h' : (k + 1) % 2 = 0 := by omega
      simp only [h, h']
      exact Finset.mem_biUnion.2 ⟨4, h4, by decide⟩)
  exact h (Finset.mem_univ _)

theorem minCfg_file {file : CFam} (hs : ∀ b ∈ file.sets, ({3, 4} : Finset ℕ) ⊆ b) (ha : Anti file.sets)
    (hi : file.impossible = ∅) : FileFam minCfg 1 file := by
  refine ⟨fun T hT => ?_, ha, fun _ e => ?_, ?_⟩
  · rcases hc : conflictCk file T with _ | _
    · rfl
    · obtain ⟨b, hb, hbT⟩ := conflictCk_iff.1 hc
      exact (minCfg_no hT ((hs b hb).trans hbT)).elim
  · rw [hi]
    constructor
    · simp
    · rintro ⟨b, hb, hbe⟩
      have h3 := Finset.mem_singleton.1 (((hs b hb).trans hbe) (by decide : (3 : ℕ) ∈ _))
      have h4 := Finset.mem_singleton.1 (((hs b hb).trans hbe) (by decide : (4 : ℕ) ∈ _))
      omega
  · rintro ⟨b, hb, hbe⟩
    have := ((hs b hb).trans hbe) (by decide : (3 : ℕ) ∈ _)
    simp at this

theorem minCfg_open : OpenSetting minCfg 1 := tiny_open (by decide) (by decide) (by decide)

theorem minSetting1 : MinSetting minCfg 1 minFile :=
  ⟨minCfg_open, le_refl _, by omega, minCfg_file (by decide) ⟨by decide, by decide⟩ rfl, by
    intro b hb a ha
    refine .inr ⟨0, by omega, .inl ?_⟩
    revert b a
    decide⟩

theorem minSetting2 : MinSetting minCfg 1 minFile2 :=
  ⟨minCfg_open, le_refl _, by omega, minCfg_file (by decide) ⟨by decide, by decide⟩ rfl, by
    intro b hb a ha
    refine .inr ⟨0, by omega, .inl ?_⟩
    revert b a
    decide⟩

theorem minCfg_effective : Effective minCfg 1 := ⟨fun _ => rfl, rfl, 0, by omega, rfl⟩

/-- Two threads. -/
def minThreads : List (Unit × List (Finset ℕ)) := [((), [{2, 3, 4}]), ((), [{1, 3, 4}])]

example : TakesAll minCfg minFile minThreads := by unfold TakesAll; decide

/-- The two conflicts become one that is as small as possible. -/
example : (minimize minCfg 1 minFile minThreads).map CFam.sets = some [{3, 4}] := by decide +kernel

/-- It stays, and `C106_minimal` says why. -/
theorem minFile2_stays : (minimize minCfg 1 minFile2 [((), [{3, 4}])]).map CFam.sets = some [{3, 4}] := by decide +kernel

/-- There is a solution. -/
theorem minCfg_solved : ∃ T, Solves (taskOf minCfg 1) T := by
  refine ⟨{0, 1, 2}, by decide, ?_, ?_, ?_, ?_⟩
  · intro i _ a ha
    refine .inl ?_
    simp only [Finset.mem_insert, Finset.mem_singleton] at ha
    simp only [taskOf, minCfg, tinyCfg]
    rcases ha with rfl | rfl | rfl <;> decide
  · intro i _ a _ b _ _ h
    simp [taskOf, minCfg, tinyCfg, noTrim] at h
  · rintro B ⟨i, _, ⟨l, hl, _⟩ | ⟨a, ha, _⟩⟩
    · simp [minCfg, tinyCfg] at hl
    · simp [minCfg, tinyCfg] at ha
  · intro i hi
    have hi : i < 1 := hi
    obtain rfl : i = 0 := by omega
    exact tiny_meets (fun s => s.val) (by decide) (by decide) (by decide)

example : Blameless ((taskOf minCfg 1).demand 0) (((minCfg.given.toFinset ∪ ({3, 4} : Finset ℕ).erase 3)).biUnion
    (minCfg.actXn 0)) := by
  obtain ⟨res, hr, -⟩ := C106_conflicts minSetting2 (ts := [((), [{3, 4}])]) (by unfold TakesAll; decide)
  have hs := minFile2_stays
  rw [hr, Option.map_some, Option.some.injEq] at hs
  exact (C106_minimal minSetting2 (by unfold TakesAll; decide) minCfg_effective minCfg_solved hr (b := {3, 4}) (p := 3)
    (by decide) (by decide) (by rw [hs]; decide) (by decide)).1 0 (by omega) rfl

/-- The orders. -/
example : flatConflicts id .lohi ⟨[{1, 3, 4}, {5}, {2, 3}, {7, 8}], [], false, ∅⟩ = [{5}, {2, 3}, {7, 8}, {1, 3, 4}] ∧
    flatConflicts id .hilo ⟨[{1, 3, 4}, {5}, {2, 3}, {7, 8}], [], false, ∅⟩ = [{1, 3, 4}, {2, 3}, {7, 8}, {5}] := by
  decide

end Verif.Props
