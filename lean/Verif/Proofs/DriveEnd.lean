import Mathlib.Data.Finset.Powerset
import Mathlib.Algebra.Order.BigOperators.Group.Finset
import Verif.Proofs.Drive

/-!
The driver of the search ends: every trial learns something, or is the last one.
-/

set_option linter.unusedSectionVars false

namespace Verif.Proofs
open Verif.Spec Verif.Model Verif.Props

variable {σ τ : ℕ → Type} [∀ i, Fintype (σ i)] [∀ i, DecidableEq (σ i)] [∀ i, DecidableEq (τ i)] {ρ : Type}

/-- All actions that can be used. -/
def allActs (cfg : SynCfg σ τ ρ) (n : ℕ) : Finset ℕ :=
  cfg.given.toFinset ∪ (Finset.range n).biUnion fun i => (cfg.cands i).toFinset

theorem mem_allActs {cfg : SynCfg σ τ ρ} {n a : ℕ} (h : MayAdd cfg n a) : a ∈ allActs cfg n := by
  unfold allActs
  rw [Finset.mem_union, Finset.mem_biUnion]
  rcases h.1 with h | ⟨i, hi, h⟩
  · exact .inl (List.mem_toFinset.2 h)
  · exact .inr ⟨i, Finset.mem_range.2 hi, List.mem_toFinset.2 h⟩

/-- The number of sets of actions that contain no known conflict. -/
def unk (cfg : SynCfg σ τ ρ) (n : ℕ) (fam : CFam) : ℕ :=
  ((allActs cfg n).powerset.filter fun S => conflictCk fam S = false).card

/-- The bound on the number of trials. -/
def topTrial (cfg : SynCfg σ τ ρ) (n : ℕ) : ℕ := 2 ^ (allActs cfg n).card

section
variable {cfg : SynCfg σ τ ρ} {n : ℕ} {opt : DriveOpt}

theorem unk_top (fam : CFam) : unk cfg n fam ≤ topTrial cfg n := by
  unfold unk topTrial
  rw [← Finset.card_powerset]
  exact Finset.card_filter_le _ _

theorem ck_false {fam : CFam} {S : Finset ℕ} : conflictCk fam S = false ↔ ¬ Knows fam S := by
  rw [← conflictCk_iff, Bool.not_eq_true]

theorem unk_mono {F fam : CFam} (h : ∀ S, Knows F S → Knows fam S) : unk cfg n fam ≤ unk cfg n F := by
  apply Finset.card_le_card
  intro S hS
  rw [Finset.mem_filter, ck_false] at hS ⊢
  exact ⟨hS.1, fun hk => hS.2 (h S hk)⟩

theorem unk_lt {F fam : CFam} (h : ∀ S, Knows F S → Knows fam S) {S : Finset ℕ} (hS : S ⊆ allActs cfg n)
    (h1 : ¬ Knows F S) (h2 : Knows fam S) : unk cfg n fam + 1 ≤ unk cfg n F := by
  apply Nat.succ_le_of_lt
  apply Finset.card_lt_card
  rw [Finset.ssubset_iff_of_subset]
  · refine ⟨S, ?_, ?_⟩
    · rw [Finset.mem_filter, ck_false]
      exact ⟨Finset.mem_powerset.2 hS, h1⟩
    · rw [Finset.mem_filter, ck_false]
      exact fun h => h.2 h2
  · intro S hS
    rw [Finset.mem_filter, ck_false] at hS ⊢
    exact ⟨hS.1, fun hk => hS.2 (h S hk)⟩

end

/-- Options with which every trial learns something: no limit on the depth of the search, none on the size of
conflicts, a system that is not excluded from conflicts, and when the search goes on after a solution then
solutions become conflicts. -/
structure Restarts (cfg : SynCfg σ τ ρ) (n : ℕ) (opt : DriveOpt) : Prop where
  depth : cfg.maxDepth = 0
  size : cfg.maxConflictSz = 0
  learns : ∃ i < n, cfg.noConflict i = false
  all : opt.tryAll = true → opt.asConflict = true

/-- The last trial has learned something since `F`. -/
def Learned (cfg : SynCfg σ τ ρ) (n : ℕ) (sh : Shared) (l : Thread σ ρ) : Prop :=
  ∃ F S, (∀ S, Knows F S → Knows l.g.fam S) ∧ l.trial + unk cfg n F ≤ topTrial cfg n ∧ S ⊆ allActs cfg n ∧
    ¬ Knows F S ∧ (Knows l.g.fam S ∨ Knows sh.fam S)

/-- How far a thread is. -/
def ThreadGo (cfg : SynCfg σ τ ρ) (n : ℕ) (sh : Shared) (l : Thread σ ρ) : Prop :=
  match l.phase with
  | .head => l.trial ≤ topTrial cfg n + 1 ∧ (sh.done = true ∨ l.trial + unk cfg n l.g.fam ≤ topTrial cfg n)
  | .search => l.trial + unk cfg n l.g.fam ≤ topTrial cfg n
  | .tried none => l.trial ≤ topTrial cfg n ∧ (sh.done = true ∨ Knows l.g.fam ∅ ∨ Learned cfg n sh l)
  | .tried (some acts) => l.trial ≤ topTrial cfg n ∧ ∃ F, (∀ S, Knows F S → Knows l.g.fam S) ∧
      l.trial + unk cfg n F ≤ topTrial cfg n ∧ ¬ Knows F acts.toFinset
  | .merge => l.trial ≤ topTrial cfg n ∧ (sh.done = true ∨ Knows l.g.fam ∅ ∨ Learned cfg n sh l)
  | .prune => l.trial ≤ topTrial cfg n ∧ (sh.done = true ∨ l.trial + 1 + unk cfg n l.g.fam ≤ topTrial cfg n)
  | .fin => l.trial ≤ topTrial cfg n + 1
  | .abort => False

/-- What a step may do to the shared variables when conflicts are never forgotten. -/
structure GrowsK (sh sh' : Shared) : Prop where
  done : sh.done = true → sh'.done = true
  fam : ∀ S, Knows sh.fam S → Knows sh'.fam S

theorem GrowsK.refl (sh : Shared) : GrowsK sh sh := ⟨id, fun _ => id⟩

/-- With `solution_as_conflict` no reported solution contains an earlier one. -/
structure RepOk (opt : DriveOpt) (sh : Shared) : Prop where
  known : opt.asConflict = true → ∀ acts ∈ sh.reports, Knows sh.fam acts.toFinset
  pair : opt.asConflict = true → sh.reports.Pairwise fun a b => ¬ a.toFinset ⊆ b.toFinset

section
variable {cfg : SynCfg σ τ ρ} {n : ℕ} {opt : DriveOpt}

theorem ThreadGo.mono {sh sh' : Shared} (hg : GrowsK sh sh') {l : Thread σ ρ} (h : ThreadGo cfg n sh l) :
    ThreadGo cfg n sh' l := by
  have hL : Learned cfg n sh l → Learned cfg n sh' l := fun ⟨F, S, h1, h2, h3, h4, h5⟩ =>
    ⟨F, S, h1, h2, h3, h4, h5.imp id (hg.fam S)⟩
  obtain ⟨phase, g, ps, trial⟩ := l
  rcases phase with _ | _ | (_ | acts) | _ | _ | _ | _
  · exact ⟨h.1, h.2.imp hg.done id⟩
  · exact h
  · exact ⟨h.1, h.2.imp hg.done (Or.imp id hL)⟩
  · exact h
  · exact ⟨h.1, h.2.imp hg.done (Or.imp id hL)⟩
  · exact ⟨h.1, h.2.imp hg.done id⟩
  · exact h
  · exact h

theorem mergeK (h0 : cfg.maxConflictSz = 0) {a b : CFam} {S : Finset ℕ} :
    Knows (mergeFam cfg a b) S ↔ Knows a S ∨ Knows b S := merge_knows (.inl h0)

/-- What is known is kept by every step. -/
theorem threadStep_keeps (h0 : cfg.maxConflictSz = 0) (t : ρ → ρ × List (Finset ℕ) × Bool) (sh : Shared)
    (l : Thread σ ρ) : GrowsK sh (threadStep cfg opt t sh l).1 ∧
      (RepOk opt sh → RepOk opt (threadStep cfg opt t sh l).1) := by
  obtain ⟨phase, g, ps, trial⟩ := l
  have same : GrowsK sh sh ∧ (RepOk opt sh → RepOk opt sh) := ⟨GrowsK.refl _, id⟩
  unfold threadStep
  rcases phase with _ | _ | out | _ | _ | _ | _
  · simp only
    split
    · exact same
    · exact same
  · simp only
    split <;> exact same
  · simp only
    unfold critFound
    rcases out with _ | acts
    · exact same
    simp only
    split
    · exact same
    split
    · exact same
    · rename_i hd hk
      have hfam : ∀ S, Knows sh.fam S → Knows (if opt.asConflict then cfg.learn acts.toFinset sh.fam else sh.fam) S := by
        intro S hS
        split
        · exact (addConflict_knows _).2 (.inl hS)
        · exact hS
      refine ⟨⟨fun h => absurd h hd, hfam⟩, fun hr => ⟨fun hc a ha => ?_, fun hc => ?_⟩⟩
      · rcases List.mem_append.1 ha with ha | ha
        · exact hfam _ (hr.known hc a ha)
        · rw [List.mem_singleton.1 ha]
          simp only [hc, if_true]
          exact (addConflict_knows _).2 (.inr (Finset.Subset.refl _))
      · rw [List.pairwise_append]
        refine ⟨hr.pair hc, by simp, fun a ha b hb hab => hk ?_⟩
        rw [List.mem_singleton.1 hb] at hab
        rw [hc, Bool.true_and]
        exact ck_mono hab (conflictCk_iff.2 (hr.known hc a ha))
  · simp only
    split
    · exact ⟨⟨fun h => by simp [h], fun S hS => (mergeK h0).2 (.inl hS)⟩,
        fun hr => ⟨fun hc a ha => (mergeK h0).2 (.inl (hr.known hc a ha)), hr.pair⟩⟩
    · exact same
  · simp only
    split
    · exact same
    · split
      · exact same
      · exact ⟨⟨fun h => by simp [h], fun _ => id⟩, fun hr => ⟨hr.known, hr.pair⟩⟩
  · exact same
  · exact same

/-- A step makes progress. -/
theorem threadStep_go (hS : OpenSetting cfg n) (h1 : 1 ≤ n) (h2 : n ≤ 2) (hR : Restarts cfg n opt)
    {t : ρ → ρ × List (Finset ℕ) × Bool} (ht : ∀ r, (t r).2.1 = []) {signal : Bool} {sh : Shared} {l : Thread σ ρ}
    (hsh : SharedOk cfg n opt signal sh) (hl : ThreadOk cfg n opt sh l)
    (htr : (threadStep cfg opt t sh l).2.g.stop = true → sh.done = true) (hgo : ThreadGo cfg n sh l) :
    ThreadGo cfg n (threadStep cfg opt t sh l).1 (threadStep cfg opt t sh l).2 := by
  obtain ⟨phase, g, ps, trial⟩ := l
  revert htr
  unfold threadStep
  rcases phase with _ | _ | out | _ | _ | _ | _
  · -- head
    simp only
    split
    · exact fun _ => hgo.1
    · rename_i hd
      rw [not_or] at hd
      exact fun _ => hgo.2.resolve_left hd.1
  · -- search
    have hb := hl.base.resolve_right (by simp)
    have ho : g.optimal = 0 := hl.optimal.resolve_right (by simp)
    have htrial := search_ok hS h1 h2 (honest_ban ht) hb ho (hl.calm rfl) hl.valid hl.anti hl.imp
    have hgo : trial + unk cfg n g.fam ≤ topTrial cfg n := hgo
    simp only at htrial ⊢
    revert htrial
    generalize addStabilization (fullEnv (cfg.withTick t) ps.insts) (3 ^ candTotal ps.insts + 2) g ps = res
    intro htrial
    rcases res with _ | ⟨g' | ⟨g', acts⟩⟩
    · exact htrial.elim
    · intro hst
      obtain ⟨hV, hf⟩ := htrial
      refine ⟨by simp only; omega, ?_⟩
      rcases hf with h | h | h | h
      · exact .inl (hst h)
      · have : 0 < cfg.maxDepth := h
        rw [hR.depth] at this
        omega
      · exact .inr (.inl h.2)
      · obtain ⟨S, q1, q2, q3⟩ := h.2 hR.size hR.learns
        exact .inr (.inr ⟨g.fam, S, hV.past.mono, hgo, fun e he => mem_allActs (q1 e he), q2, .inl q3⟩)
    · intro hst
      obtain ⟨-, v1, v2, v3, v4, v5, v6, v7, -⟩ := htrial
      exact ⟨by simp only; omega, g.fam, v2.mono, hgo, v6⟩
  · -- the first half of the critical section
    simp only
    intro hst
    rcases out with _ | acts
    · exact hgo
    obtain ⟨q1, F, q2, q3, q4⟩ := hgo
    refine ⟨q1, ?_⟩
    simp only at q1 q2 q3 ⊢
    have hsub : acts.toFinset ⊆ allActs cfg n := fun e he =>
      mem_allActs ((hl.out acts rfl).act e (List.mem_toFinset.1 he))
    unfold critFound
    simp only
    split
    · rename_i hd
      exact .inl hd
    split
    · rename_i hd hk
      rw [Bool.and_eq_true] at hk
      exact .inr (.inr ⟨F, acts.toFinset, q2, q3, hsub, q4, .inr (conflictCk_iff.1 hk.2)⟩)
    · by_cases ha : opt.tryAll = true
      · refine .inr (.inr ⟨F, acts.toFinset, q2, q3, hsub, q4, .inr ?_⟩)
        simp only [hR.all ha, if_true]
        exact (addConflict_knows _).2 (.inr (Finset.Subset.refl _))
      · refine .inl ?_
        simp only [Bool.not_eq_true] at ha
        simp [ha]
  · -- the second half
    simp only
    split
    · intro hst
      obtain ⟨q1, q2⟩ := hgo
      refine ⟨q1, ?_⟩
      simp only at q1 q2 ⊢
      rcases q2 with h | h | ⟨F, S, h3, h4, h5, h6, h7⟩
      · exact .inl (by simp [h])
      · refine .inl ?_
        have : satCk (mergeFam cfg sh.fam g.fam) = false := by
          rw [satCk_iff (merge_anti hl.anti), ← knows_empty]
          exact (mergeK hR.size).2 (.inr h)
        simp [this]
      · right
        simp only at h3 h4
        have := unk_lt (cfg := cfg) (n := n) (F := F) (fam := mergeFam cfg sh.fam g.fam)
          (fun S hS => (mergeK hR.size).2 (.inr (h3 S hS))) h5 h6 ((mergeK hR.size).2 h7.symm)
        omega
    · rename_i hc
      intro _
      obtain ⟨q1, q2⟩ := hgo
      refine ⟨q1, .inl ?_⟩
      rw [not_or] at hc
      simpa using hc.1
  · -- the end of the loop
    have hb := hl.base.resolve_right (by simp)
    have ho : g.optimal = 0 := hl.optimal.resolve_right (by simp)
    obtain ⟨q1, q2⟩ := hgo
    simp only at q1 q2 ⊢
    split
    · intro _
      exact ⟨Nat.succ_le_succ q1, q2⟩
    · rename_i hd
      rw [not_or] at hd
      have hns : g.stop = false := by
        by_contra hst
        exact hd.1 (hl.stop (by simpa using hst))
      obtain ⟨g', ok, ps', m, r1, r2, r3, r4⟩ := prune_ok hS h1 h2 (honest_ban ht) hb ho hns hl.valid hl.anti hl.imp
        (D := g.fam.impossible ∩ (((ps.insts.head?).map fun x => x.rest.2.cands).getD []).toFinset)
        Finset.inter_subset_left
      rw [r1]
      simp only
      intro hst
      refine ⟨Nat.succ_le_succ q1, .inr ?_⟩
      have hm := unk_mono (cfg := cfg) (n := n) r2.past.mono
      have := q2.resolve_left hd.1
      simp only
      omega
  · exact fun _ => hgo
  · exact fun _ => hgo

/-- A thread that is at its end was told so, or has used up its trials. -/
theorem threadStep_fin (t : ρ → ρ × List (Finset ℕ) × Bool) (sh : Shared) (l : Thread σ ρ)
    (h : (threadStep cfg opt t sh l).2.phase = .fin) : l.phase = .fin ∨ sh.done = true ∨ 0 < opt.ntrials := by
  obtain ⟨phase, g, ps, trial⟩ := l
  revert h
  unfold threadStep
  rcases phase with _ | _ | out | _ | _ | _ | _
  · simp only
    split
    · rename_i hd
      exact fun _ => .inr (hd.imp id fun h => h.1)
    · simp
  · simp only
    split <;> simp
  · simp
  · simp only
    split <;> simp
  · simp only
    split
    · simp
    · split <;> simp
  · simp
  · simp

/-- The steps that a thread may still make. -/
def work (cfg : SynCfg σ τ ρ) (n : ℕ) (l : Thread σ ρ) : ℕ :=
  match l.phase with
  | .head => 5 * (topTrial cfg n + 2 - l.trial) + 5
  | .search => 5 * (topTrial cfg n + 2 - l.trial) + 4
  | .tried _ => 5 * (topTrial cfg n + 2 - l.trial) + 3
  | .merge => 5 * (topTrial cfg n + 2 - l.trial) + 2
  | .prune => 5 * (topTrial cfg n + 2 - l.trial) + 1
  | .fin => 0
  | .abort => 0

theorem threadStep_work (t : ρ → ρ × List (Finset ℕ) × Bool) {sh : Shared} {l : Thread σ ρ}
    (ho : l.phase.over = false) (hgo : ThreadGo cfg n sh l) :
    work cfg n (threadStep cfg opt t sh l).2 < work cfg n l := by
  obtain ⟨phase, g, ps, trial⟩ := l
  unfold threadStep
  rcases phase with _ | _ | out | _ | _ | _ | _
  · simp only
    split <;> simp only [work] <;> omega
  · simp only
    split <;> simp only [work] <;> omega
  · simp only [work]; omega
  · simp only
    split <;> simp only [work] <;> omega
  · have : trial ≤ topTrial cfg n := hgo.1
    simp only
    split
    · simp only [work]; omega
    · split <;> simp only [work] <;> omega
  · cases ho
  · cases ho

/-- When `done_ck` always returns false then a thread is not stopped. -/
theorem threadStep_calm (hS : OpenSetting cfg n) (h1 : 1 ≤ n) (h2 : n ≤ 2) {sh : Shared} {l : Thread σ ρ}
    (hl : ThreadOk cfg n opt sh l) : (threadStep cfg opt calmTick sh l).2.g.stop = true → sh.done = true := by
  obtain ⟨phase, g, ps, trial⟩ := l
  unfold threadStep
  rcases phase with _ | _ | out | _ | _ | _ | _
  · simp only
    split <;> exact hl.stop
  · have hb := hl.base.resolve_right (by simp)
    have ho : g.optimal = 0 := hl.optimal.resolve_right (by simp)
    have htrial := search_ok hS h1 h2 (t := calmTick) (honest_ban fun _ => rfl) hb ho (hl.calm rfl) hl.valid hl.anti hl.imp
    simp only at htrial ⊢
    revert htrial
    generalize addStabilization (fullEnv (cfg.withTick calmTick) ps.insts) (3 ^ candTotal ps.insts + 2) g ps = res
    intro htrial hst
    rcases res with _ | ⟨g' | ⟨g', acts⟩⟩
    · exact htrial.elim
    · have := htrial.1.calm fun _ => rfl
      simp only at hst
      rw [this] at hst
      cases hst
    · have := htrial.2.2.2.2.2.2.2.2 fun _ => rfl
      simp only at hst
      rw [this] at hst
      cases hst
  · exact hl.stop
  · simp only
    split <;> exact hl.stop
  · have hb := hl.base.resolve_right (by simp)
    have ho : g.optimal = 0 := hl.optimal.resolve_right (by simp)
    simp only
    split
    · exact hl.stop
    · rename_i hd
      rw [not_or] at hd
      have hns : g.stop = false := by
        by_contra hst
        exact hd.1 (hl.stop (by simpa using hst))
      obtain ⟨g', ok, ps', m, r1, r2, r3, r4⟩ := prune_ok hS h1 h2 (t := calmTick) (honest_ban fun _ => rfl) hb ho hns hl.valid
        hl.anti hl.imp (D := g.fam.impossible ∩ (((ps.insts.head?).map fun x => x.rest.2.cands).getD []).toFinset)
        Finset.inter_subset_left
      rw [r1]
      simp only
      intro hst
      rw [r2.calm fun _ => rfl] at hst
      cases hst
  · exact hl.stop
  · exact hl.stop

end

/-! ### All threads -/

section
variable {cfg : SynCfg σ τ ρ} {n : ℕ} {opt : DriveOpt} {N : ℕ}

theorem DReach.fin (hS : OpenSetting cfg n) (h1 : 1 ≤ n) (h2 : n ≤ 2) {rng : Fin N → ρ} {s : DState σ ρ N}
    (h : DReach cfg opt n N rng s) : ∀ p, (s.th p).phase = .fin → s.sh.done = true ∨ 0 < opt.ntrials := by
  induction h with
  | refl =>
    intro p hp
    have := (initThread_ok (opt := opt) hS h1 h2 (rng p) (sh := ⟨true, false, [], [], CFam.empty⟩) (fun _ => rfl) rfl).2.1
    have hp : (initThread cfg n (rng p)).2.phase = .fin := hp
    rw [this] at hp
    cases hp
  | tail hr h ih =>
    have hI := DReach.inv hS h1 h2 hr
    have hg := (DStep.inv hS h1 h2 hI h).2
    cases h with
    | signal hs => exact fun _ _ => .inl rfl
    | run p t _ ht htr =>
      intro p' hp'
      simp only [stepAt] at hp' hg ⊢
      by_cases hp : p' = p
      · subst hp
        rw [Function.update_self] at hp'
        rcases threadStep_fin t _ _ hp' with h | h | h
        · exact (ih p' h).imp hg.done id
        · exact .inl (hg.done h)
        · exact .inr h
      · rw [Function.update_of_ne hp] at hp'
        exact (ih p' hp').imp hg.done id

theorem DReach.rep (h0 : cfg.maxConflictSz = 0) {rng : Fin N → ρ} {s : DState σ ρ N}
    (h : DReach cfg opt n N rng s) : RepOk opt s.sh := by
  induction h with
  | refl => exact ⟨by simp [driveInit], by simp [driveInit]⟩
  | tail hr h ih =>
    cases h with
    | signal hs => exact ⟨ih.known, ih.pair⟩
    | run p t _ ht htr => exact (threadStep_keeps h0 t _ _).2 ih

/-- The steps that all threads together may still make. -/
def workAll (cfg : SynCfg σ τ ρ) (n : ℕ) (s : DState σ ρ N) : ℕ :=
  (∑ p, work cfg n (s.th p)) + if s.signal then 0 else 1

theorem driveInit_go (hS : OpenSetting cfg n) (h1 : 1 ≤ n) (h2 : n ≤ 2) (rng : Fin N → ρ) (p : Fin N) :
    ThreadGo cfg n (driveInit cfg n N rng).sh ((driveInit cfg n N rng).th p) ∧
      work cfg n ((driveInit cfg n N rng).th p) = 5 * (topTrial cfg n + 3) := by
  obtain ⟨-, q2, q3, -⟩ := initThread_ok (opt := ⟨false, false, false, 0⟩) hS h1 h2 (rng p)
    (sh := ⟨true, false, [], [], CFam.empty⟩) (fun _ => rfl) rfl
  have hth : (driveInit cfg n N rng).th p = (initThread cfg n (rng p)).2 := rfl
  rw [hth]
  revert q2 q3
  generalize (initThread cfg n (rng p)).2 = l
  intro q2 q3
  obtain ⟨phase, g, ps, trial⟩ := l
  simp only at q2 q3
  subst q2 q3
  refine ⟨⟨Nat.zero_le _, .inr ?_⟩, ?_⟩
  · simp only [Nat.zero_add]
    exact unk_top _
  · simp only [work]; omega

theorem DReach.go (hS : OpenSetting cfg n) (h1 : 1 ≤ n) (h2 : n ≤ 2) (hR : Restarts cfg n opt) {rng : Fin N → ρ}
    {s : DState σ ρ N} (h : DReach cfg opt n N rng s) : ∀ p, ThreadGo cfg n s.sh (s.th p) := by
  induction h with
  | refl => exact fun p => (driveInit_go hS h1 h2 rng p).1
  | tail hr h ih =>
    have hI := DReach.inv hS h1 h2 hr
    cases h with
    | signal hs =>
      intro p
      refine ThreadGo.mono ?_ (ih p)
      exact ⟨fun _ => rfl, fun _ => id⟩
    | run p t _ ht htr =>
      simp only [stepAt, Function.update_self] at htr
      intro p'
      simp only [stepAt]
      by_cases hp : p' = p
      · subst hp
        rw [Function.update_self]
        exact threadStep_go hS h1 h2 hR ht hI.sh (hI.th p') htr (ih p')
      · rw [Function.update_of_ne hp]
        exact (ih p').mono (threadStep_keeps hR.size t _ _).1

theorem DStep.work {s s' : DState σ ρ N} (hgo : ∀ p, ThreadGo cfg n s.sh (s.th p)) (h : DStep cfg opt s s') :
    workAll cfg n s' < workAll cfg n s := by
  cases h with
  | signal hs => simp [workAll, hs]
  | run p t ho ht htr =>
    unfold workAll
    simp only [stepAt]
    apply Nat.add_lt_add_right
    apply Finset.sum_lt_sum
    · intro p' _
      by_cases hp : p' = p
      · subst hp
        rw [Function.update_self]
        exact (threadStep_work t ho (hgo p')).le
      · rw [Function.update_of_ne hp]
    · refine ⟨p, Finset.mem_univ p, ?_⟩
      rw [Function.update_self]
      exact threadStep_work t ho (hgo p)

end

end Verif.Proofs
