import Verif.Model.Mpi
import Verif.Proofs.DriveEnd

/-!
Invariants of the driver of the distributed search (Model/Mpi).
-/

set_option linter.unusedSectionVars false

namespace Verif.Proofs
open Verif.Spec Verif.Model Verif.Props

variable {σ τ : ℕ → Type} [∀ i, Fintype (σ i)] [∀ i, DecidableEq (σ i)] [∀ i, DecidableEq (τ i)] {ρ : Type}

section
variable (cfg : SynCfg σ τ ρ) (n : ℕ) (opt : DriveOpt)

/-- A protocol that has been found. -/
structure MFound (acts : List ℕ) : Prop where
  nodup : acts.Nodup
  given : cfg.given.toFinset ⊆ acts.toFinset
  meets : ∀ i < n, Meets ((taskOf cfg n).demand i) (acts.toFinset.biUnion (cfg.actXn i))
  act : ∀ a ∈ acts, MayAdd cfg n a
  legal : ∀ B, (taskOf cfg n).banned B → ¬ B ⊆ acts.toFinset

structure ProcOk (term : Bool) (l : Proc σ ρ) : Prop where
  noabort : l.phase ≠ .abort
  valid : Valid (ban cfg calmTick []) n l.g.fam
  anti : Anti l.g.fam.sets
  imp : ImpInv l.g.fam
  known : ∀ B, (taskOf cfg n).banned B → Knows l.g.fam B
  optimal : l.g.optimal = 0
  stop : l.g.stop = true → term = true
  calm : l.phase = .search → l.g.stop = false
  base : ThBase cfg n [] l.ps ∨ (l.g.stop = true ∧ (l.phase = .head ∨ l.phase = .fin))
  out : ∀ acts, l.phase = .tried (some acts) → l.found = true ∧ MFound cfg n acts
  ret : l.found = true → MFound cfg n l.ret ∧ 0 < l.nlayers
  reports : ∀ acts ∈ l.reports, MFound cfg n acts
  counted : l.reports ≠ [] → l.found = true
  own : l.reports = [] → l.own = CFam.empty
  last : l.reports ≠ [] → opt.tryAll = false → l.g.stop = true

end

section
variable {cfg : SynCfg σ τ ρ} {n : ℕ} {opt : DriveOpt}

theorem ProcOk.mono {term term' : Bool} (ht : term = true → term' = true) {l : Proc σ ρ} (h : ProcOk cfg n opt term l) :
    ProcOk cfg n opt term' l := { h with stop := fun hs => ht (h.stop hs) }

/-- `done_ck`. -/
theorem mpi_poll (h1 : 1 ≤ n) {t : ρ → ρ × List (Finset ℕ) × Bool} (hm : Honest (ban cfg t []) n) {g : SynG ρ}
    (ho : g.optimal = 0) (hv : Valid (ban cfg calmTick []) n g.fam) (ha : Anti g.fam.sets) (hi : ImpInv g.fam) :
    (pollG (cfg.withTick t) g).1.optimal = 0 ∧
    Valid (ban cfg calmTick []) n (pollG (cfg.withTick t) g).1.fam ∧
    Past g.fam (pollG (cfg.withTick t) g).1.fam ∧
    (pollG (cfg.withTick t) g).1.stop = (pollG (cfg.withTick t) g).2 ∧
    ((pollG (cfg.withTick t) g).2 = true → g.stop = true ∨ ∃ r, (t r).2.2 = true) ∧
    (g.stop = true → (pollG (cfg.withTick t) g).2 = true) := by
  have e : pollG (cfg.withTick t) g = pollG (ban cfg t []) g := rfl
  rw [e]
  rcases hs : g.stop with _ | _
  · obtain ⟨v, -, q⟩ := poll_ok hm (F := g.fam) (g := g)
      ⟨ho, valid_mono h1 (fun _ h => h) hv, ⟨ha, hi, fun _ h => h⟩, fun _ => hs⟩
    refine ⟨v.opt, valid_mono h1 (fun _ h => h) v.valid, v.past, q, fun h => .inr ?_, fun h => by cases h⟩
    have : (pollG (ban cfg t []) g).2 = (t g.rng).2.2 := by
      unfold pollG
      rw [hs]
      rfl
    exact ⟨_, this ▸ h⟩
  · have : pollG (ban cfg t []) g = (g, true) := by
      unfold pollG
      rw [if_pos hs]
    rw [this]
    exact ⟨ho, hv, ⟨ha, hi, fun _ h => h⟩, hs, fun _ => .inl rfl, fun _ => rfl⟩

/-- Why a process terminates the search. -/
def Reason (cfg : SynCfg σ τ ρ) (n : ℕ) (opt : DriveOpt) (term : Bool) (l : Proc σ ρ) : Prop :=
  term = true ∨ (opt.tryAll = false ∧ l.found = true) ∨ (opt.tryAll = true ∧ 0 < opt.ntrials) ∨ ∀ T, ¬ SolOf cfg n T

theorem sol_nil (h1 : 1 ≤ n) {t : ρ → ρ × List (Finset ℕ) × Bool} {T : Finset ℕ} :
    SolOf (ban cfg t []) n T ↔ SolOf cfg n T := by
  rw [sol_ban h1]
  simp

/-- A step of a process. -/
theorem mpiStep_ok (hS : OpenSetting cfg n) (h1 : 1 ≤ n) (h2 : n ≤ 2) {t : ρ → ρ × List (Finset ℕ) × Bool}
    (hm : Honest (ban cfg t []) n) {term : Bool} (ht : ∀ r, (t r).2.2 = true → term = true) {l : Proc σ ρ}
    (hl : ProcOk cfg n opt term l) :
    ProcOk cfg n opt (term || (mpiStep cfg opt t l).1) (mpiStep cfg opt t l).2 ∧
      ((mpiStep cfg opt t l).1 = true → Reason cfg n opt term (mpiStep cfg opt t l).2) ∧
      (l.found = true → (mpiStep cfg opt t l).2.found = true) := by
  obtain ⟨phase, g, ps, trial, found, ret, nlayers, own, reports⟩ := l
  obtain ⟨hna, hv, ha, hi, hk, ho, hst, hcalm, hbase, hout, hret, hrep, hcnt, hown, hlast⟩ := hl
  simp only at hna hv ha hi hk ho hst hcalm hbase hout hret hrep hcnt hown hlast
  obtain ⟨p1, p2, p3, p4, p5, p6⟩ := mpi_poll h1 hm ho hv ha hi
  have pst : (pollG (cfg.withTick t) g).2 = true → term = true := fun h =>
    (p5 h).elim hst fun ⟨r, hr⟩ => ht r hr
  have plast : reports ≠ [] → opt.tryAll = false → (pollG (cfg.withTick t) g).1.stop = true := fun a b => by
    rw [p4]; exact p6 (hlast a b)
  unfold mpiStep
  rcases phase with _ | _ | out | _ | _ | _
  · -- head
    simp only
    revert p1 p2 p3 p4 p5 p6 pst plast
    generalize pollG (cfg.withTick t) g = r
    intro p1 p2 p3 p4 p5 p6 pst plast
    split
    · rename_i hd
      refine ⟨⟨by simp, p2, p3.anti, p3.imp, fun B hB => p3.mono _ (hk B hB), p1, fun h => ?_, by simp, ?_, by simp, hret,
        hrep, hcnt, hown, plast⟩, fun h => ?_, id⟩
      · rw [p4] at h
        simp [pst h]
      · exact hbase.imp id fun h => ⟨by rw [p4]; exact p6 h.1, .inr rfl⟩
      · rcases hd with hd | hd
        · exact .inl (pst hd)
        · exact .inr (.inr (.inl ⟨h, hd.1⟩))
    · rename_i hd
      rw [not_or] at hd
      have hf : r.1.stop = false := by rw [p4]; simpa using hd.1
      refine ⟨⟨by simp, p2, p3.anti, p3.imp, fun B hB => p3.mono _ (hk B hB), p1, fun h => ?_, fun _ => hf, .inl ?_, by simp,
        hret, hrep, hcnt, hown, plast⟩, by simp, id⟩
      · simp only at h
        rw [hf] at h
        cases h
      · exact hbase.resolve_right fun h => hd.1 (p6 h.1)
  · -- search
    have hb := hbase.resolve_right (by simp)
    have htrial := search_ok hS h1 h2 hm hb ho (hcalm rfl) hv ha hi
    have hr0 : reports ≠ [] → opt.tryAll = false → False := fun a b => by
      have := hlast a b
      rw [hcalm rfl] at this
      cases this
    have hq : ∀ g' : SynG ρ, ((∀ r, (t r).2.2 = false) → g'.stop = false) → g'.stop = true → term = true := by
      intro g' hc hs
      by_contra hno
      have : g'.stop = false := hc fun r => by
        rw [Bool.eq_false_iff]
        exact fun h => hno (ht r h)
      rw [this] at hs
      cases hs
    simp only at htrial ⊢
    revert htrial
    generalize addStabilization (fullEnv (cfg.withTick t) ps.insts) (3 ^ candTotal ps.insts + 2) g ps = res
    intro htrial
    rcases res with _ | ⟨g' | ⟨g', acts⟩⟩
    · exact htrial.elim
    · obtain ⟨hV, -⟩ := htrial
      refine ⟨⟨by simp, valid_mono h1 (fun _ h => h) hV.valid, hV.past.anti, hV.past.imp,
        fun B hB => hV.past.mono _ (hk B hB), hV.opt, fun h => ?_, by simp, .inl hb, by simp, hret, hrep, hcnt, hown,
        fun a b => (hr0 a b).elim⟩, by simp, id⟩
      simp [hq g' hV.calm h]
    · obtain ⟨w0, v1, v2, v3, v4, v5, v6, v7, v8⟩ := htrial
      have hF : MFound cfg n acts := ⟨v3, v4, v5, v7, fun B hB hsub => v6
        (conflictCk_iff.1 (ck_mono hsub (conflictCk_iff.2 (hk B hB))))⟩
      refine ⟨⟨by simp, valid_mono h1 (fun _ h => h) v1, v2.anti, v2.imp,
        fun B hB => v2.mono _ (hk B hB), rfl, fun h => ?_, by simp, .inl hb, ?_, fun _ => ⟨hF, w0⟩, hrep, fun _ => rfl, hown,
        fun a b => (hr0 a b).elim⟩, by simp, fun _ => rfl⟩
      · simp [hq g' v8 h]
      · intro acts' he
        simp only [MPhase.tried.injEq, Option.some.injEq] at he
        subst he
        exact ⟨rfl, hF⟩
  · -- the result
    have hb := hbase.resolve_right (by simp)
    simp only
    revert p1 p2 p3 p4 p5 p6 pst plast
    generalize pollG (cfg.withTick t) g = r
    intro p1 p2 p3 p4 p5 p6 pst plast
    split
    · refine ⟨⟨by simp, p2, p3.anti, p3.imp, fun B hB => p3.mono _ (hk B hB), p1, fun h => ?_, by simp, .inl hb, by simp, hret,
        hrep, hcnt, hown, plast⟩, by simp, id⟩
      rw [p4] at h
      simp [pst h]
    · rename_i hd
      have hf : r.1.stop = false := by rw [p4]; simpa using hd
      unfold mpiFound
      rcases out with _ | acts
      · simp only
        split
        · refine ⟨⟨by simp, p2, p3.anti, p3.imp, fun B hB => p3.mono _ (hk B hB), p1, fun h => ?_, by simp, .inl hb, by simp,
            hret, hrep, hcnt, hown, plast⟩, by simp, id⟩
          rw [p4] at h
          simp [pst h]
        · rename_i hs
          refine ⟨⟨by simp [Proc.halt], p2, p3.anti, p3.imp, fun B hB => p3.mono _ (hk B hB), p1, fun _ => by simp,
            by simp [Proc.halt], .inl hb, by simp [Proc.halt], hret, hrep, hcnt, hown, fun _ _ => rfl⟩, fun _ => ?_, id⟩
          refine .inr (.inr (.inr fun T hT => ?_))
          refine p2.sub (Finset.empty_subset T) ((sol_nil h1).2 hT) (conflictCk_iff.2 ?_)
          exact knows_empty.2 ((satCk_iff p3.anti).1 (by simpa using hs))
      · obtain ⟨hfd, hF⟩ := hout acts rfl
        simp only
        split
        · refine ⟨⟨by simp, p2, p3.anti, p3.imp, fun B hB => p3.mono _ (hk B hB), p1, fun h => ?_, by simp, .inl hb, by simp,
            hret, hrep, hcnt, hown, plast⟩, by simp, id⟩
          rw [p4] at h
          simp [pst h]
        · have hrep' : ∀ a ∈ reports ++ [acts], MFound cfg n a := by
            intro a ha
            rcases List.mem_append.1 ha with ha | ha
            · exact hrep a ha
            · rw [List.mem_singleton.1 ha]; exact hF
          split
          · rename_i hta
            refine ⟨⟨by simp, p2, p3.anti, p3.imp, fun B hB => p3.mono _ (hk B hB), p1, fun h => ?_, by simp, .inl hb, by simp,
              hret, hrep', fun _ => hfd, by simp, fun _ h => ?_⟩, by simp, id⟩
            · rw [p4] at h
              simp [pst h]
            · rw [hta] at h; cases h
          · rename_i hta
            refine ⟨⟨by simp [Proc.halt], p2, p3.anti, p3.imp, fun B hB => p3.mono _ (hk B hB), p1, fun h => by simp,
              by simp [Proc.halt], .inl hb, by simp [Proc.halt], hret, hrep', fun _ => hfd, by simp [Proc.halt], fun _ _ => rfl⟩,
              fun _ => .inr (.inl ⟨by simpa using hta, hfd⟩), id⟩
  · -- the end of the loop
    have hb := hbase.resolve_right (by simp)
    simp only
    revert p1 p2 p3 p4 p5 p6 pst plast
    generalize pollG (cfg.withTick t) g = r
    intro p1 p2 p3 p4 p5 p6 pst plast
    split
    · refine ⟨⟨by simp, p2, p3.anti, p3.imp, fun B hB => p3.mono _ (hk B hB), p1, fun h => ?_, by simp, .inl hb, by simp, hret,
        hrep, hcnt, hown, plast⟩, by simp, id⟩
      rw [p4] at h
      simp [pst h]
    · rename_i hd
      rw [not_or] at hd
      have hf : r.1.stop = false := by rw [p4]; simpa using hd.1
      obtain ⟨g', ok, ps', m, r1, r2, r3, r4⟩ := prune_ok hS h1 h2 hm hb p1 hf p2 p3.anti p3.imp
        (D := r.1.fam.impossible ∩ (((ps.insts.head?).map fun x => x.rest.2.cands).getD []).toFinset)
        Finset.inter_subset_left
      rw [r1]
      simp only
      have hr0 : reports ≠ [] → opt.tryAll = false → False := fun a b => by
        have := plast a b
        rw [hf] at this
        cases this
      have hq : g'.stop = true → term = true := by
        intro hs
        by_contra hno
        have : g'.stop = false := r2.calm fun r => by
          rw [Bool.eq_false_iff]
          exact fun h => hno (ht r h)
        rw [this] at hs
        cases hs
      have hk' : ∀ B, (taskOf cfg n).banned B → Knows g'.fam B := fun B hB => r2.past.mono _ (p3.mono _ (hk B hB))
      split
      · rename_i hok
        refine ⟨⟨by simp, valid_mono h1 (fun _ h => h) r2.valid, r2.past.anti, r2.past.imp, hk', r2.opt, fun h => by simp [hq h],
          by simp, .inl (r4 hok), by simp, hret, hrep, hcnt, hown, fun a b => (hr0 a b).elim⟩, by simp, id⟩
      · rename_i hok
        refine ⟨⟨by simp [Proc.halt], valid_mono h1 (fun _ h => h) r2.valid, r2.past.anti, r2.past.imp, hk', r2.opt,
          fun h => by simp, by simp [Proc.halt], .inr ⟨rfl, .inl rfl⟩, by simp [Proc.halt], hret, hrep, hcnt, hown,
          fun a b => (hr0 a b).elim⟩, fun _ => ?_, id⟩
        rcases r3 (by simpa using hok) with h | h
        · exact .inl (hq h)
        · exact .inr (.inr (.inr fun T hT => h T ((sol_nil h1).2 hT)))
  · exact ⟨⟨hna, hv, ha, hi, hk, ho, fun h => by simp [hst h], hcalm, hbase, hout, hret, hrep, hcnt, hown, hlast⟩, by simp, id⟩
  · exact absurd rfl hna

end

/-! ### All processes -/

structure MInv {N : ℕ} (cfg : SynCfg σ τ ρ) (n : ℕ) (opt : DriveOpt) (s : MState σ ρ N) : Prop where
  pool : ∀ B ∈ s.pool, ∀ T, SolOf cfg n T → ¬ B ⊆ T
  pr : ∀ p, ProcOk cfg n opt s.term (s.pr p)
  why : s.term = true → s.signal = true ∨ (opt.tryAll = false ∧ ∃ p, (s.pr p).found = true) ∨
    (opt.tryAll = true ∧ 0 < opt.ntrials) ∨ ∀ T, ¬ SolOf cfg n T

section
variable {cfg : SynCfg σ τ ρ} {n : ℕ} {opt : DriveOpt} {N : ℕ}

theorem mpiProc_ok (hS : OpenSetting cfg n) (h1 : 1 ≤ n) (h2 : n ≤ 2) (rng : ρ) {term : Bool}
    (ht : (mpiProc cfg n rng).1 = false → term = true) : ProcOk cfg n opt term (mpiProc cfg n rng).2 ∧
      (mpiProc cfg n rng).2.phase = .head ∧ (mpiProc cfg n rng).2.trial = 0 ∧
      ((mpiProc cfg n rng).1 = false → ∀ T, ¬ SolOf cfg n T) := by
  obtain ⟨q, qh, -, qn⟩ := initThread_ok (opt := ⟨false, false, false, 0⟩) hS h1 h2 rng
    (sh := ⟨!(initThread cfg n rng).1, false, [], [], CFam.empty⟩) (fun h => by simp [h]) rfl
  have hk : ∀ B, (taskOf cfg n).banned B → Knows (initThread cfg n rng).2.g.fam B := by
    have hS' := open_calm hS
    obtain ⟨g, ok, ps, m, e, hV, -, -⟩ := startUp_ok hS' h1 h2
      (fuel := ((List.range n).map fun i => (cfg.cands i).length).sum + 1) (Nat.lt_succ_self _) rng
    have hban := (start_fam hS' h1 rfl).2.2.2.2
    intro B hB
    unfold initThread
    rw [e]
    exact hV.past.mono _ (hban B hB)
  have hst : (initThread cfg n rng).2.g.stop = false := by
    have hS' := open_calm hS
    obtain ⟨g, ok, ps, m, e, hV, -, -⟩ := startUp_ok hS' h1 h2
      (fuel := ((List.range n).map fun i => (cfg.cands i).length).sum + 1) (Nat.lt_succ_self _) rng
    unfold initThread
    rw [e]
    exact hV.calm fun _ => rfl
  unfold mpiProc at ht ⊢
  revert q qh qn hk hst ht
  generalize initThread cfg n rng = r
  intro ht q qh qn hk hst
  obtain ⟨ok, phase, g, ps, trial⟩ := r
  simp only at ht q qh qn hk hst
  subst qh
  have qv : Valid (ban cfg calmTick []) n g.fam := q.valid
  have qo : g.optimal = 0 := q.optimal.resolve_right (by simp)
  rcases ok with _ | _
  · refine ⟨⟨by simp [Proc.halt], qv, q.anti, q.imp, hk, qo, fun _ => ht rfl, by simp [Proc.halt], .inr ⟨rfl, .inl rfl⟩,
      by simp [Proc.halt], by simp [Proc.halt], by simp [Proc.halt], by simp [Proc.halt], fun _ => rfl, fun _ _ => rfl⟩, rfl, rfl, qn⟩
  · refine ⟨⟨by simp, qv, q.anti, q.imp, hk, qo, fun h => ?_, by simp, .inl ?_, by simp, by simp, by simp, by simp,
      fun _ => rfl, by simp⟩, rfl, rfl, qn⟩
    · have : g.stop = true := h
      rw [hst] at this
      cases this
    · exact q.base.resolve_right (by simp)

theorem mpiInit_ok (hS : OpenSetting cfg n) (h1 : 1 ≤ n) (h2 : n ≤ 2) (rng : Fin N → ρ) :
    MInv cfg n opt (mpiInit cfg n N rng) := by
  refine ⟨by simp [mpiInit], fun p => ?_, fun h => ?_⟩
  · refine (mpiProc_ok hS h1 h2 (rng p) fun h => ?_).1
    show decide (∃ p, (mpiProc cfg n (rng p)).1 = false) = true
    rw [decide_eq_true_eq]
    exact ⟨p, h⟩
  · have : decide (∃ p, (mpiProc cfg n (rng p)).1 = false) = true := h
    rw [decide_eq_true_eq] at this
    obtain ⟨p, hp⟩ := this
    exact .inr (.inr (.inr ((mpiProc_ok (opt := opt) hS h1 h2 (rng p) (term := true) fun _ => rfl).2.2.2 hp)))

theorem pool_honest (h1 : 1 ≤ n) {pool : List (Finset ℕ)} (hp : ∀ B ∈ pool, ∀ T, SolOf cfg n T → ¬ B ⊆ T)
    {t : ρ → ρ × List (Finset ℕ) × Bool} (ht : ∀ r, ∀ b ∈ (t r).2.1, b ∈ pool) : Honest (ban cfg t []) n :=
  fun r b hb T hT => hp b (ht r b hb) T ((sol_nil h1).1 hT)

theorem MStep.inv (hS : OpenSetting cfg n) (h1 : 1 ≤ n) (h2 : n ≤ 2) {s s' : MState σ ρ N} (hI : MInv cfg n opt s)
    (h : MStep cfg opt s s') : MInv cfg n opt s' := by
  cases h with
  | signal hs => exact ⟨hI.pool, fun p => (hI.pr p).mono fun _ => rfl, fun _ => .inl rfl⟩
  | emit p t B _ hp hk =>
    refine ⟨fun C hC => ?_, hI.pr, hI.why⟩
    rcases List.mem_cons.1 hC with rfl | hC
    · obtain ⟨A, hA, hAB⟩ := hk
      have := (mpiStep_ok hS h1 h2 (pool_honest h1 hI.pool hp) (term := true) (fun _ _ => rfl)
        ((hI.pr p).mono fun _ => rfl)).1.valid
      intro T hT hsub
      exact this.sub (hAB.trans hsub) ((sol_nil h1).2 hT) (conflictCk_iff.2 ⟨A, hA, Finset.Subset.refl _⟩)
    · exact hI.pool C hC
  | run p t _ hp ht =>
    obtain ⟨q1, q2, q3⟩ := mpiStep_ok hS h1 h2 (pool_honest h1 hI.pool hp) ht (hI.pr p)
    have hfound : ∀ p', (s.pr p').found = true → ((mpiAt cfg opt t p s).pr p').found = true := by
      intro p' h
      simp only [mpiAt]
      by_cases hp : p' = p
      · subst hp
        rw [Function.update_self]
        exact q3 h
      · rw [Function.update_of_ne hp]
        exact h
    refine ⟨hI.pool, fun p' => ?_, fun h => ?_⟩
    · simp only [mpiAt]
      by_cases hp : p' = p
      · subst hp
        rw [Function.update_self]
        exact q1
      · rw [Function.update_of_ne hp]
        exact (hI.pr p').mono fun h => by simp [h]
    · have hold : s.term = true → s.signal = true ∨
          (opt.tryAll = false ∧ ∃ p', ((mpiAt cfg opt t p s).pr p').found = true) ∨
          (opt.tryAll = true ∧ 0 < opt.ntrials) ∨ ∀ T, ¬ SolOf cfg n T := fun h =>
        (hI.why h).imp id (Or.imp (fun ⟨a, p', h⟩ => ⟨a, p', hfound p' h⟩) id)
      have h : (s.term || (mpiStep cfg opt t (s.pr p)).1) = true := h
      rw [Bool.or_eq_true] at h
      rcases h with h | h
      · exact hold h
      · rcases q2 h with h | h | h | h
        · exact hold h
        · exact .inr (.inl ⟨h.1, p, by simpa [mpiAt] using h.2⟩)
        · exact .inr (.inr (.inl h))
        · exact .inr (.inr (.inr h))

theorem MReach.inv (hS : OpenSetting cfg n) (h1 : 1 ≤ n) (h2 : n ≤ 2) {rng : Fin N → ρ} {s : MState σ ρ N}
    (h : MReach cfg opt n N rng s) : MInv cfg n opt s := by
  induction h with
  | refl => exact mpiInit_ok hS h1 h2 rng
  | tail _ h ih => exact MStep.inv hS h1 h2 ih h

end

end Verif.Proofs
