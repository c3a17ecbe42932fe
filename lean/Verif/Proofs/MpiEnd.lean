import Verif.Proofs.Mpi

/-!
The driver of the distributed search ends, and the choice of the process that reports.
-/

set_option linter.unusedSectionVars false

namespace Verif.Proofs
open Verif.Spec Verif.Model Verif.Props

variable {σ τ : ℕ → Type} [∀ i, Fintype (σ i)] [∀ i, DecidableEq (σ i)] [∀ i, DecidableEq (τ i)] {ρ : Type}

/-- How far a process is, without `try_all`. -/
def ProcGo (cfg : SynCfg σ τ ρ) (n : ℕ) (l : Proc σ ρ) : Prop :=
  match l.phase with
  | .head => l.trial ≤ topTrial cfg n + 1 ∧ (l.g.stop = true ∨ l.trial + unk cfg n l.g.fam ≤ topTrial cfg n)
  | .search => l.trial + unk cfg n l.g.fam ≤ topTrial cfg n
  | .tried none => l.trial ≤ topTrial cfg n ∧
      (l.g.stop = true ∨ Knows l.g.fam ∅ ∨ l.trial + 1 + unk cfg n l.g.fam ≤ topTrial cfg n)
  | .tried (some _) => l.trial ≤ topTrial cfg n
  | .prune => l.trial ≤ topTrial cfg n ∧ (l.g.stop = true ∨ l.trial + 1 + unk cfg n l.g.fam ≤ topTrial cfg n)
  | .fin => l.trial ≤ topTrial cfg n + 1
  | .abort => False

/-- How far a process is when the number of trials is limited. -/
def ProcCount (opt : DriveOpt) (l : Proc σ ρ) : Prop :=
  match l.phase with
  | .head => l.trial ≤ opt.ntrials
  | .fin => True
  | .abort => True
  | _ => l.trial < opt.ntrials

/-- The steps that a process may still make. -/
def mwork (M : ℕ) (l : Proc σ ρ) : ℕ :=
  match l.phase with
  | .head => 4 * (M + 2 - l.trial) + 4
  | .search => 4 * (M + 2 - l.trial) + 3
  | .tried _ => 4 * (M + 2 - l.trial) + 2
  | .prune => 4 * (M + 2 - l.trial) + 1
  | .fin => 0
  | .abort => 0

section
variable {cfg : SynCfg σ τ ρ} {n : ℕ} {opt : DriveOpt}

theorem unknown_empty (S : Finset ℕ) : conflictCk CFam.empty S = false := by
  rw [ck_false]
  rintro ⟨A, hA, -⟩
  simp [CFam.empty] at hA

theorem mpiStep_go (hS : OpenSetting cfg n) (h1 : 1 ≤ n) (h2 : n ≤ 2) (hR : Restarts cfg n opt) (hta : opt.tryAll = false)
    {t : ρ → ρ × List (Finset ℕ) × Bool} (hm : Honest (ban cfg t []) n) {term : Bool} {l : Proc σ ρ}
    (hl : ProcOk cfg n opt term l) (hgo : ProcGo cfg n l) : ProcGo cfg n (mpiStep cfg opt t l).2 := by
  obtain ⟨phase, g, ps, trial, found, ret, nlayers, own, reports⟩ := l
  obtain ⟨hna, hv, ha, hi, hk, ho, hst, hcalm, hbase, hout, hret, hrep, hcnt, hown, hlast⟩ := hl
  simp only at hna hv ha hi hk ho hst hcalm hbase hout hret hrep hcnt hown hlast
  obtain ⟨p1, p2, p3, p4, p5, p6⟩ := mpi_poll h1 hm ho hv ha hi
  unfold mpiStep
  rcases phase with _ | _ | out | _ | _ | _
  · -- head
    simp only
    revert p1 p2 p3 p4 p5 p6
    generalize pollG (cfg.withTick t) g = r
    intro p1 p2 p3 p4 p5 p6
    split
    · exact hgo.1
    · rename_i hd
      rw [not_or] at hd
      have := hgo.2.resolve_left fun h => hd.1 (p6 h)
      have hm := unk_mono (cfg := cfg) (n := n) p3.mono
      simp only [ProcGo] at this ⊢
      omega
  · -- search
    have hb := hbase.resolve_right (by simp)
    have htrial := search_ok hS h1 h2 hm hb ho (hcalm rfl) hv ha hi
    have hgo : trial + unk cfg n g.fam ≤ topTrial cfg n := hgo
    simp only at htrial ⊢
    revert htrial
    generalize addStabilization (fullEnv (cfg.withTick t) ps.insts) (3 ^ candTotal ps.insts + 2) g ps = res
    intro htrial
    rcases res with _ | ⟨g' | ⟨g', acts⟩⟩
    · exact htrial.elim
    · obtain ⟨hV, hf⟩ := htrial
      refine ⟨by simp only; omega, ?_⟩
      rcases hf with h | h | h | h
      · exact .inl h
      · have : 0 < cfg.maxDepth := h
        rw [hR.depth] at this
        omega
      · exact .inr (.inl h.2)
      · obtain ⟨S, q1, q2, q3⟩ := h.2 hR.size hR.learns
        have := unk_lt (cfg := cfg) (n := n) hV.past.mono (fun e he => mem_allActs (q1 e he)) q2 q3
        refine .inr (.inr ?_)
        simp only
        omega
    · simp only [ProcGo]
      omega
  · -- the result
    simp only
    revert p1 p2 p3 p4 p5 p6
    generalize pollG (cfg.withTick t) g = r
    intro p1 p2 p3 p4 p5 p6
    have ht : trial ≤ topTrial cfg n := by
      rcases out with _ | acts
      · exact hgo.1
      · exact hgo
    split
    · rename_i hd
      exact ⟨ht, .inl (by rw [p4]; exact hd)⟩
    · rename_i hd
      unfold mpiFound
      rcases out with _ | acts
      · simp only
        split
        · rename_i hs
          refine ⟨ht, .inr ?_⟩
          have hm := unk_mono (cfg := cfg) (n := n) p3.mono
          rcases hgo.2 with h | h | h
          · exact absurd (p6 h) hd
          · have : satCk r.1.fam = false := (satCk_iff p3.anti).2 (knows_empty.1 (p3.mono _ h))
            rw [this] at hs
            cases hs
          · simp only at h ⊢
            omega
        · exact ⟨ht, .inl rfl⟩
      · have hr0 : reports = [] := by
          by_contra hne
          exact hd (p6 (hlast hne hta))
        simp only [hown hr0, unknown_empty, Bool.and_false, hta]
        exact ⟨ht, .inl rfl⟩
  · -- the end of the loop
    have hb := hbase.resolve_right (by simp)
    obtain ⟨q1, q2⟩ := hgo
    simp only at q1 q2 ⊢
    revert p1 p2 p3 p4 p5 p6
    generalize pollG (cfg.withTick t) g = r
    intro p1 p2 p3 p4 p5 p6
    have hm' := unk_mono (cfg := cfg) (n := n) p3.mono
    split
    · refine ⟨Nat.succ_le_succ q1, q2.imp (fun h => by rw [p4]; exact p6 h) fun h => ?_⟩
      simp only
      omega
    · rename_i hd
      rw [not_or] at hd
      have hf : r.1.stop = false := by rw [p4]; simpa using hd.1
      obtain ⟨g', ok, ps', m, r1, r2, r3, r4⟩ := prune_ok hS h1 h2 hm hb p1 hf p2 p3.anti p3.imp
        (D := r.1.fam.impossible ∩ (((ps.insts.head?).map fun x => x.rest.2.cands).getD []).toFinset)
        Finset.inter_subset_left
      rw [r1]
      simp only
      have hm := unk_mono (cfg := cfg) (n := n) r2.past.mono
      have := q2.resolve_left fun h => hd.1 (p6 h)
      split
      · refine ⟨Nat.succ_le_succ q1, .inr ?_⟩
        simp only
        omega
      · exact ⟨Nat.succ_le_succ q1, .inl rfl⟩
  · exact hgo
  · exact hgo

theorem mpiStep_count (h0 : 0 < opt.ntrials) (t : ρ → ρ × List (Finset ℕ) × Bool) {l : Proc σ ρ}
    (hgo : ProcCount opt l) : ProcCount opt (mpiStep cfg opt t l).2 := by
  obtain ⟨phase, g, ps, trial, found, ret, nlayers, own, reports⟩ := l
  unfold mpiStep
  rcases phase with _ | _ | out | _ | _ | _
  · simp only
    split
    · trivial
    · rename_i hd
      rw [not_or] at hd
      have := hd.2
      simp only [ProcCount]
      omega
  · simp only
    split
    · trivial
    · exact hgo
    · exact hgo
  · simp only
    split
    · exact hgo
    · unfold mpiFound
      rcases out with _ | acts
      · simp only
        split <;> exact hgo
      · simp only
        split
        · exact hgo
        · split <;> exact hgo
  · have hgo : trial < opt.ntrials := hgo
    simp only
    split
    · exact hgo
    · split
      · trivial
      · split <;> exact hgo
  · exact hgo
  · exact hgo

theorem mpiStep_work {M : ℕ} (t : ρ → ρ × List (Finset ℕ) × Bool) {l : Proc σ ρ}
    (ho : l.phase.over = false) (hM : l.phase = .prune → l.trial ≤ M) :
    mwork M (mpiStep cfg opt t l).2 < mwork M l := by
  obtain ⟨phase, g, ps, trial, found, ret, nlayers, own, reports⟩ := l
  unfold mpiStep
  rcases phase with _ | _ | out | _ | _ | _
  · simp only
    split <;> simp only [mwork] <;> omega
  · simp only
    split <;> simp only [mwork] <;> omega
  · simp only
    split
    · simp only [mwork]; omega
    · unfold mpiFound
      rcases out with _ | acts
      · simp only
        split <;> simp only [mwork, Proc.halt] <;> omega
      · simp only
        split
        · simp only [mwork]; omega
        · split <;> simp only [mwork, Proc.halt] <;> omega
  · have := hM rfl
    simp only at this ⊢
    split
    · simp only [mwork]; omega
    · split
      · simp only [mwork]; omega
      · split <;> simp only [mwork, Proc.halt] <;> omega
  · cases ho
  · cases ho

/-- A process that is at its end was told so, or has used up its trials. -/
theorem mpiStep_fin (h1 : 1 ≤ n) {t : ρ → ρ × List (Finset ℕ) × Bool} (hm : Honest (ban cfg t []) n) {term : Bool}
    {l : Proc σ ρ} (hl : ProcOk cfg n opt term l) (hf : l.phase = .fin → l.g.stop = true ∨ 0 < opt.ntrials)
    (h : (mpiStep cfg opt t l).2.phase = .fin) : (mpiStep cfg opt t l).2.g.stop = true ∨ 0 < opt.ntrials := by
  obtain ⟨p1, p2, p3, p4, p5, p6⟩ := mpi_poll h1 hm hl.optimal hl.valid hl.anti hl.imp
  obtain ⟨phase, g, ps, trial, found, ret, nlayers, own, reports⟩ := l
  revert h
  unfold mpiStep
  rcases phase with _ | _ | out | _ | _ | _
  · simp only at p4 ⊢
    split
    · rename_i hd
      exact fun _ => hd.imp (fun h => by rw [p4]; exact h) fun h => h.1
    · simp
  · simp only
    split <;> simp
  · simp only
    split
    · simp
    · unfold mpiFound
      rcases out with _ | acts
      · simp only
        split <;> simp [Proc.halt]
      · simp only
        split
        · simp
        · split <;> simp [Proc.halt]
  · simp only
    split
    · simp
    · split
      · simp
      · split <;> simp [Proc.halt]
  · exact fun _ => hf rfl
  · simp

end

/-! ### All processes -/

section
variable {cfg : SynCfg σ τ ρ} {n : ℕ} {opt : DriveOpt} {N : ℕ}

theorem MReach.go (hS : OpenSetting cfg n) (h1 : 1 ≤ n) (h2 : n ≤ 2) (hR : Restarts cfg n opt) (hta : opt.tryAll = false)
    {rng : Fin N → ρ} {s : MState σ ρ N} (h : MReach cfg opt n N rng s) (p : Fin N) : ProcGo cfg n (s.pr p) := by
  induction h with
  | refl =>
    obtain ⟨-, q2, q3, -⟩ := mpiProc_ok (opt := opt) hS h1 h2 (rng p) (term := true) fun _ => rfl
    have : (mpiInit cfg n N rng).pr p = (mpiProc cfg n (rng p)).2 := rfl
    rw [this]
    revert q2 q3
    generalize (mpiProc cfg n (rng p)).2 = l
    intro q2 q3
    obtain ⟨phase, g, ps, trial, found, ret, nlayers, own, reports⟩ := l
    simp only at q2 q3
    subst q2 q3
    refine ⟨Nat.zero_le _, .inr ?_⟩
    simp only [Nat.zero_add]
    exact unk_top _
  | tail hr h ih =>
    have hI := MReach.inv hS h1 h2 hr
    cases h with
    | signal hs => exact ih
    | emit p' t B _ hp hk => exact ih
    | run p' t _ hp ht =>
      simp only [mpiAt]
      by_cases he : p = p'
      · subst he
        rw [Function.update_self]
        exact mpiStep_go hS h1 h2 hR hta (pool_honest h1 hI.pool hp) (hI.pr p) ih
      · rw [Function.update_of_ne he]
        exact ih

theorem MReach.count (hS : OpenSetting cfg n) (h1 : 1 ≤ n) (h2 : n ≤ 2) (h0 : 0 < opt.ntrials)
    {rng : Fin N → ρ} {s : MState σ ρ N} (h : MReach cfg opt n N rng s) (p : Fin N) : ProcCount opt (s.pr p) := by
  induction h with
  | refl =>
    obtain ⟨-, q2, q3, -⟩ := mpiProc_ok (opt := opt) hS h1 h2 (rng p) (term := true) fun _ => rfl
    have : (mpiInit cfg n N rng).pr p = (mpiProc cfg n (rng p)).2 := rfl
    rw [this]
    unfold ProcCount
    rw [q2, q3]
    exact Nat.zero_le _
  | tail hr h ih =>
    cases h with
    | signal hs => exact ih
    | emit p' t B _ hp hk => exact ih
    | run p' t _ hp ht =>
      simp only [mpiAt]
      by_cases he : p = p'
      · subst he
        rw [Function.update_self]
        exact mpiStep_count h0 t ih
      · rw [Function.update_of_ne he]
        exact ih

theorem MReach.fin (hS : OpenSetting cfg n) (h1 : 1 ≤ n) (h2 : n ≤ 2) {rng : Fin N → ρ} {s : MState σ ρ N}
    (h : MReach cfg opt n N rng s) (p : Fin N) : (s.pr p).phase = .fin → (s.pr p).g.stop = true ∨ 0 < opt.ntrials := by
  induction h with
  | refl =>
    intro hf
    have := (mpiProc_ok (opt := opt) hS h1 h2 (rng p) (term := true) fun _ => rfl).2.1
    have hf : (mpiProc cfg n (rng p)).2.phase = .fin := hf
    rw [this] at hf
    cases hf
  | tail hr h ih =>
    have hI := MReach.inv hS h1 h2 hr
    cases h with
    | signal hs => exact ih
    | emit p' t B _ hp hk => exact ih
    | run p' t _ hp ht =>
      simp only [mpiAt]
      by_cases he : p = p'
      · subst he
        rw [Function.update_self]
        exact mpiStep_fin h1 (pool_honest h1 hI.pool hp) (hI.pr p) ih
      · rw [Function.update_of_ne he]
        exact ih

/-- The steps of other processes do not change what a process has still to do, and its own make it less. -/
theorem MStep.work {M : ℕ} {s s' : MState σ ρ N} (p : Fin N) (hM : (s.pr p).phase = .prune → (s.pr p).trial ≤ M)
    (h : MStep cfg opt s s') : mwork M (s'.pr p) ≤ mwork M (s.pr p) := by
  cases h with
  | signal hs => exact le_refl _
  | emit p' t B _ hp hk => exact le_refl _
  | run p' t ho hp ht =>
    simp only [mpiAt]
    by_cases he : p = p'
    · subst he
      rw [Function.update_self]
      exact (mpiStep_work t ho hM).le
    · rw [Function.update_of_ne he]

/-- A process is over after a bounded number of its steps. -/
theorem mpi_bound (hS : OpenSetting cfg n) (h1 : 1 ≤ n) (h2 : n ≤ 2) {rng : Fin N → ρ} {M : ℕ} (p : Fin N)
    (hM : ∀ s : MState σ ρ N, MReach cfg opt n N rng s → (s.pr p).phase = .prune → (s.pr p).trial ≤ M)
    {e : ℕ → MState σ ρ N} {k : ℕ} (h0 : e 0 = mpiInit cfg n N rng)
    (hk : ∀ i < k, ∃ u t, Relation.ReflTransGen (MStep cfg opt) (e i) u ∧ (u.pr p).phase.over = false ∧
      MStep cfg opt u (mpiAt cfg opt t p u) ∧ e (i + 1) = mpiAt cfg opt t p u) : k ≤ 4 * (M + 3) := by
  have hmany : ∀ s u : MState σ ρ N, MReach cfg opt n N rng s → Relation.ReflTransGen (MStep cfg opt) s u →
      MReach cfg opt n N rng u ∧ mwork M (u.pr p) ≤ mwork M (s.pr p) := by
    intro s u hs hu
    induction hu with
    | refl => exact ⟨hs, le_refl _⟩
    | tail _ h ih => exact ⟨.tail ih.1 h, (MStep.work p (hM _ ih.1) h).trans ih.2⟩
  have hdown : ∀ i ≤ k, MReach cfg opt n N rng (e i) ∧ i + mwork M ((e i).pr p) ≤ mwork M ((e 0).pr p) := by
    intro i
    induction i with
    | zero => intro _; rw [h0]; exact ⟨.refl, by omega⟩
    | succ i ih =>
      intro hi
      obtain ⟨q1, q2⟩ := ih (by omega)
      obtain ⟨u, t, r1, r2, r3, r4⟩ := hk i (by omega)
      obtain ⟨r5, r6⟩ := hmany _ _ q1 r1
      rw [r4]
      refine ⟨.tail r5 r3, ?_⟩
      have := mpiStep_work (cfg := cfg) (opt := opt) (M := M) t r2 (hM u r5)
      simp only [mpiAt, Function.update_self]
      omega
  have := (hdown k (le_refl k)).2
  obtain ⟨-, q2, q3, -⟩ := mpiProc_ok (opt := opt) hS h1 h2 (rng p) (term := true) fun _ => rfl
  have hw : mwork M ((e 0).pr p) = 4 * (M + 3) := by
    rw [h0]
    show mwork M (mpiProc cfg n (rng p)).2 = _
    unfold mwork
    rw [q2, q3]
    simp only
    omega
  omega

end

/-! ### The choice of the process that reports -/

theorem foldl_min {α : Type} (f : α → ℤ) (l : List α) (m : ℤ) :
    (l.foldl (fun m q => min m (f q)) m ≤ m ∧ ∀ q ∈ l, l.foldl (fun m q => min m (f q)) m ≤ f q) ∧
    (l.foldl (fun m q => min m (f q)) m = m ∨ ∃ q ∈ l, l.foldl (fun m q => min m (f q)) m = f q) := by
  induction l generalizing m with
  | nil => exact ⟨⟨le_refl _, by simp⟩, .inl rfl⟩
  | cons a l ih =>
    obtain ⟨⟨i1, i2⟩, i3⟩ := ih (min m (f a))
    simp only [List.foldl_cons, List.mem_cons]
    refine ⟨⟨i1.trans (min_le_left _ _), fun q hq => ?_⟩, ?_⟩
    · rcases hq with rfl | hq
      · exact i1.trans (min_le_right _ _)
      · exact i2 q hq
    · rcases i3 with h | ⟨q, hq, h⟩
      · rcases min_choice m (f a) with h' | h'
        · exact .inl (h.trans h')
        · exact .inr ⟨a, .inl rfl, h.trans h'⟩
      · exact .inr ⟨q, .inr hq, h⟩

theorem foldl_max {α : Type} (f : α → ℤ) (l : List α) (m : ℤ) :
    (m ≤ l.foldl (fun m q => max m (f q)) m ∧ ∀ q ∈ l, f q ≤ l.foldl (fun m q => max m (f q)) m) ∧
    (l.foldl (fun m q => max m (f q)) m = m ∨ ∃ q ∈ l, l.foldl (fun m q => max m (f q)) m = f q) := by
  induction l generalizing m with
  | nil => exact ⟨⟨le_refl _, by simp⟩, .inl rfl⟩
  | cons a l ih =>
    obtain ⟨⟨i1, i2⟩, i3⟩ := ih (max m (f a))
    simp only [List.foldl_cons, List.mem_cons]
    refine ⟨⟨(le_max_left _ _).trans i1, fun q hq => ?_⟩, ?_⟩
    · rcases hq with rfl | hq
      · exact (le_max_right _ _).trans i1
      · exact i2 q hq
    · rcases i3 with h | ⟨q, hq, h⟩
      · rcases max_choice m (f a) with h' | h'
        · exact .inl (h.trans h')
        · exact .inr ⟨a, .inl rfl, h.trans h'⟩
      · exact .inr ⟨q, .inr hq, h⟩

section
variable {N : ℕ}

theorem allMin_le (f : Fin N → ℤ) (p q : Fin N) : allMin f p ≤ f q :=
  (foldl_min f (List.finRange N) (f p)).1.2 q (List.mem_finRange q)

theorem allMin_ex (f : Fin N → ℤ) (p : Fin N) : ∃ q, allMin f p = f q := by
  rcases (foldl_min f (List.finRange N) (f p)).2 with h | ⟨q, -, h⟩
  · exact ⟨p, h⟩
  · exact ⟨q, h⟩

theorem allMax_le (f : Fin N → ℤ) (p q : Fin N) : f q ≤ allMax f p :=
  (foldl_max f (List.finRange N) (f p)).1.2 q (List.mem_finRange q)

theorem allMax_ex (f : Fin N → ℤ) (p : Fin N) : ∃ q, allMax f p = f q := by
  rcases (foldl_max f (List.finRange N) (f p)).2 with h | ⟨q, -, h⟩
  · exact ⟨p, h⟩
  · exact ⟨q, h⟩

theorem allMin_same (f : Fin N → ℤ) (p q : Fin N) : allMin f p = allMin f q := by
  obtain ⟨a, ha⟩ := allMin_ex f p
  obtain ⟨b, hb⟩ := allMin_ex f q
  exact le_antisymm (by rw [hb]; exact allMin_le f p b) (by rw [ha]; exact allMin_le f q a)

theorem elect_same (x : Fin N → Bool × ℕ) (p q : Fin N) : elect x p = elect x q := by
  unfold elect
  simp only
  rw [allMin_same _ p q]
  split
  · rfl
  · exact allMin_same _ p q

theorem elect_none (x : Fin N → Bool × ℕ) (p : Fin N) (h : ∀ q, (x q).1 = false) : elect x p = -1 := by
  unfold elect
  simp only
  rw [if_pos]
  obtain ⟨q, hq⟩ := allMin_ex (fun q => if (x q).1 = true then (if (x q).1 = true then ((x q).2 : ℤ) else -1) else
    allMax (fun q => if (x q).1 = true then ((x q).2 : ℤ) else -1) q + 1) p
  rw [hq]
  obtain ⟨r, hr⟩ := allMax_ex (fun q => if (x q).1 = true then ((x q).2 : ℤ) else -1) q
  have : allMax (fun q => if (x q).1 = true then ((x q).2 : ℤ) else -1) q = -1 := by
    rw [hr]
    simp [h r]
  simp only [this, h q]
  rfl

/-- The process that is chosen when some process has found a solution. -/
theorem elect_some (x : Fin N → Bool × ℕ) (hpos : ∀ q, (x q).1 = true → 0 < (x q).2) (p : Fin N)
    (h : ∃ q, (x q).1 = true) : ∃ q : Fin N, elect x p = q.val ∧ (x q).1 = true ∧
      ∀ r, (x r).1 = true → (x q).2 < (x r).2 ∨ ((x q).2 = (x r).2 ∧ q ≤ r) := by
  obtain ⟨f, hf⟩ := h
  unfold elect
  simp only
  generalize hs : (fun q => if (x q).1 = true then ((x q).2 : ℤ) else -1) = send
  have hsend : ∀ q, (if (x q).1 = true then ((x q).2 : ℤ) else -1) = send q := fun q => congrFun hs q
  simp only [hsend]
  have hs1 : ∀ q, (x q).1 = true → send q = (x q).2 := fun q hq => by rw [← hsend, if_pos hq]
  generalize hs2 : (fun q => if (x q).1 = true then send q else allMax send q + 1) = send2
  have hsend2 : ∀ q, (if (x q).1 = true then send q else allMax send q + 1) = send2 q := fun q => congrFun hs2 q
  simp only [hsend2]
  have hle : ∀ q, (x q).1 = true → send2 q = (x q).2 := fun q hq => by rw [← hsend2, if_pos hq, hs1 q hq]
  have hgt : ∀ q, ¬ (x q).1 = true → ∀ r, (x r).1 = true → send2 r < send2 q := by
    intro q hq r hr
    rw [hle r hr, ← hsend2 q, if_neg hq, ← hs1 r hr]
    have := allMax_le send q r
    omega
  -- the minimum
  obtain ⟨m, hm⟩ := allMin_ex send2 p
  have hmf : (x m).1 = true := by
    by_contra hno
    have := hgt m hno f hf
    have := allMin_le send2 p f
    omega
  have hm0 : allMin send2 p ≠ 0 := by
    rw [hm, hle m hmf]
    have := hpos m hmf
    omega
  rw [if_neg hm0]
  have hall : ∀ q, allMin send2 q = (x m).2 := fun q => by rw [allMin_same send2 q p, hm, hle m hmf]
  simp only [hall]
  generalize hg : (fun q : Fin N => if send2 q = ((x m).2 : ℤ) then (q.val : ℤ) else (N : ℤ)) = g
  have hgq : ∀ q, (if send2 q = ((x m).2 : ℤ) then (q.val : ℤ) else (N : ℤ)) = g q := fun q => congrFun hg q
  obtain ⟨q, hq⟩ := allMin_ex g p
  have hgm : g m = m.val := by rw [← hgq, if_pos (hle m hmf)]
  have hq2 : send2 q = (x m).2 := by
    by_contra hno
    have h1 := allMin_le g p m
    rw [hq, ← hgq q, if_neg hno, hgm] at h1
    have := m.isLt
    omega
  have hqf : (x q).1 = true := by
    by_contra hno
    have := hgt q hno m hmf
    rw [hq2, hle m hmf] at this
    omega
  have hqm : (x q).2 = (x m).2 := by
    have := hle q hqf
    omega
  refine ⟨q, by rw [hq, ← hgq, if_pos hq2], hqf, fun r hr => ?_⟩
  have h1 := allMin_le send2 p r
  rw [hm, hle m hmf, hle r hr] at h1
  rcases Nat.lt_or_ge (x q).2 (x r).2 with h | h
  · exact .inl h
  · have he : (x q).2 = (x r).2 := by omega
    refine .inr ⟨he, ?_⟩
    have h3 := allMin_le g p r
    rw [hq, ← hgq q, if_pos hq2, ← hgq r, if_pos (by rw [hle r hr]; omega)] at h3
    exact Fin.le_def.2 (by omega)

end

end Verif.Proofs
