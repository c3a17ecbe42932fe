import Verif.Proofs.TestTask
import Verif.Spec.TestTask

/-!
Lemmas for property C107: invariants of the threads that test guesses.
-/

set_option linter.unusedSectionVars false

namespace Verif.Proofs
open Verif.Spec Verif.Model Verif.Props

variable {σ τ : ℕ → Type} [∀ i, Fintype (σ i)] [∀ i, DecidableEq (σ i)] [∀ i, DecidableEq (τ i)] {ρ : Type}

section
variable (cfg : SynCfg σ τ ρ) (n : ℕ) (opt : TestOpt ρ)

/-- The actions of the guesses are known, and the shuffling only permutes. -/
structure TestSetting : Prop where
  known : ∀ (k : ℕ) (guess : List ℕ), opt.guesses[k]? = some guess → opt.subset k = false → ∀ a ∈ guess,
    a ∈ cfg.given ∨ ((∃ i < n, a ∈ cfg.cands i) ∧ ∀ j < n, a ∉ cfg.rejs j)
  perm : ∀ r l, (opt.shuffle r l).2.Perm l

/-- Guess number `k` is confirmed by `acts`. -/
def Fine (k : ℕ) (acts : List ℕ) : Prop :=
  ∃ guess, opt.guesses[k]? = some guess ∧ Confirms (taskOf cfg n) (opt.subset k) guess acts

/-- Guess number `k` is no solution. -/
def Fault (k : ℕ) : Prop := ∃ guess, opt.guesses[k]? = some guess ∧ ¬ SolOf cfg n guess.toFinset

structure TestThOk (N p : ℕ) (sh : TShared) (l : TThread σ ρ) : Prop where
  noabort : l.phase ≠ .abort
  valid : Valid (ban cfg calmTick []) n l.g.fam
  anti : Anti l.g.fam.sets
  imp : ImpInv l.g.fam
  known : ∀ B, (taskOf cfg n).banned B → Knows l.g.fam B
  optimal : l.g.optimal = 0
  stop : l.g.stop = true → sh.done = true
  calm : l.phase = .test → l.g.stop = false ∧ N * l.trial + p < opt.guesses.length
  base : ThBase cfg n [] l.ps ∨ (sh.done = true ∧ (l.phase = .head ∨ l.phase = .fin))
  out : ∀ acts, l.phase = .crit (some acts) → Fine cfg n opt (N * l.trial + p) acts
  bad : l.phase = .crit none → sh.done = true ∨ Fault cfg n opt (N * l.trial + p)
  past : ∀ j < l.trial, N * j + p < opt.guesses.length →
    sh.done = true ∨ (sh.found = true ∧ ∃ acts, Fine cfg n opt (N * j + p) acts)
  fin : l.phase = .fin → sh.done = true ∨ opt.guesses.length ≤ N * l.trial + p
  idx : ∀ out, l.phase = .crit out → N * l.trial + p < opt.guesses.length

structure TestShOk (signal : Bool) (sh : TShared) : Prop where
  found : sh.found = true → ∃ k, Fine cfg n opt k sh.ret
  none : sh.found = false → sh.ret = []
  why : sh.done = true → signal = true ∨
    (sh.found = false ∧ ((∃ k, Fault cfg n opt k) ∨ ∀ T, ¬ SolOf cfg n T))

end

/-- What a step may do to the shared variables. -/
structure TGrows (sh sh' : TShared) : Prop where
  done : sh.done = true → sh'.done = true
  found : sh.found = true → sh'.done = true ∨ sh'.found = true

theorem TGrows.refl (sh : TShared) : TGrows sh sh := ⟨id, .inr⟩

section
variable {cfg : SynCfg σ τ ρ} {n : ℕ} {opt : TestOpt ρ} {N : ℕ}

theorem TestThOk.mono {p : ℕ} {sh sh' : TShared} (hg : TGrows sh sh') {l : TThread σ ρ}
    (h : TestThOk cfg n opt N p sh l) : TestThOk cfg n opt N p sh' l :=
  ⟨h.noabort, h.valid, h.anti, h.imp, h.known, h.optimal, fun hs => hg.done (h.stop hs), h.calm,
    h.base.imp id fun hb => ⟨hg.done hb.1, hb.2⟩, h.out, fun hb => (h.bad hb).imp hg.done id,
    fun j hj hk => (h.past j hj hk).elim (fun h => .inl (hg.done h)) fun h => (hg.found h.1).imp id fun h' => ⟨h', h.2⟩,
    fun hf => (h.fin hf).imp hg.done id, h.idx⟩

theorem ban_withTick (t : ρ → ρ × List (Finset ℕ) × Bool) : ban cfg t [] = cfg.withTick t :=
  ban_nil (cfg := cfg.withTick t) rfl

/-- The test of a guess. -/
theorem test_ok (hS : OpenSetting cfg n) (h1 : 1 ≤ n) (h2 : n ≤ 2) {t : ρ → ρ × List (Finset ℕ) × Bool}
    (ht : ∀ r, (t r).2.1 = []) {ps : PSyn (SRest σ)} (hb : ThBase cfg n [] ps) {g : SynG ρ} (ho : g.optimal = 0)
    (hs : g.stop = false) (hv : Valid (ban cfg calmTick []) n g.fam) (ha : Anti g.fam.sets) (hi : ImpInv g.fam)
    {subset : Bool} {guess : List ℕ} (hg : subset = false → ∀ a ∈ guess, MayAdd cfg n a) :
    TestOk (ban cfg t []) n cfg.given.toFinset subset guess g.fam (testGuess (cfg.withTick t) subset guess g ps) := by
  rw [← ban_withTick]
  exact testGuess_ok (plain_ban hS.plain) (honest_ban ht) ht h1 h2 (baseFit_ban h1 (fun _ h => h) hb.fit)
    (fun i x hx => ⟨wdone_ban (hb.w i x hx).1, (hb.w i x hx).2⟩) hb.picks hS.pick hS.verify
    ⟨ho, valid_mono h1 (fun _ h => h) hv, ⟨ha, hi, fun _ h => h⟩, fun _ => hs⟩ hg

theorem TestSetting.mayAdd (hS : OpenSetting cfg n) (hG : TestSetting cfg n opt) {k : ℕ} {guess : List ℕ}
    (hk : opt.guesses[k]? = some guess) (hs : opt.subset k = false) : ∀ a ∈ guess, MayAdd cfg n a := by
  intro a ha
  rcases hG.known k guess hk hs a ha with h | ⟨⟨i, hi, h⟩, h'⟩
  · exact ⟨.inl h, hS.given a h⟩
  · exact ⟨.inr ⟨i, hi, h⟩, hS.cand i hi a h h'⟩

/-- A step of a thread. -/
theorem testStep_ok (hS : OpenSetting cfg n) (h1 : 1 ≤ n) (h2 : n ≤ 2) (hG : TestSetting cfg n opt) {p : ℕ}
    {t : ρ → ρ × List (Finset ℕ) × Bool} (ht : ∀ r, (t r).2.1 = []) {signal : Bool} {sh : TShared} {l : TThread σ ρ}
    (hsh : TestShOk cfg n opt signal sh) (hl : TestThOk cfg n opt N p sh l)
    (htr : (testStep cfg opt N p t sh l).2.g.stop = true → sh.done = true) :
    TestShOk cfg n opt signal (testStep cfg opt N p t sh l).1 ∧
      TestThOk cfg n opt N p (testStep cfg opt N p t sh l).1 (testStep cfg opt N p t sh l).2 ∧
      TGrows sh (testStep cfg opt N p t sh l).1 := by
  obtain ⟨phase, g, ps, trial⟩ := l
  revert htr
  unfold testStep
  rcases phase with _ | _ | out | _ | _
  · -- head
    simp only
    split
    · rename_i hc
      intro _
      refine ⟨hsh, ?_, TGrows.refl _⟩
      refine ⟨by simp, hl.valid, hl.anti, hl.imp, hl.known, hl.optimal, hl.stop, fun _ => ⟨?_, hc.2⟩, ?_, by simp, by simp,
        hl.past, by simp, by simp⟩
      · by_contra hne
        have := hl.stop (by simpa using hne)
        rw [hc.1] at this; cases this
      · refine .inl (hl.base.resolve_right fun h => ?_)
        rw [hc.1] at h; cases h.1
    · rename_i hc
      intro _
      refine ⟨hsh, ?_, TGrows.refl _⟩
      refine ⟨by simp, hl.valid, hl.anti, hl.imp, hl.known, hl.optimal, hl.stop, by simp,
        hl.base.imp id fun h => ⟨h.1, .inr rfl⟩, by simp, by simp, hl.past, fun _ => ?_, by simp⟩
      by_cases hd : sh.done = true
      · exact .inl hd
      · right
        by_contra h
        exact hc ⟨by simpa using hd, by simpa using h⟩
  · -- test
    have hidx : N * trial + p < opt.guesses.length := (hl.calm rfl).2
    have hge : opt.guesses[N * trial + p]? = some opt.guesses[N * trial + p] := List.getElem?_eq_getElem hidx
    generalize hgu : opt.guesses[N * trial + p] = guess at hge
    simp only [hge]
    have hb : ThBase cfg n [] ps := hl.base.resolve_right (by simp)
    have hperm := hG.perm g.rng guess
    have hset : (opt.shuffle g.rng guess).2.toFinset = guess.toFinset := List.toFinset_eq_of_perm _ _ hperm
    have hmem : ∀ a, a ∈ (opt.shuffle g.rng guess).2 ↔ a ∈ guess := fun a => hperm.mem_iff
    have hok := test_ok (t := t) hS h1 h2 ht hb (g := { g with rng := (opt.shuffle g.rng guess).1 }) hl.optimal
      (hl.calm rfl).1 hl.valid hl.anti hl.imp (subset := opt.subset (N * trial + p))
      (guess := (opt.shuffle g.rng guess).2) (fun h a ha => hG.mayAdd hS hge h a ((hmem a).1 ha))
    revert hok
    generalize testGuess (cfg.withTick t) (opt.subset (N * trial + p)) (opt.shuffle g.rng guess).2
      { g with rng := (opt.shuffle g.rng guess).1 } ps = r
    intro hok
    rcases r with _ | ⟨g', out⟩
    · exact hok.elim
    simp only
    intro htr
    have hV : VOk (ban cfg t []) n g.fam g' := by
      rcases out with _ | acts <;> exact hok.1
    refine ⟨hsh, ⟨by simp, valid_mono h1 (fun _ h => h) hV.valid, hV.past.anti, hV.past.imp,
      fun B hB => hV.past.mono B (hl.known B hB), hV.opt, htr, by simp, .inl hb, ?_, ?_, hl.past, by simp,
      fun _ _ => hidx⟩, TGrows.refl _⟩
    · intro acts he
      simp only [TPhase.crit.injEq] at he
      subst he
      obtain ⟨-, e2, e3, e4, e5, e6, e7, e8⟩ := hok
      refine ⟨guess, hge, ⟨fun a ha => ?_, fun hs a ha => ?_, ⟨e5, fun B hB hsub => ?_, e6⟩⟩⟩
      · exact (hmem a).1 (List.mem_toFinset.1 (e3 (List.mem_toFinset.2 ha)))
      · rw [← List.mem_toFinset, e4 hs, List.mem_toFinset]
        exact (hmem a).2 ha
      · exact e7 (conflictCk_iff.1 (ck_mono hsub (conflictCk_iff.2 (hl.known B hB))))
    · intro he
      simp only [TPhase.crit.injEq] at he
      subst he
      refine hok.2.imp htr fun hno => ⟨guess, hge, fun hT => hno ?_⟩
      rw [hset]
      exact (sol_ban h1).2 ⟨hT, by simp⟩
  · -- crit
    simp only
    intro _
    unfold testCrit
    by_cases hd : sh.done = true
    · rw [if_pos hd]
      refine ⟨hsh, ⟨by simp, hl.valid, hl.anti, hl.imp, hl.known, hl.optimal, hl.stop, by simp,
        hl.base.imp id fun h => ⟨h.1, .inl rfl⟩, by simp, by simp, fun _ _ _ => .inl hd, by simp, by simp⟩, TGrows.refl _⟩
    · rw [if_neg hd]
      have hb : ThBase cfg n [] ps := hl.base.resolve_right (by simp)
      rcases out with _ | acts
      · have hbad := (hl.bad rfl).resolve_left hd
        refine ⟨⟨by simp, by simp, fun _ => .inr ⟨rfl, .inl ⟨_, hbad⟩⟩⟩, ⟨by simp, hl.valid, hl.anti, hl.imp, hl.known,
          hl.optimal, fun _ => rfl, by simp, .inl hb, by simp, by simp, fun _ _ _ => .inl rfl, by simp, by simp⟩,
          ⟨fun _ => rfl, fun _ => .inl rfl⟩⟩
      · have hfine := hl.out acts rfl
        simp only
        have hpast : ∀ j < trial + 1, N * j + p < opt.guesses.length → ∃ acts, Fine cfg n opt (N * j + p) acts := by
          intro j hj hk
          by_cases hjt : j = trial
          · subst hjt; exact ⟨acts, hfine⟩
          · exact ((hl.past j (by simp only; omega) hk).resolve_left hd).2
        by_cases hf : sh.found = true
        · rw [if_pos hf]
          refine ⟨hsh, ⟨by simp, hl.valid, hl.anti, hl.imp, hl.known, hl.optimal, hl.stop, by simp, .inl hb, by simp,
            by simp, fun j hj hk => .inr ⟨hf, hpast j hj hk⟩, by simp, by simp⟩, TGrows.refl _⟩
        · rw [if_neg hf]
          refine ⟨⟨fun _ => ⟨_, hfine⟩, by simp, fun h => absurd h hd⟩, ⟨by simp, hl.valid, hl.anti, hl.imp, hl.known,
            hl.optimal, hl.stop, by simp, .inl hb, by simp, by simp, fun j hj hk => .inr ⟨rfl, hpast j hj hk⟩, by simp,
            by simp⟩,
            ⟨fun h => absurd h hd, fun _ => .inr rfl⟩⟩
  · intro _
    exact ⟨hsh, hl, TGrows.refl _⟩
  · intro _
    exact ⟨hsh, hl, TGrows.refl _⟩

/-! ### All threads -/

structure TInv (cfg : SynCfg σ τ ρ) (n : ℕ) (opt : TestOpt ρ) (s : TState σ ρ N) : Prop where
  sh : TestShOk cfg n opt s.signal s.sh
  th : ∀ p : Fin N, TestThOk cfg n opt N p s.sh (s.th p)

theorem initTest_ok (hS : OpenSetting cfg n) (h1 : 1 ≤ n) (h2 : n ≤ 2) (p : ℕ) (rng : ρ) {sh : TShared}
    (hd : (initThread cfg n rng).1 = false → sh.done = true) :
    TestThOk cfg n opt N p sh (initTest cfg n rng) ∧ ((initThread cfg n rng).1 = false → ∀ T, ¬ SolOf cfg n T) := by
  have hS' := open_calm hS
  obtain ⟨g, ok, ps, m, e, hV, hno, hyes⟩ := startUp_ok hS' h1 h2
    (fuel := ((List.range n).map fun i => (cfg.cands i).length).sum + 1) (Nat.lt_succ_self _) rng
  have hst : g.stop = false := hV.calm fun _ => rfl
  have hi : initThread cfg n rng = (ok, ⟨.head, g, ps, 0⟩) := by
    unfold initThread
    rw [e]
  have ht : initTest cfg n rng = ⟨.head, g, ps, 0⟩ := by
    unfold initTest
    rw [hi]
  have hban := (start_fam hS' h1 rfl).2.2.2.2
  rw [hi] at hd ⊢
  rw [ht]
  simp only at hd ⊢
  refine ⟨⟨by simp, ?_, hV.past.anti, hV.past.imp, fun B hB => hV.past.mono _ (hban B hB), hV.opt,
    fun h => absurd h (by simp [hst]), by simp, ?_, by simp, by simp, fun j hj => by simp at hj, by simp,
    by simp⟩, fun h T hT => ?_⟩
  · rw [withTick_ban]; exact hV.valid
  · rcases ok with _ | _
    · exact .inr ⟨hd rfl, .inl rfl⟩
    · left
      have q := hyes rfl
      refine ⟨q.picks, ?_, ?_⟩
      · rw [withTick_ban]; exact q.base
      · rw [withTick_ban]; exact q.w
  · rcases hno h with h | h
    · rw [hst] at h; cases h
    · exact h T ⟨hT.given, hT.offered, hT.apart, hT.allowed, hT.meets⟩

theorem testInit_ok (hS : OpenSetting cfg n) (h1 : 1 ≤ n) (h2 : n ≤ 2) (rng : Fin N → ρ) :
    TInv cfg n opt (testInit cfg n N rng) := by
  have hdone : ∀ p, (initThread cfg n (rng p)).1 = false → (testInit cfg n N rng).sh.done = true := by
    intro p hp
    show decide (∃ p, (initThread cfg n (rng p)).1 = false) = true
    rw [decide_eq_true_eq]
    exact ⟨p, hp⟩
  refine ⟨⟨by simp [testInit], by simp [testInit], fun h => .inr ⟨rfl, .inr ?_⟩⟩, fun p => ?_⟩
  · have : decide (∃ p, (initThread cfg n (rng p)).1 = false) = true := h
    rw [decide_eq_true_eq] at this
    obtain ⟨p, hp⟩ := this
    exact (initTest_ok (N := N) (opt := opt) hS h1 h2 0 (rng p) (hdone p)).2 hp
  · exact (initTest_ok hS h1 h2 p (rng p) (hdone p)).1

theorem TStep.inv (hS : OpenSetting cfg n) (h1 : 1 ≤ n) (h2 : n ≤ 2) (hG : TestSetting cfg n opt) {s s' : TState σ ρ N}
    (hI : TInv cfg n opt s) (h : TStep cfg opt s s') : TInv cfg n opt s' := by
  cases h with
  | signal hs =>
    have hg : TGrows s.sh { s.sh with done := true } := ⟨fun _ => rfl, fun _ => .inl rfl⟩
    exact ⟨⟨hI.sh.found, hI.sh.none, fun _ => .inl rfl⟩, fun p => (hI.th p).mono hg⟩
  | run p t _ ht htr =>
    simp only [testAt, Function.update_self] at htr
    obtain ⟨q1, q2, q3⟩ := testStep_ok hS h1 h2 hG ht hI.sh (hI.th p) htr
    refine ⟨q1, fun p' => ?_⟩
    simp only [testAt]
    by_cases hp : p' = p
    · subst hp
      rw [Function.update_self]
      exact q2
    · rw [Function.update_of_ne hp]
      exact (hI.th p').mono q3

theorem TReach.inv (hS : OpenSetting cfg n) (h1 : 1 ≤ n) (h2 : n ≤ 2) (hG : TestSetting cfg n opt) {rng : Fin N → ρ}
    {s : TState σ ρ N} (h : TReach cfg opt n N rng s) : TInv cfg n opt s := by
  induction h with
  | refl => exact testInit_ok hS h1 h2 rng
  | tail _ h ih => exact TStep.inv hS h1 h2 hG ih h

/-! ### The end -/

/-- How many steps a thread can still make. -/
def testWork (len : ℕ) (l : TThread σ ρ) : ℕ :=
  match l.phase with
  | .head => 3 * (len - l.trial) + 1
  | .test => 3 * (len - l.trial)
  | .crit _ => 3 * (len - l.trial) - 1
  | .fin => 0
  | .abort => 0

theorem testStep_work {p : ℕ} {t : ρ → ρ × List (Finset ℕ) × Bool} {sh : TShared} {l : TThread σ ρ}
    (hN : 0 < N) (ho : l.phase.over = false) (hl : TestThOk cfg n opt N p sh l) :
    testWork opt.guesses.length (testStep cfg opt N p t sh l).2 < testWork opt.guesses.length l := by
  obtain ⟨phase, g, ps, trial⟩ := l
  have hle : trial ≤ N * trial := Nat.le_mul_of_pos_left _ hN
  unfold testStep
  rcases phase with _ | _ | out | _ | _
  · simp only
    split <;> (simp only [testWork]; omega)
  · have hlt := (hl.calm rfl).2
    simp only at hlt
    simp only
    split
    · simp only [testWork]; omega
    · split <;> (simp only [testWork]; omega)
  · have hlt := hl.idx out rfl
    simp only at hlt
    simp only [testWork]; omega
  · simp [TPhase.over] at ho
  · simp [TPhase.over] at ho

/-- How many steps can still be made. -/
def testLeft (len : ℕ) (s : TState σ ρ N) : ℕ :=
  (∑ p, testWork len (s.th p)) + if s.signal then 0 else 1

theorem TStep.work {s s' : TState σ ρ N} (hI : TInv cfg n opt s) (h : TStep cfg opt s s') :
    testLeft opt.guesses.length s' < testLeft opt.guesses.length s := by
  cases h with
  | signal hs =>
    unfold testLeft
    rw [hs]
    simp
  | run p t ho ht htr =>
    have hN : 0 < N := lt_of_le_of_lt (Nat.zero_le _) p.2
    have hw := testStep_work (t := t) hN ho (hI.th p)
    unfold testLeft
    have : (testAt cfg opt t p s).signal = s.signal := rfl
    rw [this]
    apply Nat.add_lt_add_right
    refine Finset.sum_lt_sum (fun q _ => ?_) ⟨p, Finset.mem_univ _, ?_⟩
    · by_cases hq : q = p
      · subst hq
        simp only [testAt, Function.update_self]
        exact hw.le
      · simp only [testAt, Function.update_of_ne hq]
        exact le_refl _
    · simp only [testAt, Function.update_self]
      exact hw

end

end Verif.Proofs
