import Verif.Proofs.TestEnd
import Verif.Props.Drive

/-!
# Property C107: testing guesses

`TReach` are the states that any number of threads running the loop of the task `TestTask`
(src/search.cc:831-880) can reach, in any interleaving and with a signal at any time; see Model/TestTask.
-/

set_option linter.unusedSectionVars false

namespace Verif.Props
open Verif.Spec Verif.Model Verif.Proofs

variable {σ τ : ℕ → Type} [∀ i, Fintype (σ i)] [∀ i, DecidableEq (σ i)] [∀ i, DecidableEq (τ i)] {ρ : Type}

section
variable {cfg : SynCfg σ τ ρ} {n : ℕ} {opt : TestOpt ρ} {N : ℕ}

/-- **C107, at any time.**  In every reachable state of any number of threads no `Claim` has failed; if
`solution_found` is set then `ret_actions` confirms one of the guesses: it is a correct protocol that consists of
actions of the guess, and of all of them for a guess given with `-x-try`; otherwise `ret_actions` is empty.  No
conflict that a thread has learned is part of a solution. -/
theorem C107_test_sound (hS : OpenSetting cfg n) (h1 : 1 ≤ n) (h2 : n ≤ 2) (hG : TestSetting cfg n opt)
    {rng : Fin N → ρ} {s : TState σ ρ N} (h : TReach cfg opt n N rng s) :
    (∀ p, (s.th p).phase ≠ .abort) ∧
    (s.sh.found = true → ∃ (k : ℕ) (guess : List ℕ), opt.guesses[k]? = some guess ∧
      Confirms (taskOf cfg n) (opt.subset k) guess s.sh.ret) ∧
    (s.sh.found = false → s.sh.ret = []) ∧
    ∀ p, ∀ B ∈ (s.th p).g.fam.sets, ∀ T, Solves (taskOf cfg n) T → ¬ B ⊆ T := by
  have hI := TReach.inv hS h1 h2 hG h
  refine ⟨fun p => (hI.th p).noabort, hI.sh.found, hI.sh.none, fun p B hB T hT hsub => ?_⟩
  have := (hI.th p).valid T ((sol_ban h1).2 ⟨hT, by simp⟩)
  rw [conflictCk_iff.2 ⟨B, hB, hsub⟩] at this
  cases this

/-- **C107, the answer.**  When all threads are at their end and there was no signal: if `solution_found` is set then
there are guesses, and every one of them is confirmed by some set of actions; and if there are guesses and all of
them are solutions then `solution_found` is set. -/
theorem C107_test_answer (hS : OpenSetting cfg n) (h1 : 1 ≤ n) (h2 : n ≤ 2) (hG : TestSetting cfg n opt) (hN : 0 < N)
    {rng : Fin N → ρ} {s : TState σ ρ N} (h : TReach cfg opt n N rng s) (hend : ∀ p, (s.th p).phase.over = true)
    (hs : s.signal = false) :
    (s.sh.found = true → opt.guesses ≠ [] ∧ ∀ (k : ℕ) (guess : List ℕ), opt.guesses[k]? = some guess →
      ∃ acts, Confirms (taskOf cfg n) (opt.subset k) guess acts) ∧
    (opt.guesses ≠ [] → (∀ guess ∈ opt.guesses, Solves (taskOf cfg n) guess.toFinset) → s.sh.found = true) := by
  have hI := TReach.inv hS h1 h2 hG h
  have hfin : ∀ p, (s.th p).phase = .fin := by
    intro p
    have h1 := hend p
    have h2 := (hI.th p).noabort
    revert h1 h2
    generalize (s.th p).phase = ph
    rcases ph with _ | _ | _ | _ | _ <;> simp [TPhase.over]
  have hall : s.sh.done = false → ∀ (k : ℕ), k < opt.guesses.length →
      s.sh.found = true ∧ ∃ acts, Fine cfg n opt k acts := by
    intro hd k hk
    have hp : k % N < N := Nat.mod_lt _ hN
    have hkk : N * (k / N) + k % N = k := Nat.div_add_mod k N
    have h3 := ((hI.th ⟨k % N, hp⟩).fin (hfin _)).resolve_left (by simp [hd])
    have hj : k / N < (s.th ⟨k % N, hp⟩).trial := by
      by_contra hc
      have := Nat.mul_le_mul_left N (not_lt.1 hc)
      simp only at h3
      omega
    have := ((hI.th ⟨k % N, hp⟩).past (k / N) hj (by simp only; omega)).resolve_left (by simp [hd])
    simp only [hkk] at this
    exact this
  constructor
  · intro hf
    have hd : s.sh.done = false := by
      by_contra hd
      rcases hI.sh.why (by simpa using hd) with h | h
      · rw [hs] at h; cases h
      · rw [hf] at h; cases h.1
    refine ⟨fun he => ?_, fun k guess hk => ?_⟩
    · obtain ⟨k, guess, hk, -⟩ := hI.sh.found hf
      rw [he] at hk
      simp at hk
    · obtain ⟨-, acts, guess', hk', hc⟩ := hall hd k (List.getElem?_eq_some_iff.1 hk).1
      rw [hk, Option.some.injEq] at hk'
      subst hk'
      exact ⟨acts, hc⟩
  · intro hne hsol
    by_contra hf
    have hlen : 0 < opt.guesses.length := List.length_pos_iff.2 hne
    by_cases hd : s.sh.done = true
    · rcases hI.sh.why hd with h | ⟨-, ⟨k, guess, hk, hno⟩ | hno⟩
      · rw [hs] at h; cases h
      · exact hno (hsol guess (List.mem_of_getElem? hk))
      · exact hno _ (hsol _ (List.getElem_mem hlen))
    · exact hf (hall (by simpa using hd) 0 hlen).1

theorem testStep_calm (hS : OpenSetting cfg n) (h1 : 1 ≤ n) (h2 : n ≤ 2) (hG : TestSetting cfg n opt) {p : ℕ}
    {sh : TShared} {l : TThread σ ρ} (hl : TestThOk cfg n opt N p sh l) :
    (testStep cfg opt N p calmTick sh l).2.g.stop = true → sh.done = true := by
  obtain ⟨phase, g, ps, trial⟩ := l
  unfold testStep
  rcases phase with _ | _ | out | _ | _
  · simp only
    split <;> exact hl.stop
  · simp only
    split
    · exact hl.stop
    rename_i guess hge
    have hb : ThBase cfg n [] ps := hl.base.resolve_right (by simp)
    have hok := test_ok (t := calmTick) hS h1 h2 (fun _ => rfl) hb
      (g := { g with rng := (opt.shuffle g.rng guess).1 }) hl.optimal
      (hl.calm rfl).1 hl.valid hl.anti hl.imp (subset := opt.subset (N * trial + p))
      (guess := (opt.shuffle g.rng guess).2)
      (fun h a ha => hG.mayAdd hS hge h a ((hG.perm g.rng guess).mem_iff.1 ha))
    revert hok
    generalize testGuess (cfg.withTick calmTick) (opt.subset (N * trial + p)) (opt.shuffle g.rng guess).2
      { g with rng := (opt.shuffle g.rng guess).1 } ps = r
    intro hok
    rcases r with _ | ⟨g', out⟩
    · exact hok.elim
    have hV : VOk (ban cfg calmTick []) n g.fam g' := by
      rcases out with _ | acts <;> exact hok.1
    simp only
    intro hst
    rw [hV.calm fun _ => rfl] at hst
    cases hst
  · exact hl.stop
  · exact hl.stop
  · exact hl.stop

/-- A run of `k` steps. -/
theorem test_run {rng : Fin N → ρ} {e : ℕ → TState σ ρ N} {k : ℕ} (h0 : e 0 = testInit cfg n N rng)
    (hk : ∀ i < k, TStep cfg opt (e i) (e (i + 1))) : ∀ i ≤ k, TReach cfg opt n N rng (e i) := by
  intro i
  induction i with
  | zero => intro _; rw [h0]; exact .refl
  | succ i ih => exact fun hi => .tail (ih (by omega)) (hk i (by omega))

/-- **C107, the end.**  A run of `N` threads has at most `N * (3 * (number of guesses) + 1) + 1` steps, and no thread
is ever stuck before its end. -/
theorem C107_test_ends (hS : OpenSetting cfg n) (h1 : 1 ≤ n) (h2 : n ≤ 2) (hG : TestSetting cfg n opt)
    {rng : Fin N → ρ} :
    (∀ (e : ℕ → TState σ ρ N) (k : ℕ), e 0 = testInit cfg n N rng → (∀ i < k, TStep cfg opt (e i) (e (i + 1))) →
      k ≤ N * (3 * opt.guesses.length + 1) + 1) ∧
    ∀ s : TState σ ρ N, TReach cfg opt n N rng s → ∀ p, (s.th p).phase.over = false →
      ∃ t, TStep cfg opt s (testAt cfg opt t p s) := by
  constructor
  · intro e k h0 hk
    have hr := test_run h0 hk
    have hdown : ∀ i ≤ k, i + testLeft opt.guesses.length (e i) ≤ testLeft opt.guesses.length (e 0) := by
      intro i
      induction i with
      | zero => intro _; omega
      | succ i ih =>
        intro hi
        have := ih (by omega)
        have := TStep.work (TReach.inv hS h1 h2 hG (hr i (by omega))) (hk i (by omega))
        omega
    have hall : testLeft opt.guesses.length (e 0) ≤ N * (3 * opt.guesses.length + 1) + 1 := by
      rw [h0]
      unfold testLeft
      have : ∀ p ∈ Finset.univ, testWork opt.guesses.length ((testInit cfg n N rng).th p) ≤ 3 * opt.guesses.length + 1 := by
        intro p _
        simp only [testInit, initTest]
        unfold testWork
        split <;> omega
      have := Finset.sum_le_card_nsmul _ _ _ this
      simp only [Finset.card_univ, Fintype.card_fin, nsmul_eq_mul, Nat.cast_id] at this
      have h3 : (if (testInit cfg n N rng).signal = true then 0 else 1) ≤ 1 := by split <;> omega
      omega
    have := hdown k (le_refl k)
    omega
  · intro s hs p hp
    refine ⟨calmTick, .run s p calmTick hp (fun _ => rfl) ?_⟩
    simp only [testAt, Function.update_self]
    exact testStep_calm hS h1 h2 hG ((TReach.inv hS h1 h2 hG hs).th p)

/-! ### Concrete runs -/

/-- The threads run in the given order; no call of `done_ck` inside of a step returns true. -/
def testSched (cfg : SynCfg σ τ ρ) (opt : TestOpt ρ) (l : List (Fin N)) (s : TState σ ρ N) : TState σ ρ N :=
  l.foldl (fun s p => testAt cfg opt calmTick p s) s

end

/-- Guesses in a fixed order, without shuffling. -/
def tryOpt (guesses : List (List ℕ)) (subset : ℕ → Bool) : TestOpt Unit := ⟨guesses, subset, fun r l => (r, l)⟩

/-- The result of two threads for the problem `deepCfg` of C88. -/
def deepTest (guesses : List (List ℕ)) (subset : ℕ → Bool) : TShared × List Bool :=
  let s := testSched deepCfg (tryOpt guesses subset) ((List.replicate 7 [(0 : Fin 2), 1]).flatten)
    (testInit deepCfg 2 2 fun _ => ())
  (s.sh, (List.finRange 2).map fun p => (s.th p).phase.over)

/-- Three solutions, in other orders than they are found in. -/
example : deepTest [[6, 1, 7, 2], [4, 7, 1, 6], [1, 5, 7, 6]] (fun _ => false) =
    (⟨false, true, [6, 1, 7, 2]⟩, [true, true]) := by decide +kernel

/-- The second guess lacks an action. -/
example : deepTest [[6, 1, 7, 2], [4, 7, 1], [1, 5, 7, 6]] (fun _ => false) = (⟨true, false, []⟩, [true, true]) := by
  decide +kernel

/-- With `-x-try-subset` an action that is no longer a candidate is left out, with `-x-try` it is picked all the same. -/
example : deepTest [[6, 1, 7, 2, 5]] (fun _ => true) = (⟨false, true, [6, 1, 7, 2]⟩, [true, true]) ∧
    deepTest [[6, 1, 7, 2, 5]] (fun _ => false) = (⟨false, true, [6, 1, 7, 2, 5]⟩, [true, true]) := by
  constructor <;> decide +kernel

/-- A harmful action is tolerated with `-x-try-subset` only. -/
example : deepTest [[6, 1, 7, 2, 0]] (fun _ => true) = (⟨false, true, [6, 1, 7, 2]⟩, [true, true]) ∧
    deepTest [[6, 1, 7, 2, 0]] (fun _ => false) = (⟨true, false, []⟩, [true, true]) := by
  constructor <;> decide +kernel

example : TestSetting deepCfg 2 (tryOpt [[6, 1, 7, 2], [4, 7, 1, 6], [1, 5, 7, 6]] fun _ => false) := by
  refine ⟨fun k guess hk _ a ha => .inr ⟨⟨0, by omega, ?_⟩, by simp [deepCfg, tinyCfg]⟩, fun _ _ => List.Perm.refl _⟩
  have hmem := List.mem_of_getElem? hk
  have key : ∀ guess ∈ [[6, 1, 7, 2], [4, 7, 1, 6], [1, 5, 7, 6]], ∀ a ∈ guess, a ∈ [0, 1, 2, 4, 5, 6, 7] := by decide
  exact key guess hmem a ha

/-! ### What `-x-try-subset` does not do -/

/-- Five actions of one system; the last two make a cycle. -/
def loopAct : ℕ → ℕ → Finset (Fin 4 × Fin 4)
  | _, 0 => {(1, 0)}
  | _, 1 => {(2, 0)}
  | _, 2 => {(3, 0)}
  | _, 3 => {(1, 3)}
  | _, 4 => {(3, 1)}
  | _, _ => ∅

def loopCfg : SynCfg (fun _ => Fin 4) (fun _ => Unit) Unit := tinyCfg loopAct [0, 1, 2, 3, 4] [] noTrim false 0

/-- The result of one thread for one guess given with `-x-try-subset`. -/
def loopTest (guess : List ℕ) : TShared :=
  (testSched loopCfg (tryOpt [guess] fun _ => true) (List.replicate 4 (0 : Fin 1)) (testInit loopCfg 1 1 fun _ => ())).sh

/-- **A guess that contains a solution may be rejected.**  With `-x-try-subset` the actions of the guess are picked one
after the other, each that is still a candidate, without ever going back: the guess contains the solution {0, 1, 2},
but in one order it is accepted and in another one it is rejected, since the first two actions make a cycle. -/
theorem C107_subset_order : OpenSetting loopCfg 1 ∧ Works (taskOf loopCfg 1) {0, 1, 2} ∧
    loopTest [0, 1, 2, 3, 4] = ⟨false, true, [1, 0, 2]⟩ ∧ loopTest [3, 4, 0, 1, 2] = ⟨true, false, []⟩ := by
  refine ⟨tiny_open (by decide) (by decide) (by decide), ⟨by decide, ?_, fun i _ => ?_⟩, by decide +kernel,
    by decide +kernel⟩
  · rintro B ⟨i, _, ⟨l, hl, _⟩ | ⟨a, ha, _⟩⟩
    · simp [loopCfg, tinyCfg] at hl
    · simp [loopCfg, tinyCfg] at ha
  · have key : ∀ s : Finset (Fin 4 × Fin 4), s = {(1, 0), (2, 0), (3, 0)} → (∀ e ∈ s, e.2.val < e.1.val) ∧
        (∀ e ∈ s, e.1 ≠ 0) ∧ ∀ x : Fin 4, x ≠ 0 → x ∈ dom s := by rintro s rfl; decide
    have h := key (({0, 1, 2} : Finset ℕ).biUnion ((taskOf loopCfg 1).act i)) rfl
    exact tiny_meets (fun s => s.val) h.1 h.2.1 h.2.2

end Verif.Props
