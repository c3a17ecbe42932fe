import Verif.Proofs.Msat
import Verif.Props.Verify

/-!
# Property C110: synthesis with a satisfiability solver

`msat` is `main` of src/msat.cc, see Model/Msat; `MsGoal` and `SatSolver` are in Spec/Msat.
-/

set_option linter.unusedSectionVars false

namespace Verif.Props
open Verif.Spec Verif.Model Verif.Proofs

section
variable {σ τ : Type} [Fintype σ] [DecidableEq σ] [DecidableEq τ]

/-- What is assumed: a system without shadow variables that is not probabilistic, and candidates that are actions;
an action that is neither a candidate nor dropped nor rejected has no transitions. -/
structure MsSetting (n : ℕ) (f : VFile σ τ) (fuel : ℕ) (opt : StabOpt) (cands dels rejs : List ℕ) : Prop where
  file : VFileOk f opt fuel
  direct : f.sys.shadowPuppet = false
  scope : f.sys.scope ≠ .future
  layers : opt.maxNlayers = 0
  below : ∀ a ∈ cands, a < n
  apart : ∀ a ∈ cands, a ∉ dels ∧ a ∉ rejs
  rest : ∀ a < n, a ∉ cands → a ∉ dels → a ∉ rejs → f.act a = ∅

/-- **C110.**  With any correct solver, the loop ends, and no `Claim` fails.  If actions are written then they are a
protocol with all demanded properties, none of them is dropped or rejected, and no two candidates among them are
incompatible; and if none are written then there is no such protocol among the candidates. -/
theorem C110_sat {n : ℕ} {f : VFile σ τ} {fuel : ℕ} {opt : StabOpt} {cands dels rejs : List ℕ}
    (h : MsSetting n f fuel opt cands dels rejs) (coexist : ℕ → ℕ → Bool)
    {solve : List (List (ℕ × Bool)) → Option (Finset ℕ)} {okay : List (List (ℕ × Bool)) → Bool}
    (hsat : SatSolver n solve okay) :
    ∃ r, msat n f fuel opt coexist true cands dels rejs solve okay = some r ∧
      (∀ l, r = some l → l.Nodup ∧ (∀ a ∈ l, a < n ∧ a ∉ dels ∧ a ∉ rejs) ∧
        ((cands.filter fun a => a ∈ l).Pairwise fun a b => coexist a b = true) ∧
        MsGoal f.sys (l.toFinset.biUnion f.act)) ∧
      (r = none → ∀ T : Finset ℕ, (∀ a ∈ T, a ∈ cands) →
        ((cands.filter fun a => a ∈ T).Pairwise fun a b => coexist a b = true) →
        ¬ MsGoal f.sys (T.biUnion f.act)) := by
  obtain ⟨r, h1, h2, h3⟩ := msatLoop_spec (coexist := coexist) hsat h.file h.direct h.scope h.layers h.below h.rest
    (2 ^ n + 1) (msatClauses coexist cands dels rejs) (Nat.lt_succ_of_le (satSets_card _ _)) (fun _ hc => hc)
    (fun T hT hco _ => (clauses_sat T).mpr
      ⟨fun a ha haT => (h.apart a (hT a haT)).2 ha, fun a ha haT => (h.apart a (hT a haT)).1 ha, hco⟩)
  refine ⟨r, h1, fun l hl => ?_, h3⟩
  obtain ⟨q1, -, q3, q4, q5⟩ := h2 l hl
  exact ⟨q1, q3, q4, q5⟩

/-- **C110, the verdict.**  Actions are written if and only if there is a solution among the candidates. -/
theorem C110_sat_iff {n : ℕ} {f : VFile σ τ} {fuel : ℕ} {opt : StabOpt} {cands dels rejs : List ℕ}
    (h : MsSetting n f fuel opt cands dels rejs) (coexist : ℕ → ℕ → Bool)
    {solve : List (List (ℕ × Bool)) → Option (Finset ℕ)} {okay : List (List (ℕ × Bool)) → Bool}
    (hsat : SatSolver n solve okay) :
    (∃ l, msat n f fuel opt coexist true cands dels rejs solve okay = some (some l)) ↔
      ∃ T : Finset ℕ, (∀ a ∈ T, a ∈ cands) ∧
        ((cands.filter fun a => a ∈ T).Pairwise fun a b => coexist a b = true) ∧ MsGoal f.sys (T.biUnion f.act) := by
  obtain ⟨r, h1, h2, h3⟩ := C110_sat h coexist hsat
  constructor
  · rintro ⟨l, hl⟩
    rw [hl] at h1
    cases h1
    obtain ⟨q1, q3, q4, q5⟩ := h2 l rfl
    refine ⟨l.toFinset.filter fun a => a ∈ cands, fun a ha => (Finset.mem_filter.mp ha).2, ?_, ?_⟩
    · have : (cands.filter fun a => a ∈ l.toFinset.filter fun a => a ∈ cands) = cands.filter fun a => a ∈ l := by
        refine List.filter_congr fun a ha => ?_
        simp [ha]
      rw [this]
      exact q4
    · have : (l.toFinset.filter fun a => a ∈ cands).biUnion f.act = l.toFinset.biUnion f.act := by
        ext e
        simp only [Finset.mem_biUnion, Finset.mem_filter, List.mem_toFinset]
        constructor
        · rintro ⟨a, ⟨ha, -⟩, he⟩
          exact ⟨a, ha, he⟩
        · rintro ⟨a, ha, he⟩
          refine ⟨a, ⟨ha, ?_⟩, he⟩
          by_contra hca
          obtain ⟨r1, r2, r3⟩ := q3 a ha
          rw [h.rest a r1 hca r2 r3] at he
          exact absurd he (Finset.notMem_empty _)
      rw [this]
      exact q5
  · rintro ⟨T, hT, hco, hg⟩
    cases r with
    | none => exact absurd hg (h3 rfl T hT hco)
    | some l => exact ⟨l, h1⟩

end

/-! ### Concrete cases -/

/-- A solver that tries all assignments, the given ones first. -/
def msTry (n : ℕ) (first : List (Finset ℕ)) (cls : List (List (ℕ × Bool))) : Option (Finset ℕ) :=
  (first ++ (List.range n).sublists.map List.toFinset).find? fun T =>
    decide (T ⊆ Finset.range n) && cls.all fun c => c.any fun l => decide (l.1 ∈ T) == l.2

theorem ms_try (n : ℕ) (first : List (Finset ℕ)) :
    SatSolver n (msTry n first) fun cls => (msTry n first cls).isSome := by
  have hcl : ∀ (T : Finset ℕ) (cls : List (List (ℕ × Bool))),
      (cls.all fun c => c.any fun l => decide (l.1 ∈ T) == l.2) = true ↔ ∀ c ∈ cls, ClauseSat T c := by
    intro T cls
    rw [List.all_eq_true]
    refine forall₂_congr fun c _ => ?_
    rw [List.any_eq_true]
    unfold ClauseSat
    refine exists_congr fun l => and_congr_right fun _ => ?_
    cases l.2 <;> simp
  have hnone : ∀ cls, msTry n first cls = none → ∀ T, T ⊆ Finset.range n → ¬ ∀ c ∈ cls, ClauseSat T c := by
    intro cls h T hT hs
    unfold msTry at h
    rw [List.find?_eq_none] at h
    refine h T (List.mem_append_right _ (List.mem_map.mpr
      ⟨(List.range n).filter fun a => a ∈ T, List.mem_sublists.mpr List.filter_sublist, ?_⟩)) ?_
    · ext a
      simp only [List.mem_toFinset, List.mem_filter, List.mem_range, decide_eq_true_eq]
      exact ⟨fun h => h.2, fun h => ⟨Finset.mem_range.mp (hT h), h⟩⟩
    · rw [Bool.and_eq_true, hcl]
      exact ⟨by simpa using hT, hs⟩
  refine ⟨fun cls T h => ?_, hnone, fun cls h => hnone cls (by simpa using h)⟩
  have := List.find?_some h
  rw [Bool.and_eq_true, hcl, decide_eq_true_eq] at this
  exact this

/-- The setting for the system with two bits of C108; the actions 0 and 1 are not to be used together. -/
example : MsSetting 5 (pairFile [] ∅) 12 ⟨0, false, false⟩ [0, 1, 2, 4] [] [3] :=
  ⟨pair_ok _ _, rfl, by decide, rfl, by decide, by decide, fun a h1 h2 _ h3 => by
    have : ∀ a < 5, a ∈ [0, 1, 2, 4] ∨ a ∈ [3] := by decide
    exact absurd (this a h1) (by tauto)⟩

/-- A run.  First all actions are tried that are allowed; there is a livelock of 0 and 4. -/
example : msat 5 (pairFile [] ∅) 12 ⟨0, false, false⟩ (fun a b => !(a == 0 && b == 1)) true [0, 1, 2, 4] [] [3]
    (msTry 5 [{0, 2, 4}, {1, 4}, {0, 2}]) (fun cls => (msTry 5 [{0, 2, 4}, {1, 4}, {0, 2}] cls).isSome) =
    some (some [0, 2]) := by decide +kernel

/-- A run without a solution: nothing helps in the state (1, 0). -/
example : msat 5 (pairFile [] ∅) 12 ⟨0, false, false⟩ (fun _ _ => true) true [0, 1] [2, 4] [3]
    (msTry 5 []) (fun cls => (msTry 5 [] cls).isSome) = some none := by decide +kernel

/-- All states are legitimate; the only action leaves a state as it is. -/
def msAllFile : VFile (Fin 2 × Fin 2) Unit :=
  { pairFile [] ∅ with
    sys := { pairSys with invariant := Finset.univ }
    act := fun a => if a = 0 then {((0, 0), (0, 0))} else ∅ }

/-- **Unrestricted actions.**  If every state is legitimate then `candidate_actions` returns without sorting the
actions (src/xnsys.cc:1075-1080), so they are not restricted by any clause, and the clause for a rejected set of actions
is empty.  The answer then depends on the first model of the solver: here there is a solution (no action at all), but
none is found. -/
theorem C110_unrestricted : ∃ solve okay, SatSolver 1 solve okay ∧
    VFileOk msAllFile ⟨0, false, false⟩ 12 ∧
    msat 1 msAllFile 12 ⟨0, false, false⟩ (fun _ _ => true) true [] [] [] solve okay = some none ∧
    MsGoal msAllFile.sys ((∅ : Finset ℕ).biUnion msAllFile.act) := by
  have hok : VFileOk msAllFile ⟨0, false, false⟩ 12 :=
    ⟨(pair_ok [] ∅).1, rfl, rfl, by decide, (pair_ok [] ∅).5⟩
  refine ⟨_, _, ms_try 1 [{0}], hok, by decide +kernel, ?_⟩
  have := (vaccepts_goal hok rfl (by decide) rfl).mp
    ⟨(Finset.univ, 2), by decide +kernel⟩
  exact this

end Verif.Props
