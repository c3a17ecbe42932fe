import Verif.Model.Pick
import Verif.Model.Synth

/-!
`PickActionMRV` (src/synthesis.cc:277-397) as the function that the search of Model/Synth calls.
-/

set_option linter.unusedSectionVars false

namespace Verif.Model

variable {σ τ : ℕ → Type} [∀ i, Fintype (σ i)] [∀ i, DecidableEq (σ i)] [∀ i, DecidableEq (τ i)] {ρ : Type}

/-- What the choice needs besides the partial solution. -/
structure PickEnv (σ τ : ℕ → Type) (ρ : Type) where
  opt : PickOpt
  /-- `topo.action_pfmla(a)` in each system -/
  actXn : ∀ i, ℕ → Finset (σ i × σ i)
  /-- `sys.niceIdxOf(topo.action_pcsymm_index(a))` -/
  nice : ℕ → ℕ → ℕ
  /-- `sys.shadow_puppet_synthesis_ck()` -/
  shadowPuppet : ℕ → Bool
  /-- see `pickActionMRV` -/
  zero : Option (ℕ → ℕ)
  /-- `urandom.pick` -/
  urandom : ρ → ℕ → ρ × ℕ
  /-- the sizes after the trial revision of `LCVHeavyPick` and `LCVJankPick`, see `PickInst.revised` -/
  revised : SInst (SRest σ) → ℕ → Option (ℕ × ℕ)

/-- What `pick_action_candidates` looks at in an instance, src/synthesis.cc:399-698.  The picks are the same in
all instances of a partial solution, src/synthesis.cc:1440. -/
def pickInstOf (env : PickEnv σ τ ρ) (fam : CFam) (picks : List ℕ) (x : SInst (SRest σ)) :
    PickInst (σ x.rest.1) where
  xn := env.actXn x.rest.1
  nice := env.nice x.rest.1
  shadowPuppet := env.shadowPuppet x.rest.1
  lo := x.rest.2.lo
  hiInv := x.rest.2.hiInv
  mcv := x.rest.2.mcv
  nCands := x.rest.2.cands.length
  nActs := x.actions.length
  membs := supersetMembs fam picks.toFinset x.rest.2.cands.toFinset
  revised := env.revised x

/-- `PickActionMRV`, src/synthesis.cc:277-397; the result `false` and a failed `Claim` are both `none`. -/
def synPick (env : PickEnv σ τ ρ) (rng : ρ) (fam : CFam) (ps : PSyn (SRest σ)) : ρ × Option ℕ :=
  let r := pickActionMRV env.opt env.zero env.urandom rng ps.level
    (ps.insts.map fun x => mrvOf env.opt x.noPartial x.rest.2.cands (pickInstOf env fam ps.picks x))
  (r.1, match r.2 with
    | .ok a => some a
    | _ => none)

end Verif.Model
