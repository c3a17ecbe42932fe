import Verif.Model.PickSyn
import Verif.Props.Pick
import Verif.Props.Synth

/-! C79 with the choice function of the code: C81 gives the hypothesis on the choice. -/

set_option linter.unusedSectionVars false

namespace Verif.Props
open Verif.Model Verif.Proofs Verif.Spec

variable {σ τ : ℕ → Type} [∀ i, Fintype (σ i)] [∀ i, DecidableEq (σ i)] [∀ i, DecidableEq (τ i)] {ρ : Type}

/-- The instances of a partial solution in the form that C81 is about. -/
def siteOf (env : PickEnv σ τ ρ) (fam : CFam) (picks : List ℕ) (x : SInst (SRest σ)) : PickSite :=
  ⟨σ x.rest.1, x.noPartial, x.rest.2.cands, x.rest.2.deadlock, pickInstOf env fam picks x⟩

/-- The function `PickActionMRV` meets the hypothesis on the choice that C79 and C80 make, with every method
(except `LCVHeavyPick`, which the command line does not offer). -/
theorem C81_picks_cand (cfg : SynCfg σ τ ρ) (env : PickEnv σ τ ρ) (hx : env.actXn = cfg.actXn)
    (hp : cfg.pickMRV = synPick env) (hm : env.opt.method ≠ .lcvHeavy)
    (hu : ∀ r n, 0 < n → (env.urandom r n).2 < n) : PicksCand cfg := by
  intro rng fam ps hps ⟨x, hxm, hne⟩
  obtain ⟨a, h1, ⟨y, hy, hay⟩, _⟩ := C81_pick_most_constrained env.opt env.zero env.urandom hu rng ps.level
    (ps.insts.map (siteOf env fam ps.picks)) (by
      intro s hs hn
      obtain ⟨y, hy, rfl⟩ := List.mem_map.1 hs
      obtain ⟨q1, q2⟩ := hps y hy
      have := rank_ranking (fun a => dom (cfg.actXn y.rest.1 a)) y.rest.2.cands q1 y.rest.2.deadlock
      rw [← q2 hn, ← hx] at this
      exact this) (fun h => absurd h hm) ⟨siteOf env fam ps.picks x, List.mem_map_of_mem hxm, hne⟩
  obtain ⟨z, hz, rfl⟩ := List.mem_map.1 hy
  refine ⟨a, ?_, z, hz, hay⟩
  rw [List.map_map] at h1
  rw [hp]
  unfold synPick
  simp only
  have : (fun x : SInst (SRest σ) => mrvOf env.opt x.noPartial x.rest.2.cands (pickInstOf env fam ps.picks x)) =
      PickSite.mrv env.opt ∘ siteOf env fam ps.picks := rfl
  rw [this, h1]

/-- The input with the choice function of the code. -/
def withPick (cfg : SynCfg σ τ ρ) (env : PickEnv σ τ ρ) : SynCfg σ τ ρ :=
  { cfg with pickMRV := synPick env }

/-- **C81 and C79 together.** The hypotheses of C79 and C80 hold for the choice function of the code if they
hold for any other one, so that no assumption about the choice remains: synthesis of at most two systems with
`PickActionMRV` is complete. -/
theorem C81_setting {cfg : SynCfg σ τ ρ} {n : ℕ} (hS : Setting cfg n) (env : PickEnv σ τ ρ)
    (hx : env.actXn = cfg.actXn) (hm : env.opt.method ≠ .lcvHeavy)
    (hu : ∀ r n, 0 < n → (env.urandom r n).2 < n) : Setting (withPick cfg env) n where
  plain := ⟨fun i hi =>
    have h := hS.plain.sys i hi
    ⟨h.ident, h.prob, h.direct, h.scope, h.style, h.behav, h.uniring, h.layers, h.legit, h.pick, h.shadowAct⟩,
    hS.plain.fast⟩
  msgs := hS.msgs
  quiet := hS.quiet
  pick := C81_picks_cand (withPick cfg env) env hx rfl hm hu
  verify := hS.verify
  depth := hS.depth
  height := hS.height
  nodup := hS.nodup
  declared := hS.declared
  given := hS.given
  cand := hS.cand

/-- The greedy method with pseudo-random numbers, for the example of C79. -/
def tinyEnv : PickEnv (fun _ => Fin 4) (fun _ => Unit) Unit where
  opt := ⟨.greedy, true, .nil, true, 0⟩
  actXn := tinyGood.actXn
  nice := fun _ _ => 0
  shadowPuppet := fun _ => false
  zero := none
  urandom := fun r n => (r, n - 1)
  revised := fun _ _ => none

example : Setting (withPick tinyGood tinyEnv) 2 :=
  C81_setting tinyGood_setting tinyEnv rfl (by decide) (fun _ _ h => Nat.sub_lt h Nat.one_pos)

/-- The search with this choice finds the solution too. -/
example : answer (synthesize (withPick tinyGood tinyEnv) 2 60000 ()) = some (some [0, 1, 2, 3]) := by
  decide +kernel

end Verif.Props
