import Verif.Model.Search
import Verif.Model.Stab
import Verif.Model.Rank
import Verif.Model.OneCycle

/-!
Model of the inference part of the synthesizer: `QuickTrim`, `check_forward`,
`revise_actions_alone`, `add_small_conflict_set`, `SynthesisCtx::add` (src/synthesis.cc:705-732,
835-887,947-1358,1624-1709) and `AddStabilization(Xn::Sys&, opt)` (src/search.cc:217-238).  They are the
functions that Model/Search leaves open, so that here the search is a closed program.

Simplifications: only the asynchronous, non-probabilistic case without the special treatment of unidirectional
rings is modelled; logging and livelock files are left out.  The formulas of `X::Fmlae` are represented by their union.  System `i` has the states `σ i`, and the
action numbers are the same in all systems.
-/

set_option linter.unusedSectionVars false

namespace Verif.Model

variable {σ τ : ℕ → Type} [∀ i, Fintype (σ i)] [∀ i, DecidableEq (σ i)] [∀ i, DecidableEq (τ i)] {ρ : Type}

/-- What belongs to one system in `PartialSynthesis`, src/synthesis.hh:135-163: `candidates`, `deadlockPF`,
`lo_xn`, `lo_xfmlae`, `hi_xn`, `hi_invariant`, `mcv_deadlocks`, `lo_nlayers`. -/
structure SynSt (S : Type) where
  cands : List ℕ
  deadlock : Finset S
  lo : Finset (S × S)
  loF : Finset (S × S)
  hi : Finset (S × S)
  hiInv : Finset S
  mcv : DlSets S
  nlayers : ℕ

/-- The remaining part of an instance: `sys_idx` and the fields above. -/
abbrev SRest (σ : ℕ → Type) := Σ i, SynSt (σ i)

/-- The state shared by all partial solutions: `ctx->conflicts`, `ctx->optimal_nlayers_sum`, the random
numbers with everything else outside the program, and `done_flag` (src/search.cc:374, never cleared). -/
structure SynG (ρ : Type) where
  fam : CFam
  optimal : ℕ
  rng : ρ
  stop : Bool

/-- The input of the synthesizer. -/
structure SynCfg (σ τ : ℕ → Type) (ρ : Type) where
  /-- `ctx->systems` -/
  sys : ∀ i, Sys (σ i) (τ i)
  /-- `ctx->stabilization_opts` -/
  opt : ℕ → StabOpt
  /-- `topo.action_pfmla(a)` -/
  actXn : ∀ i, ℕ → Finset (σ i × σ i)
  /-- the test of `QuickTrim`, src/synthesis.cc:724-730: some action represented by the first does not coexist
  with the second (`coexist_ck`, see Model/Coexist) -/
  trims : ℕ → ℕ → ℕ → Bool
  /-- the action assigns a pure shadow variable although the shadow protocol of its process is active and the
  behavior is not "active shadow", src/synthesis.cc:978-990 without the test of `hi_invariant` -/
  shadowAct : ℕ → ℕ → Bool
  /-- the result of `candidate_actions`, src/xnsys.cc:1055-1260 -/
  cands : ℕ → List ℕ
  /-- the actions rejected by `candidate_actions` -/
  rejs : ℕ → List ℕ
  /-- `pc_symm.conflicts`, src/synthesis.cc:1650-1665 -/
  declared : ℕ → List (List ℕ)
  /-- `sys.actions` of system 0 -/
  given : List ℕ
  /-- `no_conflict` -/
  noConflict : ℕ → Bool
  /-- `directly_add_conflicts` -/
  directly : Bool
  /-- `opt.prep_conflicts` -/
  prep : Bool
  /-- `opt.fast_deadlock_mrv` -/
  fast : Bool
  /-- `opt.max_conflict_sz` -/
  maxConflictSz : ℕ
  /-- `opt.verify_found` -/
  verifyFound : Bool
  /-- `opt.max_depth` -/
  maxDepth : ℕ
  /-- `opt.max_height` -/
  maxHeight : ℕ
  /-- the order of flat sets in a `std::set` -/
  le : Finset ℕ → Finset ℕ → Bool
  /-- `pick_pre` -/
  pick : ∀ i, Finset (σ i) → Option (σ i)
  /-- `PickActionMRV`, src/synthesis.cc:277-397 -/
  pickMRV : ρ → CFam → PSyn (SRest σ) → ρ × Option ℕ
  /-- what a call of `done_ck` finds, src/search.cc:384-400 and src/main-mpi.cc:52-80: the conflicts received
  from other processes, and whether to stop (a signal, the file "kill-protocon", another thread or process) -/
  tick : ρ → ρ × List (Finset ℕ) × Bool := fun r => (r, [], false)

/-- `conflicts.add_conflict`, src/conflictfamily.cc:52-95. -/
def SynCfg.learn (cfg : SynCfg σ τ ρ) (b : Finset ℕ) (fam : CFam) : CFam :=
  addConflict (fun a b => cfg.le a b = true) b fam

/-- `ctx->done_ck()`, src/synthesis.hh:271-274, src/search.cc:384-400, src/main-mpi.cc:52-80.  Left out: messages
with the number of layers, which are sent only when solutions are optimized. -/
def pollG (cfg : SynCfg σ τ ρ) (g : SynG ρ) : SynG ρ × Bool :=
  if g.stop then (g, true)
  else
    let t := cfg.tick g.rng
    (⟨t.2.1.foldl (fun f b => cfg.learn b f) g.fam, g.optimal, t.1, t.2.2⟩, t.2.2)

/-- Enough rounds for every loop over the states of system `i`. -/
def stFuel (σ : ℕ → Type) [∀ i, Fintype (σ i)] (i : ℕ) : ℕ := 2 * Fintype.card (σ i) + 2

/-- The union of the transitions of some actions, `add_act_xfmlae.xfmla()` and the like. -/
def SynCfg.union (cfg : SynCfg σ τ ρ) (i : ℕ) (s : Finset ℕ) : Finset (σ i × σ i) := s.biUnion (cfg.actXn i)

/-- `QuickTrim`, src/synthesis.cc:705-732. -/
def quickTrim (cfg : SynCfg σ τ ρ) (i : ℕ) (cands : List ℕ) (a : ℕ) : Finset ℕ :=
  (cands.filter fun c => c ≠ a ∧ cfg.trims i a c).toFinset

/-- One added action, src/synthesis.cc:1086-1134; the state is `candidates`, `dels` and
`candidates_contain_all_adds`. -/
def addOne (cfg : SynCfg σ τ ρ) (i : ℕ) (adds : Finset ℕ) (st : List ℕ × Finset ℕ × Bool) (a : ℕ) :
    List ℕ × Finset ℕ × Bool :=
  let cands := st.1.erase a
  (cands, if cfg.prep then st.2.1 else st.2.1 ∪ (quickTrim cfg i cands a \ adds), st.2.2 && decide (a ∈ st.1))

/-- Removing actions from the candidates, src/synthesis.cc:1069-1071,1198. -/
def dropAll (cands : List ℕ) (s : Finset ℕ) : List ℕ := (arr s).foldl List.erase cands

/-- How `revise_actions_alone` ends for one system. -/
inductive AOne (S : Type) where
  | abort
  | fail
  | ok (st : SynSt S) (adds dels rejs : Finset ℕ)

/-- `check_forward`, src/synthesis.cc:947-1021; `actions` are the actions of the instance. -/
def checkForward (cfg : SynCfg σ τ ρ) (i : ℕ) (fam : CFam) (actions : Finset ℕ) (st : SynSt (σ i)) : AOne (σ i) :=
  if st.mcv.sz ≤ 1 then
    if st.deadlock.Nonempty then .abort
    else if conflictCk fam actions then .fail
    else .ok { st with cands := [] } ∅ ∅ ∅
  else
    let adds := st.mcv.cands 1
    let dels := (st.cands.filter fun a => decide (dom (cfg.actXn i a) ⊆ dom st.lo) ||
      (cfg.shadowAct i a && decide (dom (cfg.actXn i a) ∩ st.hiInv = ∅))).toFinset
    let r := conflictMembs fam ∅ (actions ∪ adds) st.cands.toFinset
    if r.1 then .ok st adds (dels ∪ r.2) r.2 else .fail

/-- The branch of `revise_actions_alone` for systems that are only verified, src/synthesis.cc:1058-1083. -/
def aloneVerify (cfg : SynCfg σ τ ρ) (i : ℕ) (st : SynSt (σ i)) (adds dels : Finset ℕ) : AOne (σ i) :=
  let cands := dropAll (dropAll st.cands adds) dels
  let loF := st.loF ∪ cfg.union i adds
  let deadlock := (((cfg.sys i).invariantᶜ ∪ dom (cfg.sys i).shadowXn) ∩ (cfg.sys i).closedAssume) \ dom loF
  if cands ≠ [] ∨ deadlock = ∅ then
    .ok { st with cands := cands, loF := loF, deadlock := deadlock, nlayers := 1 } ∅ ∅ ∅
  else .fail

/-- The end of `revise_actions_alone`, src/synthesis.cc:1284-1357, after the cycle check: `st` has the new
`lo_xn`, `hi_xn`, `candidates`, and in `nlayers` the layers of the cycle check. -/
def aloneTail (cfg : SynCfg σ τ ρ) (i : ℕ) (fam : CFam) (actions : Finset ℕ) (maxNl : ℕ) (scc : Finset (σ i))
    (contain : Bool) (adds dels : Finset ℕ) (st : SynSt (σ i)) : AOne (σ i) :=
  match shadowCk (stFuel σ i) (cfg.sys i) st.lo st.hi [] scc with
  | none => .abort
  | some .abort => .abort
  | some .reject => .fail
  | some (.accept hiInv) =>
    if ¬ hiInv ⊆ st.hiInv then .abort
    else
      let deadlock := ((hiInvᶜ ∪ dom (cfg.sys i).shadowXn) ∩ (cfg.sys i).closedAssume) \ dom st.lo
      if ¬ deadlock ⊆ dom st.hi then .fail
      else
        match weakConv4 (stFuel σ i) (some maxNl) st.hi hiInv (cfg.sys i).closedAssume with
        | none => .abort
        | some (false, _) => .fail
        | some (true, nl) =>
          let st' := { st with hiInv := hiInv, deadlock := deadlock, nlayers := max st.nlayers nl }
          if cfg.fast = false ∨ ((cfg.sys i).shadowPuppet = true ∧ ¬ deadlock ⊆ st.deadlock) ∨ contain = false then
            checkForward cfg i fam actions { st' with
              mcv := rankDeadlocksMRV (fun a => dom (cfg.actXn i a)) st.cands deadlock }
          else
            match reviseDeadlocksMRV (fun a => dom (cfg.actXn i a)) adds dels st.mcv with
            | none => .abort
            | some mcv => checkForward cfg i fam actions { st' with mcv := mcv }

/-- `revise_actions_alone`, src/synthesis.cc:1024-1358, after the call of `done_ck`; the result has the conflicts in its first component.
`actions` are the actions of the instance before the call, `st.nlayers` is `*ret_nlayers`.  Simplified: when
`adds` and `dels` overlap the code also looks at `mcv_deadlocks[1]`, which may not exist, to choose a message. -/
def aloneOne (cfg : SynCfg σ τ ρ) (i : ℕ) (fam : CFam) (actions : List ℕ) (noPartial : Bool) (st : SynSt (σ i))
    (adds dels : Finset ℕ) : CFam × AOne (σ i) :=
  let r := if cfg.prep then conflictMembs fam ∅ (actions.toFinset ∪ adds) st.cands.toFinset else (true, ∅)
  if r.1 = false then (fam, .fail)
  else
    let dels := dels ∪ r.2
    if noPartial then (fam, aloneVerify cfg i st adds dels)
    else
      let f := (arr adds).foldl (addOne cfg i adds) (st.cands, dels, true)
      let actions := addActs actions adds
      let dels := f.2.1
      if (adds ∩ dels).Nonempty then (fam, .fail)
      else
        let sys := cfg.sys i
        let lo := st.lo ∪ cfg.union i adds
        let hi := if f.2.2 then st.hi else st.hi ∪ cfg.union i adds
        let cands := dropAll f.1 dels
        let hi := hi \ ((cfg.union i dels \ lo) \ cfg.union i cands.toFinset)
        let maxNl := if 0 < st.nlayers ∧ ((cfg.opt i).maxNlayers = 0 ∨ st.nlayers < (cfg.opt i).maxNlayers)
          then st.nlayers else (cfg.opt i).maxNlayers
        match cycleCk (stFuel σ i) lo (some maxNl) (some st.hiInv) (some sys.closedAssume) with
        | none => (fam, .abort)
        | some c =>
          if 0 < maxNl ∧ maxNl < c.nlayers then (fam, .fail)
          else if ¬ c.scc.getD ∅ ⊆ sys.invariant then
            match findLivelockActions (stFuel σ i) (cfg.pick i) lo (c.scc.getD ∅) sys.invariant (cfg.actXn i)
              actions with
            | none => (fam, .abort)
            | some s => (cfg.learn s fam, .fail)
          else
            (fam, aloneTail cfg i fam actions.toFinset maxNl (c.scc.getD ∅) f.2.2 adds dels
              { st with
                cands := cands
                lo := lo
                loF := st.loF ∪ cfg.union i adds
                hi := hi
                nlayers := c.nlayers })

/-- The limit on the layers of system `i`, src/synthesis.cc:1387-1404: `none` for "suboptimal", the second
component is `false` if the `Claim` fails. -/
def layerLimit (maxSum i : ℕ) (insts : List (SInst (SRest σ))) : Option (ℕ × Bool) :=
  if 0 < maxSum then
    let sum := (insts.map fun x => x.rest.2.nlayers).sum
    if maxSum ≤ sum then none
    else
      let rest := sum - ((insts[i]?).map fun x => x.rest.2.nlayers).getD 0
      some (maxSum - 1 - rest, decide (rest + 1 < maxSum))
  else some (0, true)

/-- The result for the instance `x` in the form of Model/Search, src/synthesis.cc:1405-1412.  Simplified: an
instance that fails is not changed; nothing looks at it afterwards. -/
def AOne.res {i : ℕ} (x : SInst (SRest σ)) : AOne (σ i) → AloneRes (SRest σ)
  | .abort => .abort
  | .fail => .fail x
  | .ok st adds dels rejs => .ok ⟨i, st⟩ adds dels rejs

/-- The body of the inner loop of `revise_actions` up to the effect on `actions`, src/synthesis.cc:1387-1412, with
the call of `done_ck` at src/synthesis.cc:1034-1035. -/
def aloneAll (cfg : SynCfg σ τ ρ) (g : SynG ρ) (maxSum i : ℕ) (insts : List (SInst (SRest σ)))
    (adds dels : Finset ℕ) : SynG ρ × AloneRes (SRest σ) :=
  match insts[i]? with
  | none => (g, .abort)
  | some x =>
    match layerLimit maxSum i insts with
    | none => (g, .fail x)
    | some (_, false) => (g, .abort)
    | some (lim, true) =>
      match pollG cfg g with
      | (g, true) => (g, .fail x)
      | (g, false) =>
        let r := aloneOne cfg x.rest.1 g.fam x.actions x.noPartial { x.rest.2 with nlayers := lim } adds dels
        ({ g with fam := r.1 }, r.2.res x)

/-- The parts of `stabilization_ck` that decide about `livelock_exists`, src/stabilization.cc:300-380. -/
def stabLivelock (fuel : ℕ) {S T : Type} [Fintype S] [DecidableEq S] [DecidableEq T] (sys : Sys S T)
    (opt : StabOpt) (xn : Finset (S × S)) : Bool :=
  if sys.invariant ∩ sys.closedAssume = ∅ then false
  else if sys.probabilistic = false ∧ (restr (xn ∩ sys.identXn) sys.closedAssume).Nonempty then false
  else if sys.closedAssume ≠ Finset.univ ∧ (img xn sys.closedAssume \ sys.closedAssume).Nonempty then false
  else if ¬ sys.invariantᶜ ∩ sys.closedAssume ⊆ dom xn then false
  else
    match stabCycles fuel sys opt xn [] with
    | some (.ok (scc, nlayers)) =>
      if opt.maxNlayers > 0 ∧ nlayers > opt.maxNlayers then false else decide (¬ scc ⊆ sys.invariant)
    | _ => false

/-- `stabilization_ck` as the search calls it, src/search.cc:53-54. -/
def stabRes (cfg : SynCfg σ τ ρ) (i : ℕ) (actions : List ℕ) : StabRes :=
  let xn := cfg.union i actions.toFinset
  match stabCk (stFuel σ i) (cfg.sys i) (cfg.opt i) xn xn [] with
  | some (.accept (_, n)) => ⟨true, false, n, []⟩
  | _ => ⟨false, stabLivelock (stFuel σ i) (cfg.sys i) (cfg.opt i) xn, 0, []⟩

/-- The functions that Model/Search leaves open, without `add_small_conflict_set`.  The swapping of useless
picks, src/synthesis.cc:1441-1495, only happens for shadow/puppet synthesis and is left out. -/
def synEnv (cfg : SynCfg σ τ ρ) (base : List (SInst (SRest σ))) : SearchEnv (SynG ρ) (SRest σ) where
  done := pollG cfg
  optimal g := g.optimal
  setOptimal n g := { g with optimal := n }
  conflictCk g l := Verif.Model.conflictCk g.fam l.toFinset
  addConflict l g := { g with fam := cfg.learn l.toFinset g.fam }
  addSmall _ g := g
  deadlock r := decide r.2.deadlock.Nonempty
  candidates r := r.2.cands
  stab := stabRes cfg
  pickMRV g ps := let r := cfg.pickMRV g.rng g.fam ps; ({ g with rng := r.1 }, r.2)
  alone := aloneAll cfg
  changes g _ := (g, none)
  base _ := base
  resetRest b _ := b
  nlayersSum l := (l.map fun x => x.rest.2.nlayers).sum
  verifyFound := cfg.verifyFound
  maxDepth := cfg.maxDepth
  maxHeight := cfg.maxHeight

/-- The number of candidates of all instances; bounds the rounds of `revise_actions`. -/
def candTotal (l : List (SInst (SRest σ))) : ℕ := (l.map fun x => x.rest.2.cands.length).sum

/-- The instances that `add_small_conflict_set` starts from, src/synthesis.cc:861-868. -/
def smallBase (cfg : SynCfg σ τ ρ) (base : List (SInst (SRest σ))) : List (SInst (SRest σ)) :=
  base.map fun x => { x with noPartial := x.noPartial || cfg.noConflict x.rest.1 }

/-- The loop of `add_small_conflict_set`, src/synthesis.cc:864-884; the state is `ctx` and `delpick_set`.  A failed
`Claim` in `revise_actions` (which stops the program) leaves everything as it is. -/
def smallLoop (cfg : SynCfg σ τ ρ) (base : List (SInst (SRest σ))) : List ℕ → SynG ρ × Finset ℕ → SynG ρ
  | [], st => st.1
  | p :: l, st =>
    let s := st.2.erase p
    match reviseActions (synEnv cfg base) (candTotal base + 1) st.1 ⟨0, [], smallBase cfg base⟩ s {p} with
    | none => smallLoop cfg base l st
    | some (g, true, _, _) => smallLoop cfg base l (g, insert p s)
    | some (g, false, _, _) =>
      match pollG cfg g with
      | (g, true) => g
      | (g, false) => smallLoop cfg base l ({ g with fam := cfg.learn s g.fam }, s)

/-- `add_small_conflict_set(picks)`, src/synthesis.cc:835-887. -/
def smallSet (cfg : SynCfg σ τ ρ) (base : List (SInst (SRest σ))) (ps : PSyn (SRest σ)) (g : SynG ρ) : SynG ρ :=
  match pollG cfg g with
  | (g, true) => g
  | (g, false) =>
    if ps.insts.all fun x => cfg.noConflict x.rest.1 then g
    else if 0 < cfg.maxConflictSz ∧ cfg.maxConflictSz < ps.picks.length then g
    else if conflictCk g.fam ps.picks.toFinset && !exactConflictCk g.fam ps.picks.toFinset then g
    else
      let g := { g with fam := cfg.learn ps.picks.toFinset g.fam }
      if cfg.directly then g
      else smallLoop cfg base ps.picks (g, ps.picks.toFinset)

/-- The search with everything in place. -/
def fullEnv (cfg : SynCfg σ τ ρ) (base : List (SInst (SRest σ))) : SearchEnv (SynG ρ) (SRest σ) :=
  { synEnv cfg base with addSmall := smallSet cfg base }

/-- The instance made by `SynthesisCtx::add`, src/synthesis.cc:1688-1706. -/
def initInst (cfg : SynCfg σ τ ρ) (i : ℕ) : SInst (SRest σ) :=
  let sys := cfg.sys i
  let dl := sys.invariantᶜ ∩ sys.closedAssume
  let dl := if sys.shadowPuppet then dl ∪ dom sys.shadowXn else dl
  ⟨[], false, ⟨i, {
    cands := cfg.cands i
    deadlock := dl
    lo := ∅
    loF := ∅
    hi := cfg.union i (cfg.cands i).toFinset
    hiInv := sys.invariant ∩ sys.closedAssume
    mcv := rankDeadlocksMRV (fun a => dom (cfg.actXn i a)) (cfg.cands i) dl
    nlayers := 1 }⟩⟩

/-- The conflicts that `SynthesisCtx::add` learns for system `i`, src/synthesis.cc:1646-1686. -/
def initFam (cfg : SynCfg σ τ ρ) (i : ℕ) (fam : CFam) : CFam :=
  let fam := (cfg.rejs i).foldl (fun f a => cfg.learn {a} f) fam
  let fam := (cfg.declared i).foldl (fun f l => cfg.learn l.toFinset f) fam
  if cfg.prep then
    (cfg.cands i).foldl (fun f a =>
      (arr (quickTrim cfg 0 (cfg.cands i) a)).foldl (fun f b => cfg.learn {a, b} f) f) fam
  else fam

/-- `SynthesisCtx::add` for the systems `0, …, n-1` and the first call of `revise_actions`, src/search.cc:217-236
and, for several systems, src/search.cc:571-628.  `fam0` are the conflicts that `synctx.conflicts` has before,
src/search.cc:751.  The calls of `candidate_actions` are assumed to return true. -/
def startUpFrom (cfg : SynCfg σ τ ρ) (n fuel : ℕ) (rng : ρ) (fam0 : CFam) :
    Option (SynG ρ × Bool × PSyn (SRest σ) × Option ℕ) :=
  let insts := (List.range n).map (initInst cfg)
  let fam := (List.range n).foldl (fun f i => initFam cfg i f) fam0
  reviseActions (synEnv cfg insts) fuel ⟨fam, 0, rng, false⟩ ⟨0, [], insts⟩ cfg.given.toFinset fam.impossible

/-- The same without conflicts from a file. -/
def startUp (cfg : SynCfg σ τ ρ) (n fuel : ℕ) (rng : ρ) : Option (SynG ρ × Bool × PSyn (SRest σ) × Option ℕ) :=
  startUpFrom cfg n fuel rng CFam.empty

/-- `AddStabilization(Xn::Sys&, opt)`, src/search.cc:217-238, for the systems `0, …, n-1` (the code has this
function for one system; the driver at src/search.cc:571-628 adds further ones in the same way). -/
def synthesize (cfg : SynCfg σ τ ρ) (n fuel : ℕ) (rng : ρ) : Option (AddOut (SynG ρ)) :=
  match startUp cfg n fuel rng with
  | none => none
  | some (g, false, _, _) => some (.fail g)
  | some (g, true, ps, _) => addStabilization (fullEnv cfg ps.insts) fuel g ps

end Verif.Model
