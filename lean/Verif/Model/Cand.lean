import Verif.Model.Stab
import Verif.Model.Synth

/-!
Model of `candidate_actions`, src/xnsys.cc:1055-1265: which actions the synthesizer may use.

The formulas of processes and actions and the operations on variables (smoothing, assignment) are inputs; a
formula over transitions is a set of pairs of states.  Debug output is left out.
-/

set_option linter.unusedSectionVars false

namespace Verif.Model

/-- What is asked about a written variable of an action, src/xnsys.cc:1129-1158. -/
structure WVbl where
  /-- `vbl_symm.pure_shadow_ck()` -/
  pureShadow : Bool
  /-- `act.assign(i) == vbl_symm.domsz` -/
  keeps : Bool
  /-- `access.random_write_ck()` -/
  random : Bool
  /-- `access.synt_writeonly_ck()` -/
  writeOnly : Bool
  /-- `act.assign(i) == act.aguard(i)` -/
  same : Bool
  /-- the variable and the assigned value -/
  vbl : ℕ
  val : ℕ

/-- What is asked about a read variable, src/xnsys.cc:1159-1165. -/
structure RVbl where
  /-- `pc_symm.write_ck(i)` -/
  written : Bool
  /-- `vbl_symm.puppet_ck()` -/
  puppet : Bool
  vbl : ℕ

/-- An action. -/
structure ActInfo where
  /-- `actidx == topo.representative_action_index(actidx)` -/
  rep : Bool
  writes : List WVbl
  reads : List RVbl

/-- A system as `candidate_actions` sees it. -/
structure CandSys (S T : Type) where
  sys : Sys S T
  /-- `topo.n_possible_acts` -/
  nActs : ℕ
  act : ℕ → ActInfo
  /-- `pc_symm.membs.sz() > 0` for the process of the action -/
  hasPc : ℕ → Bool
  /-- `topo.action_pfmla(actidx)` -/
  xn : ℕ → Finset (S × S)
  /-- `topo.represented_xns_of_pc(act, rep_pcidx)` -/
  pcXn : ℕ → Finset (S × S)
  /-- `pc.forbid_xn`, `pc.permit_xn`, `pc.shadow_xn` of the process of the action -/
  forbid : ℕ → Finset (S × S)
  permit : ℕ → Finset (S × S)
  shadow : ℕ → Finset (S × S)
  /-- `sys.shadow_self` -/
  shadowSelf : Finset (S × S)
  /-- `topo.smooth_puppet_vbls` for states and for transitions -/
  smoothP : Finset S → Finset S
  smoothX : Finset (S × S) → Finset (S × S)
  /-- `pf_vbl.img_eq(pf_vbl)`, `pf_vbl.img_eq(value)` -/
  unchanged : ℕ → Finset (S × S)
  becomes : ℕ → ℕ → Finset (S × S)
  /-- `smooth_pre(pf_vbl)`, `smooth(pf_vbl)` -/
  smoothPre : ℕ → Finset (S × S) → Finset (S × S)
  smoothV : ℕ → Finset (S × S) → Finset (S × S)

/-- The variables of src/xnsys.cc:1122-1127. -/
structure LoopSt (S : Type) where
  puppetLoop : Bool
  shadowLoop : Bool
  fullImg : Bool
  shadowExists : Bool
  shadowXn : Finset (S × S)

/-- The fate of an action. -/
inductive CandKind
  | skip | rej | del | cand
deriving DecidableEq

section
variable {S T : Type} [Fintype S] [DecidableEq S]

/-- The loop over the written variables, src/xnsys.cc:1129-1158. -/
def writeStep (c : CandSys S T) (st : LoopSt S) (w : WVbl) : LoopSt S :=
  if w.pureShadow then
    if w.keeps then
      { st with
        shadowExists := true
        shadowXn := st.shadowXn ∩ c.unchanged w.vbl
        fullImg := false }
    else
      { st with
        shadowExists := true
        shadowLoop := false
        shadowXn := c.smoothPre w.vbl (st.shadowXn ∩ c.becomes w.vbl w.val) }
  else if w.random then { st with puppetLoop := false }
  else if w.writeOnly then if w.keeps then st else { st with puppetLoop := false }
  else if w.same then st else { st with puppetLoop := false }

/-- The loop over the read variables, src/xnsys.cc:1159-1165. -/
def readStep (c : CandSys S T) (xn : Finset (S × S)) (r : RVbl) : Finset (S × S) :=
  if r.written then xn else if r.puppet then xn else c.smoothV r.vbl xn

/-- Both loops, src/xnsys.cc:1122-1165. -/
def loopFlags (c : CandSys S T) (a : ℕ) : LoopSt S :=
  let st := (c.act a).writes.foldl (writeStep c) ⟨true, true, true, false, c.smoothX (c.shadow a)⟩
  { st with shadowXn := (c.act a).reads.foldl (readStep c) st.shadowXn }

/-- The end of the body, src/xnsys.cc:1231-1254, for actions that are still to be added. -/
def candTail (c : CandSys S T) (a : ℕ) : CandKind :=
  let hiInv := c.sys.invariant ∩ c.sys.closedAssume
  if c.sys.scope = .direct ∧ ¬ img (c.xn a) hiInv ⊆ c.sys.invariant then .rej
  else if c.sys.scope = .direct ∧ c.sys.style ≠ .closed ∧
    ¬ restr (c.xn a) hiInv ⊆ c.sys.shadowXn ∪ c.shadowSelf then .rej
  else if dom (c.xn a) ∩ c.sys.closedAssume = ∅ then .skip
  else .cand

/-- The treatment of pure shadow variables, src/xnsys.cc:1197-1230; `shadowLoop` is the value after the
correction at 1174-1175. -/
def candShadow (c : CandSys S T) (a : ℕ) (f : LoopSt S) (shadowLoop : Bool) : CandKind :=
  let hiInv := c.sys.invariant ∩ c.sys.closedAssume
  if c.shadow a = ∅ then if f.fullImg then candTail c a else .rej
  else if hiInv ⊆ dom c.sys.shadowXn ∧ f.puppetLoop then .rej
  else if shadowLoop ∨ f.puppetLoop then
    if c.sys.behav = .activeShadow then .rej else candTail c a
  else if hiInv ⊆ dom c.sys.shadowXn ∨ c.sys.behav = .activeShadow then
    if c.smoothX (c.pcXn a) ≠ f.shadowXn then .del else candTail c a
  else candTail c a

/-- The body of the loop, src/xnsys.cc:1081-1254: what becomes of an action. -/
def candKind (c : CandSys S T) (a : ℕ) : CandKind :=
  if (c.act a).rep = false then .skip
  else if c.hasPc a = false then .skip
  else if c.xn a = ∅ then .skip
  else if c.pcXn a ⊆ c.forbid a then .rej
  else if (c.permit a).Nonempty ∧ ¬ c.pcXn a ⊆ c.permit a then .rej
  else
    let f := loopFlags c a
    if f.puppetLoop ∧ f.shadowLoop then .rej
    else if ¬ img (c.xn a) c.sys.closedAssume ⊆ c.sys.closedAssume then .rej
    else if c.sys.closedAssume ∩ dom (c.xn a) = ∅ then .del
    else if c.smoothP (rng (c.xn a)) ∩ (c.sys.invariant ∩ c.sys.closedAssume) = ∅ then .del
    else candShadow c a f (f.shadowLoop && f.shadowExists)

/-- The result of `candidate_actions`: the return value, `candidates`, `dels`, `rejs`. -/
structure CandOut where
  ok : Bool
  cands : List ℕ
  dels : List ℕ
  rejs : List ℕ

/-- `candidate_actions`, src/xnsys.cc:1055-1265. -/
def candidateActions (c : CandSys S T) : CandOut :=
  if c.sys.invariant = ∅ then ⟨false, [], [], []⟩
  else if c.sys.invariant ∩ c.sys.closedAssume = ∅ then ⟨false, [], [], []⟩
  else if c.sys.invariant = Finset.univ ∧ c.sys.shadowPuppet = false then ⟨true, [], [], []⟩
  else
    let of k := (List.range c.nActs).filter fun a => candKind c a = k
    ⟨!(of .cand).isEmpty, of .cand, of .del, of .rej⟩

end

variable {σ τ : ℕ → Type} [∀ i, Fintype (σ i)] [∀ i, DecidableEq (σ i)] [∀ i, DecidableEq (τ i)] {ρ : Type}

/-- The input of the synthesizer with the systems, transitions, candidates and rejected actions of `cs`. -/
def withCands (cfg : SynCfg σ τ ρ) (cs : ∀ i, CandSys (σ i) (τ i)) : SynCfg σ τ ρ :=
  { cfg with
    sys := fun i => (cs i).sys
    actXn := fun i => (cs i).xn
    cands := fun i => (candidateActions (cs i)).cands
    rejs := fun i => (candidateActions (cs i)).rejs }

/-- `AddStabilization(Xn::Sys&, opt)`, src/search.cc:217-238, with `candidate_actions`: if it returns false
then so does `SynthesisCtx::add`, and nothing is searched. -/
def synthesizeSys (cfg : SynCfg σ τ ρ) (cs : ∀ i, CandSys (σ i) (τ i)) (n fuel : ℕ) (rng : ρ) :
    Option (AddOut (SynG ρ)) :=
  if (List.range n).all fun i => (candidateActions (cs i)).ok then synthesize (withCands cfg cs) n fuel rng
  else some (.fail ⟨CFam.empty, 0, rng, false⟩)

end Verif.Model
