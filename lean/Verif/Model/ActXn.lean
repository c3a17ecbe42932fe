import Verif.Model.Sync
import Verif.Model.Index

/-!
Model of the transitions kept for actions: the table `act_xfmlaes` filled by
`Net::commit_initialization` (src/xnsys.cc:79-92, 1035-1053), what `Net::action_pfmla`,
`Net::action_xfmlae` and `Net::represented_xns_of_pc` return with and without `lightweight`
(src/xnsys.cc:353-391, 976-1033), and the relation built by `stabilization_ck` from a list of actions
(src/stabilization.cc:489-518).

A formula over variables and their primed copies is a set of pairs of states, `X::Fmlae` one such set
for each process.  Failed `Claim`s and accesses outside a table are the result `none`.
-/

set_option linter.unusedSectionVars false

namespace Verif.Model

/-- `X::Fmla`: pairs of states. -/
abbrev PairSet (V : Type) (dom : V → ℕ) : Type := Finset (VSt V dom × VSt V dom)

/-- The parts of `Net` used here: the process symmetries with their numbering (`commitPcs`), the number
of actions `ntotal`, the processes with their symmetry, and the flag `lightweight`. -/
structure ANet (V : Type) (dom : V → ℕ) where
  comms : List PcComm
  n : ℕ
  pcs : List (PcComm × SPc V dom)
  light : Bool

variable {V : Type} [Fintype V] [DecidableEq V] {dom : V → ℕ}

/-- `smooth`: the variable becomes arbitrary before and after. -/
def smoothBoth (v : V) (x : PairSet V dom) : PairSet V dom :=
  Finset.univ.filter fun e => ∃ a b, (Function.update e.1 v a, Function.update e.2 v b) ∈ x

/-- The variables with `random_flag`, set by `add_access`, src/xnsys.cc:251-254. -/
def ANet.random (net : ANet V dom) : List V :=
  net.pcs.flatMap fun p => (p.2.rvbls.zip p.2.spec.access).filterMap fun e =>
    if e.2.type = .randomRead then some e.1 else none

/-- `global_mask_xns[pcidx]`: the identity (src/xnsys.cc:150-155, 222-223) smoothed by `add_access` for
each written variable (260-268) and by `commit_initialization` for each random one (58-77). -/
def ANet.mask (net : ANet V dom) (pc : SPc V dom) : PairSet V dom :=
  net.random.foldl (fun m v => smoothBoth v m)
    (pc.wvbls.foldl (fun m v => smoothBoth v m) (Finset.univ.filter fun e => e.2 = e.1))

/-- `img()` of a formula. -/
def imgOf (x : PairSet V dom) : Finset (VSt V dom) := x.image Prod.snd

/-- `xn -= pf` for a formula over states: no transitions from these states. -/
def dropFrom (x : PairSet V dom) (P : Finset (VSt V dom)) : PairSet V dom := x.filter fun e => e.1 ∉ P

/-- The constructor of `X::Fmlae`, src/xfmlae.hh:41-45. -/
def ANet.falseXn (net : ANet V dom) : List (PairSet V dom) := net.pcs.map fun _ => ∅

/-- `operator|=` of `X::Fmlae`, src/xfmlae.hh:119-123. -/
def orXn (x y : List (PairSet V dom)) : List (PairSet V dom) := List.zipWith (· ∪ ·) x y

/-- `self_disable`, src/xfmlae.hh:131-134. -/
def ANet.selfDisable (net : ANet V dom) (x : List (PairSet V dom)) : List (PairSet V dom) :=
  List.zipWith (fun p f => dropFrom f (imgOf (f ∩ net.mask p.2))) net.pcs x

/-- `xfmla`, src/xfmlae.hh:51-59. -/
def ANet.xfmla (net : ANet V dom) (x : List (PairSet V dom)) : PairSet V dom :=
  (List.zipWith (fun p f => (p, f)) net.pcs x).foldl
    (fun ret e => if e.2 ≠ ∅ then ret ∪ (e.2 ∩ net.mask e.1.2) else ret) ∅

/-- `make_action_xfmlae`, src/xnsys.cc:1008-1030.  The processes of a symmetry follow each other in `pcs`;
the other entries stay `false`. -/
def ANet.make (net : ANet V dom) (a : ℕ) : Option (List (PairSet V dom)) :=
  (netActOf net.comms a).bind fun act =>
    net.pcs.mapM fun p => if p.1 = act.pcc then xnOfPc p.2 act.vals else some ∅

/-- `PcSymmSpec::random_write_ck`, src/xnspec.hh:323. -/
def PcSymm.randomWriteCk (pc : PcSymm) : Bool := pc.access.any Access.randomWriteCk

/-- `cache_action_xfmla`, src/xnsys.cc:1035-1053. -/
def ANet.cacheStep (net : ANet V dom) (tab : List (List (PairSet V dom))) (a : ℕ) :
    Option (List (List (PairSet V dom))) :=
  (net.make a).bind fun xn =>
    (repActIdx net.comms net.n a).bind fun r =>
      (pcOfAct? a net.comms).bind fun c =>
        if r < tab.length ∧ a < tab.length then
          let tab := if r = a then tab.set a xn else (tab.set a net.falseXn).modify r (orXn · xn)
          some (if c.pc.randomWriteCk then tab else tab.modify r net.selfDisable)
        else none

/-- The table `act_xfmlaes` after `commit_initialization`, src/xnsys.cc:87-91. -/
def ANet.table (net : ANet V dom) : Option (List (List (PairSet V dom))) :=
  (List.range net.n).foldlM net.cacheStep (List.replicate net.n net.falseXn)

/-- `represented_actions[a]`, src/xnsys.cc:79-83. -/
def ANet.repd (net : ANet V dom) (a : ℕ) : Option (List ℕ) :=
  (representedActions net.comms net.n net.n).bind (·[a]?)

/-- The loop over the represented actions, src/xnsys.cc:378-384 and src/stabilization.cc:496-501. -/
def ANet.orAll (net : ANet V dom) (x : List (PairSet V dom)) (bs : List ℕ) : Option (List (PairSet V dom)) :=
  bs.foldlM (fun x b => (net.make b).map (orXn x)) x

/-- `Net::action_xfmlae`, src/xnsys.cc:372-392. -/
def ANet.actXfmlae (net : ANet V dom) (a : ℕ) : Option (List (PairSet V dom)) :=
  if !net.light then net.table.bind (·[a]?)
  else (net.repd a).bind fun bs => (net.orAll net.falseXn bs).bind fun x =>
    (pcOfAct? a net.comms).map fun c => if c.pc.randomWriteCk then x else net.selfDisable x

/-- `Net::action_pfmla`, src/xnsys.cc:352-370; `make_action_pfmla`, 998-1006. -/
def ANet.actPfmla (net : ANet V dom) (a : ℕ) : Option (PairSet V dom) :=
  if !net.light then (net.table.bind (·[a]?)).map net.xfmla
  else (net.repd a).bind fun bs =>
    (bs.foldlM (fun xn b => (net.make b).map fun tmp => xn ∪ net.xfmla tmp) (∅ : PairSet V dom)).bind fun x =>
      (pcOfAct? a net.comms).map fun c => if c.pc.randomWriteCk then x else dropFrom x (imgOf x)

/-- `Net::represented_xns_of_pc`, src/xnsys.cc:975-996, for action number `a` and the process at
position `i` of `pcs`, which belongs to the symmetry of the action. -/
def ANet.repXnsOfPc (net : ANet V dom) (a i : ℕ) : Option (PairSet V dom) :=
  (net.pcs[i]?).bind fun p =>
    if !net.light then (net.table.bind (·[a]?)).bind (·[i]?)
    else (net.repd a).bind fun bs =>
      (bs.foldlM (fun xn b => (netActOf net.comms b).bind fun act =>
        (xnOfPc p.2 act.vals).map (xn ∪ ·)) (∅ : PairSet V dom)).bind fun x =>
        (netActOf net.comms a).map fun act =>
          if act.pcc.pc.randomWriteCk then x else dropFrom x (imgOf (x ∩ net.mask p.2))

/-- The relation that `stabilization_ck` builds from a list of actions, src/stabilization.cc:489-503
(`lo_xn`; `hi_xn` continues the same way with the candidates, 505-518). -/
def ANet.stabXn (net : ANet V dom) (acts : List ℕ) : Option (List (PairSet V dom)) :=
  acts.foldlM (fun x a =>
    if !net.light then (net.actXfmlae a).map (orXn x)
    else (net.repd a).bind fun bs => net.orAll x bs) net.falseXn

end Verif.Model
