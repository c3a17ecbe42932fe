import Verif.Model.ActXn
import Verif.Model.ActRead

/-!
Model of the last part of `Sys::commit_initialization` (src/xnsys.cc:602-625), where the relation
`direct_pfmla` and the list `actions` are made from the transitions of the processes, and of the
choice between the two in `stabilization_ck` (src/stabilization.cc:535-557).
-/

set_option linter.unusedSectionVars false

namespace Verif.Model

variable {V : Type} [Fintype V] [DecidableEq V] {dom : V → ℕ}

/-- The parts of `Sys` used here: for each process symmetry its processes with `puppet_xn` and
`closed_assume`; the number of actions; the flag `lightweight`. -/
structure ISys (V : Type) (dom : V → ℕ) where
  groups : List (PcComm × List (PcXn V dom))
  n : ℕ
  light : Bool

/-- `sys.topology`. -/
def ISys.net (sys : ISys V dom) : ANet V dom where
  comms := sys.groups.map Prod.fst
  n := sys.n
  pcs := sys.groups.flatMap fun g => g.2.map fun p => (g.1, p.pc)
  light := sys.light

/-- `pc_symm.direct_pfmla`, src/xnsys.cc:604-612. -/
def ISys.groupXn (sys : ISys V dom) (g : PcComm × List (PcXn V dom)) : PairSet V dom :=
  g.2.foldl (fun x p => x ∪ ((p.puppet.filter fun e => e.1 ∈ p.closed) ∩ sys.net.mask p.pc)) ∅

/-- `sys.direct_pfmla`, src/xnsys.cc:602-614. -/
def ISys.directXn (sys : ISys V dom) : PairSet V dom :=
  sys.groups.foldl (fun x g => x ∪ sys.groupXn g) ∅

/-- `sys.actions`, src/xnsys.cc:617-626: the representatives of the actions of each symmetry. -/
def ISys.actions (sys : ISys V dom) (pk : Picker V dom) : Option (List ℕ) :=
  (sys.groups.mapM fun g => (symmActions pk g.1 g.2).bind fun S =>
    (arr S).mapM (repActIdx sys.net.comms sys.n)).map fun l => arr l.flatten.toFinset

/-- The relation checked by `stabilization_ck` without `synchronous`, src/stabilization.cc:535-557, 489-524:
`info` says whether information about the result is asked for. -/
def ISys.checkedXn (sys : ISys V dom) (pk : Picker V dom) (info : Bool) : Option (PairSet V dom) :=
  if !info || sys.light then some sys.directXn
  else (sys.actions pk).bind fun l => (sys.net.stabXn l).map sys.net.xfmla

end Verif.Model
