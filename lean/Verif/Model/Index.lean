import Mathlib.Data.List.Basic
import Mathlib.Algebra.BigOperators.Group.List.Basic

/-!
Model of the numbering of actions of processes (`src/xnspec.hh`, `src/xnpc.cc`, `src/xnsys.cc`).

`Cx::index_of_state` and `Cx::state_of_index` belong to the library `cx`, whose source is not part
of the checkout.  They are modelled as mixed radix numbers with the most significant digit first;
this is the only reading under which `actidx / img_domsz` is the precondition part of an action
(src/xnpc.cc:155-156).  `Table<uint>::operator<` is the lexicographic order.  `uint` is unbounded.
-/

namespace Verif.Model

/-- `Cx::index_of_state (vals, doms)` (library function, assumed). -/
def indexOfState (vals doms : List ℕ) : ℕ :=
  (vals.zip doms).foldl (fun acc p => acc * p.2 + p.1) 0

/-- `Cx::state_of_index (vals, idx, doms)` (library function, assumed): digits are split off from
the least significant end. -/
def stateOfIndex (idx : ℕ) (doms : List ℕ) : List ℕ :=
  (doms.foldr (fun d p => (p.2 % d :: p.1, p.2 / d)) (([] : List ℕ), idx)).1

/-- `VariableAccessType`, src/xnspec.hh:25-33. -/
inductive AccessType where
  | read | write | yield | effect | randomRead | randomWrite
  deriving DecidableEq, Repr

/-- `ShadowPuppetRole`, src/xnspec.hh:35-40. -/
inductive Role where
  | direct | shadow | puppet
  deriving DecidableEq, Repr

/-- `VblSymmAccessSpec`, src/xnspec.hh:225-290 (`role` and `domsz` are those of its `vbl_symm`). -/
structure Access where
  type : AccessType
  role : Role
  domsz : ℕ
  deriving DecidableEq, Repr

/-- `write_ck`, src/xnspec.hh:235-242. -/
def Access.writeCk (a : Access) : Bool :=
  a.type = .write || a.type = .yield || a.type = .effect || a.type = .randomWrite

/-- `read_ck`, src/xnspec.hh:243-250. -/
def Access.readCk (a : Access) : Bool :=
  a.type = .read || a.type = .write || a.type = .randomRead || a.type = .randomWrite

/-- `VblSymmSpec::pure_shadow_ck`, src/xnspec.hh:218. -/
def Access.pureShadowCk (a : Access) : Bool := a.role = .shadow

/-- `VblSymmSpec::puppet_ck`, src/xnspec.hh:222. -/
def Access.puppetCk (a : Access) : Bool := a.role = .puppet || a.role = .direct

/-- `synt_read_ck`, src/xnspec.hh:252-254. -/
def Access.syntReadCk (a : Access) : Bool := a.readCk && a.puppetCk

/-- `random_write_ck`, src/xnspec.hh:267. -/
def Access.randomWriteCk (a : Access) : Bool := a.type = .randomWrite

/-- `rdomsz`, src/xnspec.hh:279-282. -/
def Access.rdomsz (a : Access) : ℕ := if !a.syntReadCk then 1 else a.domsz

/-- `wdomsz`, src/xnspec.hh:283-289. -/
def Access.wdomsz (a : Access) : ℕ :=
  if !a.writeCk then 0
  else if a.randomWriteCk then 1
  else if a.pureShadowCk then a.domsz + 1
  else if a.type = .effect then a.domsz + 1
  else a.domsz

/-- `LinkSymmetry`, src/xnspec.hh:133-168: `t` holds one row of `nlinks` access indices for each of
`nvbls` variables. -/
structure LinkSymm where
  nlinks : ℕ
  nvbls : ℕ
  t : List ℕ
  deriving DecidableEq, Repr

/-- `LinkSymmetry::operator()`, src/xnspec.hh:163-164. -/
def LinkSymm.ob (s : LinkSymm) (i j : ℕ) : Option ℕ := s.t[i * s.nlinks + j]?

/-- The fields of `PcSymm`/`PcSymmSpec` concerning action numbering. -/
structure PcSymm where
  access : List Access
  links : List LinkSymm
  deriving DecidableEq, Repr

/-- `spec->wmap`, filled by `add_access`, src/xnsys.cc:242-243: the indices of written accesses. -/
def PcSymm.wmap (pc : PcSymm) : List ℕ :=
  (List.range pc.access.length).filter fun i => ((pc.access[i]?).map Access.writeCk).getD false

/-- Domains of the guard part, src/xnsys.cc:36-40. -/
def PcSymm.rdoms (pc : PcSymm) : List ℕ := pc.access.map Access.rdomsz

/-- Domains of the assignment part, src/xnsys.cc:43-47 (`waccess(j)` is `access[wmap[j]]`). -/
def PcSymm.wdoms (pc : PcSymm) : List ℕ :=
  pc.wmap.map fun i => ((pc.access[i]?).map Access.wdomsz).getD 0

/-- `doms`, src/xnsys.cc:38,45. -/
def PcSymm.doms (pc : PcSymm) : List ℕ := pc.rdoms ++ pc.wdoms

/-- `pre_domsz`, src/xnsys.cc:35-40. -/
def PcSymm.preDomsz (pc : PcSymm) : ℕ := pc.rdoms.foldl (· * ·) 1

/-- `img_domsz`, src/xnsys.cc:42-47. -/
def PcSymm.imgDomsz (pc : PcSymm) : ℕ := pc.wdoms.foldl (· * ·) 1

/-- A process symmetry with `act_idx_offset` and `pre_dom_offset`. -/
structure PcComm where
  pc : PcSymm
  actOff : ℕ
  preOff : ℕ
  deriving DecidableEq, Repr

/-- The loop of `Net::commit_initialization`, src/xnsys.cc:28-52: second and third component are the
final `ntotal` and `total_pre_domsz`. -/
def commitPcs : ℕ → ℕ → List PcSymm → List PcComm × ℕ × ℕ
  | ntotal, npre, [] => ([], ntotal, npre)
  | ntotal, npre, pc :: l =>
    let r := commitPcs (ntotal + pc.preDomsz * pc.imgDomsz) (npre + pc.preDomsz) l
    (⟨pc, ntotal, npre⟩ :: r.1, r.2)

/-- `Net::action_pcsymm_index`, src/xnsys.cc:273-282, on the nonempty table `c :: l`: the process
symmetry found. -/
def pcOfAct (actidx : ℕ) : PcComm → List PcComm → PcComm
  | c, [] => c
  | c, c' :: l => if actidx < c'.actOff then c else pcOfAct actidx c' l

/-- As `pcOfAct`; `none` for a net without processes (`pc_symms.sz()-1` wraps around). -/
def pcOfAct? (actidx : ℕ) : List PcComm → Option PcComm
  | [] => none
  | c :: l => some (pcOfAct actidx c l)

/-- `ActSymm`, src/xnpc.hh:135-159. -/
structure ActSymm where
  pcc : PcComm
  vals : List ℕ
  preIdx : ℕ
  imgIdx : ℕ
  preIdxOfImg : ℕ
  deriving DecidableEq, Repr

/-- `swap_pre_img`, src/xnpc.cc:135-146: exchanges written guards and assignments, given the
remaining part of `wmap` and the position of the next assignment. -/
def swapPreImg : List ℕ → ℕ → List ℕ → List ℕ
  | [], _, vals => vals
  | r :: wmap, w, vals =>
    swapPreImg wmap (w + 1) ((vals.set r (vals.getD w 0)).set w (vals.getD r 0))

/-- `PcSymm::act_of`, src/xnpc.cc:148-166. -/
def PcComm.actOf (c : PcComm) (actidx : ℕ) : ActSymm :=
  let vals := stateOfIndex actidx c.pc.doms
  { pcc := c
    vals := vals
    preIdx := actidx / c.pc.imgDomsz
    imgIdx := actidx % c.pc.imgDomsz
    preIdxOfImg := indexOfState
      ((swapPreImg c.pc.wmap c.pc.access.length vals).take c.pc.access.length) c.pc.rdoms }

/-- `id_of(const ActSymm&)`, src/xnpc.cc:69-73. -/
def actId (c : PcComm) (vals : List ℕ) : ℕ := c.actOff + indexOfState vals c.pc.doms

/-- `Net::act_of`, src/xnsys.cc:284-292. -/
def netActOf (net : List PcComm) (actidx : ℕ) : Option ActSymm :=
  (pcOfAct? actidx net).map fun c => c.actOf (actidx - c.actOff)

/-- `Net::action_pre_index`, src/xnsys.cc:294-302. -/
def actionPreIndex (net : List PcComm) (actidx : ℕ) : Option ℕ :=
  (pcOfAct? actidx net).map fun c => (actidx - c.actOff) / c.pc.imgDomsz + c.preOff

/-- `Net::action_img_index`, src/xnsys.cc:304-311. -/
def actionImgIndex (net : List PcComm) (actidx : ℕ) : Option ℕ :=
  (pcOfAct? actidx net).map fun c => (actidx - c.actOff) % c.pc.imgDomsz

/-- Exchange of two entries; `none` when outside the table. -/
def swapAt (vals : List ℕ) (i j : ℕ) : Option (List ℕ) :=
  (vals[i]?).bind fun x => (vals[j]?).map fun y => (vals.set i y).set j x

/-- Position of the assignment to access `r`: the loop at src/xnpc.cc:53-60 (0 when there is none);
`w` is the number of the first entry of the list. -/
def widxLoop (r off : ℕ) : ℕ → List ℕ → ℕ → ℕ
  | _, [], acc => acc
  | i, x :: wmap, acc => widxLoop r off (i + 1) wmap (if x = r then off + i else acc)

/-- `ActSymm::swap_vals`, src/xnpc.cc:44-67; `none` when a `Claim` fails or an index is outside the
table. -/
def swapVals (pc : PcSymm) (a b : ℕ) (vals : List ℕ) : Option (List ℕ) :=
  (swapAt vals a b).bind fun vals =>
    (pc.access[a]?).bind fun xa => (pc.access[b]?).bind fun xb =>
      if xa.writeCk || xb.writeCk then
        let wa := widxLoop a pc.access.length 0 pc.wmap 0
        let wb := widxLoop b pc.access.length 0 pc.wmap 0
        if xa.writeCk && xb.writeCk && wa != 0 && wb != 0 then swapAt vals wa wb else none
      else some vals

/-- Exchange of the values of two adjacent links, src/xnsys.cc:328-331. -/
def swapLinks (pc : PcSymm) (s : LinkSymm) (j : ℕ) (vals : List ℕ) : Option (List ℕ) :=
  (List.range s.nvbls).foldlM (fun vals v =>
    (s.ob v j).bind fun a => (s.ob v (j + 1)).bind fun b => swapVals pc a b vals) vals

/-- One comparison of the representative loop, src/xnsys.cc:327-335; the state is the current values
and the flag `changed`. -/
def repTry (pc : PcSymm) (st : List ℕ × Bool) (p : LinkSymm × ℕ) : Option (List ℕ × Bool) :=
  (swapLinks pc p.1 p.2 st.1).map fun tmp =>
    if tmp < st.1 then (tmp, true) else st

/-- The pairs (link symmetry, link) visited in one round, src/xnsys.cc:323-327.  A symmetry without
links makes `ob.nlinks-1` wrap around; this is `none`. -/
def repPairs (pc : PcSymm) : Option (List (LinkSymm × ℕ)) :=
  if ∃ s ∈ pc.links, s.nlinks = 0 then none
  else some (pc.links.flatMap fun s => (List.range (s.nlinks - 1)).map fun j => (s, j))

/-- The loop `while (changed)`, src/xnsys.cc:321-338, at most `fuel` rounds. -/
def repLoop (pc : PcSymm) : ℕ → List ℕ → Option (List ℕ)
  | 0, _ => none
  | fuel + 1, vals =>
    (repPairs pc).bind fun ps =>
      (ps.foldlM (repTry pc) (vals, false)).bind fun r =>
        if r.2 then repLoop pc fuel r.1 else some r.1

/-- `Net::representative_action_index`, src/xnsys.cc:313-352. -/
def repActIdx (net : List PcComm) (fuel actidx : ℕ) : Option ℕ :=
  (netActOf net actidx).bind fun act =>
    (repLoop act.pcc.pc fuel act.vals).bind fun vals =>
      if ∃ i < act.pcc.pc.access.length,
          ((act.pcc.pc.access[i]?).map Access.pureShadowCk).getD false ∧ vals.getD i 0 ≠ 0 then none
      else
        let rep := actId act.pcc vals
        if rep ≤ actidx then some rep else none

/-- `represented_actions`, src/xnsys.cc:78-82: for each index the actions it represents. -/
def representedActions (net : List PcComm) (fuel ntotal : ℕ) : Option (List (List ℕ)) :=
  (List.range ntotal).foldlM (fun tab actidx =>
    (repActIdx net fuel actidx).bind fun rep =>
      if rep < tab.length then some (tab.modify rep (· ++ [actidx])) else none)
    (List.replicate ntotal [])

end Verif.Model
