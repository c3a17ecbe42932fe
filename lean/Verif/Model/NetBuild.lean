import Verif.Model.Index
import Mathlib.Data.List.Sort

/-!
Model of how a network is put together: `Net::add_variables`, `commit_variable`, `commit_variables`,
`add_processes` and `add_access` (src/xnsys.cc:121-270).

Formulas are represented as far as they are needed: `identity_xn` and `global_mask_xn` are conjunctions of
equations `x' = x`, kept as the list of the variables `x`; smoothing a variable removes its equation
(`Model/ActXn` has the same masks as sets of pairs of states).  Variables are numbers of entries in `vbls`; this is
also the number of the variable in the formula context because both tables grow together.
-/

namespace Verif.Model

/-- `VblSymm`, src/xnsys.cc:129-139: number of members, size of the domain, role. -/
structure VDecl where
  nmembs : ℕ
  domsz : ℕ
  role : Role
  deriving DecidableEq, Repr

/-- `Pc` as far as it is built here: number of its symmetry, number in the symmetry, `rvbls`, `wvbls`, and the
variables whose equation is in `global_mask_xn`. -/
structure BPc where
  symm : ℕ
  idx : ℕ
  rvbls : List ℕ
  wvbls : List ℕ
  mask : List ℕ
  deriving DecidableEq, Repr

/-- An access as passed to `add_access`: the variable symmetry, the type, and the values of `indices`. -/
structure BAcc where
  vbl : ℕ
  type : AccessType
  idx : List ℤ
  deriving DecidableEq, Repr

/-- `PcSymm`: `membs` are positions in `pcs`. -/
structure BSymm where
  membs : List ℕ
  accs : List BAcc
  wmap : List ℕ
  deriving DecidableEq, Repr

/-- `Net`, src/xnsys.hh, as far as it is built here.  `membs` are the members of the variable symmetries (a
null pointer until committed), `lists` the variable lists of the symmetries, `ident` stands for `identity_xn`,
`random` for the variables with `random_flag`. -/
structure BNet where
  decls : List VDecl
  membs : List (List (Option ℕ))
  lists : List (List ℕ)
  vbls : List (ℕ × ℕ)
  doms : List ℕ
  ident : List ℕ
  pureShadow : List ℕ
  purePuppet : List ℕ
  shadow : List ℕ
  puppet : List ℕ
  random : List ℕ
  symms : List BSymm
  pcs : List BPc
  deriving DecidableEq, Repr

/-- A new network. -/
def BNet.empty : BNet := ⟨[], [], [], [], [], [], [], [], [], [], [], [], []⟩

/-- `Net::add_variables`, src/xnsys.cc:121-140; `none` if the assertion fails. -/
def BNet.addVariables (net : BNet) (d : VDecl) : Option BNet :=
  if net.vbls.length = 0 then
    some { net with
      decls := net.decls ++ [d]
      membs := net.membs ++ [List.replicate d.nmembs none]
      lists := net.lists ++ [[]] }
  else none

/-- `Net::commit_variable`, src/xnsys.cc:142-171. -/
def BNet.commitVariable (net : BNet) (e : ℕ × ℕ) : Option BNet :=
  (net.decls[e.1]?).bind fun d =>
  (net.membs[e.1]?).bind fun ms =>
  if e.2 < ms.length then
    let k := net.vbls.length
    some { net with
      vbls := net.vbls ++ [e]
      membs := net.membs.set e.1 (ms.set e.2 (some k))
      doms := net.doms ++ [d.domsz]
      lists := net.lists.modify e.1 (· ++ [k])
      ident := net.ident ++ [k]
      pureShadow := if d.role = .shadow then net.pureShadow ++ [k] else net.pureShadow
      purePuppet := if d.role = .puppet then net.purePuppet ++ [k] else net.purePuppet
      shadow := if d.role = .shadow ∨ d.role = .direct then net.shadow ++ [k] else net.shadow
      puppet := if d.role = .puppet ∨ d.role = .direct then net.puppet ++ [k] else net.puppet }
  else none

/-- The body of the loop that finds `refsz`, src/xnsys.cc:183-188. -/
def refStep (refsz n : ℕ) : ℕ :=
  let r := if refsz = 1 ∧ n > refsz then n else refsz
  if n > 1 ∧ n < r then n else r

/-- `refsz`, src/xnsys.cc:177-192. -/
def refSize (ds : List VDecl) : ℕ := ds.foldl (fun r d => refStep r d.nmembs) 1

/-- `operator<` of `Tuple<uint,2>`, as `≤`. -/
def pairLe (a b : ℕ × ℕ) : Bool := a.1 < b.1 || (a.1 == b.1 && a.2 ≤ b.2)

/-- `sizes` after sorting, src/xnsys.cc:176-193. -/
def sortedSizes (ds : List VDecl) : List (ℕ × ℕ) :=
  (ds.zipIdx.map fun e => (e.1.nmembs, e.2)).insertionSort fun a b => pairLe a b

/-- `ceil_quot` (library). -/
def ceilQuot (n d : ℕ) : ℕ := (n + d - 1) / d

/-- The members committed for one symmetry in one round, src/xnsys.cc:197-200. -/
def cutOf (refsz cut n : ℕ) : List ℕ :=
  let stride := ceilQuot n refsz
  List.range' (cut * stride) (min n ((cut + 1) * stride) - cut * stride)

/-- The order in which `commit_variables` commits the variables, src/xnsys.cc:194-203. -/
def commitOrder (ds : List VDecl) : List (ℕ × ℕ) :=
  (List.range (refSize ds)).flatMap fun cut =>
    (sortedSizes ds).flatMap fun e => (cutOf (refSize ds) cut e.1).map fun j => (e.2, j)

/-- `Net::commit_variables`, src/xnsys.cc:173-204. -/
def BNet.commitVariables (net : BNet) : Option BNet :=
  (commitOrder net.decls).foldlM BNet.commitVariable net

/-- `Net::add_processes`, src/xnsys.cc:206-226. -/
def BNet.addProcesses (net : BNet) (nmembs : ℕ) : Option BNet :=
  (if net.vbls.length = 0 then net.commitVariables else some net).map fun net =>
    { net with
      symms := net.symms ++ [⟨List.range' net.pcs.length nmembs, [], []⟩]
      pcs := net.pcs ++ (List.range nmembs).map fun i => ⟨net.symms.length, i, [], [], net.ident⟩ }

/-- `NatMap::index`, src/xnspec.hh:91-98; `none` if the assertion fails. -/
def natMapIndex (idx : List ℤ) (i m : ℕ) : Option ℕ := (idx[i]?).map fun x => (x % (m : ℤ)).toNat

/-- `write_ck` of an access, src/xnspec.hh:235-242. -/
def AccessType.writes (t : AccessType) : Bool :=
  t = .write || t = .yield || t = .effect || t = .randomWrite

/-- The body of the loop over the processes in `add_access`, src/xnsys.cc:247-269. -/
def BNet.accessStep (s : ℕ) (acc : BAcc) (net : BNet) (i : ℕ) : Option BNet :=
  (net.symms[s]?).bind fun sy =>
  (net.membs[acc.vbl]?).bind fun ms =>
  (natMapIndex acc.idx i ms.length).bind fun j =>
  (ms[j]?).bind fun o => o.bind fun v =>
  (sy.membs[i]?).bind fun k =>
  (net.pcs[k]?).map fun pc =>
    { net with
      random := if acc.type = .randomRead ∧ v ∉ net.random then net.random ++ [v] else net.random
      pcs := net.pcs.set k
        (if acc.type.writes then
          { pc with rvbls := pc.rvbls ++ [v], wvbls := pc.wvbls ++ [v], mask := pc.mask.filter (· ≠ v) }
        else { pc with rvbls := pc.rvbls ++ [v] }) }

/-- `Net::add_access`, src/xnsys.cc:228-270. -/
def BNet.addAccess (s : ℕ) (net : BNet) (acc : BAcc) : Option BNet :=
  (net.symms[s]?).bind fun sy =>
    let net1 := { net with
      symms := net.symms.set s { sy with
        accs := sy.accs ++ [acc]
        wmap := if acc.type.writes then sy.wmap ++ [sy.accs.length] else sy.wmap } }
    (List.range sy.membs.length).foldlM (BNet.accessStep s acc) net1

/-- The calls made for a file, src/prot-xfile.leg:23-40: variables, `commit_variables`, and for each kind of
processes `add_processes` (`nmembs`) and its accesses. -/
def BNet.build (ds : List VDecl) (ps : List (ℕ × List BAcc)) : Option BNet :=
  (ds.foldlM BNet.addVariables BNet.empty).bind fun net =>
  net.commitVariables.bind fun net =>
  ps.foldlM (fun net p => (net.addProcesses p.1).bind fun net =>
    p.2.foldlM (BNet.addAccess (net.symms.length - 1)) net) net

end Verif.Model
