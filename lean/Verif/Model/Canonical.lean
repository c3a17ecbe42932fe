import Verif.Model.Index
import Verif.Model.Uni

/-!
Model of isomorph rejection: `src/biring.cc` (sets of local configurations of bidirectional rings)
and `src/uni/canonical.cc` (propagation functions of unidirectional rings).

Swaps and table accesses outside a table are `none`.  `BitTable::operator>` belongs to the library
`cx`; it is a parameter `gt`.
-/

namespace Verif.Model

/-- The loop of swaps making `perm_map`: entry `i` is exchanged with entry `target i perm_vals[i]`.
src/biring.cc:496-498 with target `i+perm_vals[i]`, src/uni/canonical.cc:53-55 with target
`perm_vals[i]`. -/
def shuffleLoop (target : ℕ → ℕ → ℕ) : ℕ → List ℕ → List ℕ → Option (List ℕ)
  | _, [], m => some m
  | i, v :: vs, m => (swapAt m i (target i v)).bind (shuffleLoop target (i + 1) vs)

/-- `perm_doms`, src/biring.cc:481-486. -/
def biPermDoms (domsz : ℕ) : List ℕ := (List.range (domsz - 1)).map fun i => domsz - i

/-- `perm_map` of round `perm_idx`, src/biring.cc:492-498. -/
def biPermMap (domsz permIdx : ℕ) : Option (List ℕ) :=
  shuffleLoop (fun i v => i + v) 0 (stateOfIndex permIdx (biPermDoms domsz)) (List.range domsz)

/-- Setting the bit of one renamed configuration, src/biring.cc:76-83. -/
def permuteRound (domsz : ℕ) (permMap : List ℕ) (bt : List Bool) (i : ℕ) : Option (List Bool) :=
  ((stateOfIndex i [domsz, domsz, domsz]).mapM fun v => permMap[v]?).bind fun vals =>
    let k := indexOfState vals [domsz, domsz, domsz]
    if k < bt.length then some (bt.set k true) else none

/-- `permute_pc_config`, src/biring.cc:69-85. -/
def permutePcConfig (set : List Bool) (permMap : List ℕ) : Option (List Bool) :=
  (bitIndices set).foldlM (permuteRound permMap.length permMap)
    (List.replicate set.length false)

/-- One round of `canonical_set`, src/biring.cc:491-504. -/
def canonicalRound (gt : List Bool → List Bool → Bool) (set : List Bool) (domsz : ℕ)
    (minBt : List Bool) (permIdx : ℕ) : Option (List Bool) :=
  (biPermMap domsz permIdx).bind fun m => (permutePcConfig set m).map fun bt =>
    if gt bt minBt then bt else minBt

/-- `canonical_set`, src/biring.cc:478-506. -/
def canonicalSet (gt : List Bool → List Bool → Bool) (set : List Bool) (domsz : ℕ) :
    Option (List Bool) :=
  (List.range ((biPermDoms domsz).foldl (· * ·) 1)).foldlM (canonicalRound gt set domsz) set

/-- `BitTable::subseteq_ck` on tables of equal size. -/
def bitSubset (a b : List Bool) : Bool := (a.zip b).all fun p => !p.1 || p.2

/-- The loop of `subgraph_isomorphism_ck`, src/biring.cc:521-534, over the remaining rounds. -/
def subgraphLoop (a b : List Bool) (domsz : ℕ) : List ℕ → Option Bool
  | [] => some false
  | permIdx :: l => (biPermMap domsz permIdx).bind fun m => (permutePcConfig a m).bind fun a' =>
    if bitSubset a' b then some true else subgraphLoop a b domsz l

/-- `subgraph_isomorphism_ck`, src/biring.cc:508-535. -/
def subgraphIsomorphismCk (a b : List Bool) (domsz : ℕ) : Option Bool :=
  subgraphLoop a b domsz (List.range ((biPermDoms domsz).foldl (· * ·) 1))

/-- `pc_config_of_enum_idx`, src/biring.cc:104-115. -/
def pcConfigOfEnumIdx (idx domsz : ℕ) : ℕ × ℕ × ℕ :=
  let tmp := stateOfIndex idx [domsz, domsz, domsz]
  (tmp.getD 1 0, tmp.getD 0 0, tmp.getD 2 0)

/-- `enum_idx_of_pc_config`, src/biring.cc:117-128. -/
def enumIdxOfPcConfig (config : ℕ × ℕ × ℕ) (domsz : ℕ) : ℕ :=
  indexOfState [config.2.1, config.1, config.2.2] [domsz, domsz, domsz]

/-- `perm_doms`, src/uni/canonical.cc:37-42. -/
def uniPermDoms (domsz : ℕ) : List ℕ := (List.range (domsz - 1)).map fun i => i + 2

/-- `perm_map` of round `perm_idx`, src/uni/canonical.cc:49-55. -/
def uniPermMap (domsz permIdx : ℕ) : Option (List ℕ) :=
  shuffleLoop (fun _ v => v) 0 (stateOfIndex permIdx (uniPermDoms domsz)) (List.range domsz)

/-- One assignment of `permute_pc_act`, src/uni/canonical.cc:26-30. -/
def permuteActRound (choice permMap : List ℕ) (ppgfun : List ℕ) (p : ℕ × ℕ) :
    Option (List ℕ) :=
  (idOf2 p.1 p.2 permMap.length).bind fun i => (choice[i]?).bind fun c =>
    if c < permMap.length then
      (permMap[p.1]?).bind fun a => (permMap[p.2]?).bind fun b => (permMap[c]?).bind fun x =>
        (idOf2 a b permMap.length).bind fun j =>
          if j < ppgfun.length then some (ppgfun.set j x) else none
    else some ppgfun

/-- `permute_pc_act`, src/uni/canonical.cc:19-32 (`ppgfun` has `domsz*domsz` entries). -/
def permutePcAct (choice permMap : List ℕ) : Option (List ℕ) :=
  (pairsUpTo permMap.length).foldlM (permuteActRound choice permMap)
    (List.replicate (permMap.length * permMap.length) permMap.length)

/-- The loop of `canonical_ck`, src/uni/canonical.cc:48-65, over the remaining rounds. -/
def canonicalCkLoop (choice : List ℕ) (domsz : ℕ) : List ℕ → Option Bool
  | [] => some true
  | permIdx :: l => (uniPermMap domsz permIdx).bind fun m => (permutePcAct choice m).bind fun q =>
    if q < choice then some false else canonicalCkLoop choice domsz l

/-- `canonical_ck`, src/uni/canonical.cc:34-67 (`domsz > 0`; values up to 255, so the conversion to
`PcState` loses nothing). -/
def canonicalCk (choice : List ℕ) (domsz : ℕ) : Option Bool :=
  canonicalCkLoop choice domsz (List.range ((uniPermDoms domsz).foldl (· * ·) 1))

end Verif.Model
