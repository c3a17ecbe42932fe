import Verif.Model.Rank
import Verif.Model.Stab

/-!
Model of the choice of the next action: `PickActionMRV` and `pick_action_candidates`,
src/synthesis.cc:277-698.

`Set<uint>` is iterated in ascending order, `candidates.elem()` is the least member.  `none` (and `.abort`)
stands for a failed `Claim`, a null pointer, a division by zero or an access out of bounds.
-/

set_option linter.unusedSectionVars false

namespace Verif.Model

/-- `AddConvergenceOpt::PickActionHeuristic`, src/synthesis.hh:39-51. -/
inductive PickMethod
  | mrvLite | lex | greedy | greedySlow | lcvLite | lcvHeavy | lcvJank | quick | fullyRandom | conflict
deriving DecidableEq

/-- `AddConvergenceOpt::NicePolicy`, src/synthesis.hh:52-57. -/
inductive NiceRule | nil | first | last
deriving DecidableEq

/-- The options of the choice, src/synthesis.hh:64-83. -/
structure PickOpt where
  method : PickMethod
  /-- `pick_back_reach` -/
  backReach : Bool
  /-- `nicePolicy` -/
  nice : NiceRule
  /-- `randomize_pick` -/
  randomize : Bool
  /-- `randomize_depth` -/
  depth : ℕ

/-- What `pick_action_candidates` looks at in one instance. -/
structure PickInst (S : Type) where
  /-- `topo.action_pfmla(a)` -/
  xn : ℕ → Finset (S × S)
  /-- `sys.niceIdxOf(topo.action_pcsymm_index(a))` -/
  nice : ℕ → ℕ
  /-- `sys.shadow_puppet_synthesis_ck()` -/
  shadowPuppet : Bool
  lo : Finset (S × S)
  hiInv : Finset S
  mcv : DlSets S
  /-- the size of `inst.candidates` and of `inst.actions` -/
  nCands : ℕ
  nActs : ℕ
  /-- what `superset_membs` returns for the picks and the candidates -/
  membs : Finset ℕ
  /-- the sizes of `candidates` and `actions` after `revise_actions` with one action added, `none` if it fails -/
  revised : ℕ → Option (ℕ × ℕ)

section
variable {S : Type} [Fintype S] [DecidableEq S]

/-- Keeping the actions of the processes with the least number, src/synthesis.cc:438-459 and 675-696; the state
is `candidates_1` and, if `have`, `niceIdxMin`. -/
def niceStep (nice : ℕ → ℕ) (st : Finset ℕ × Option ℕ) (a : ℕ) : Finset ℕ × Option ℕ :=
  match st.2 with
  | none => ({a}, some (nice a))
  | some m => if nice a < m then ({a}, some (nice a)) else if nice a = m then (insert a st.1, some m) else st

/-- See `niceStep`. -/
def niceOnly (nice : ℕ → ℕ) (c : Finset ℕ) : Finset ℕ := ((arr c).foldl (niceStep nice) (∅, none)).1

/-- `pick_back_reach`, src/synthesis.cc:418-434; `reach` is `reach_pf`. -/
def backOnly (I : PickInst S) (k : ℕ) (reach : Finset S) : Finset ℕ :=
  let c := (I.mcv.cands k).filter fun a => (reach ∩ img (I.xn a) (I.mcv.dl k)).Nonempty
  if c = ∅ then I.mcv.cands k else c

/-- The loop of `LexPick`, src/synthesis.cc:470-481: the entries of `biasMap` in the order of insertion and
`deadlock_pf`. -/
def lexStep (I : PickInst S) (st : List (ℕ × ℕ) × Finset S) (a : ℕ) : List (ℕ × ℕ) × Finset S :=
  if (st.2 ∩ dom (I.xn a)).Nonempty then (st.1 ++ [(0, a)], st.2 ∩ dom (I.xn a)) else (st.1 ++ [(1, a)], st.2)

/-- The weight `w` of an action for rank `j`, src/synthesis.cc:491-510. -/
def greedyW (slow : Bool) (I : PickInst S) (j a : ℕ) : ℕ :=
  if slow then
    ((I.mcv.cands j).filter fun b => b ≠ a ∧ (I.mcv.dl j ∩ (dom (I.xn a) ∩ dom (I.xn b))).Nonempty).card
  else j

/-- The loops that fill `resolveMap`, src/synthesis.cc:485-519. -/
def resolveMap (slow : Bool) (I : PickInst S) (k : ℕ) (c : Finset ℕ) : ℕ → Option ℕ :=
  ((List.range I.mcv.sz).drop k).foldl (fun m j =>
    (arr (c ∩ I.mcv.cands j)).foldl (fun m a =>
      Function.update m a (some ((m a).getD 0 + greedyW slow I j a))) m) fun _ => none

/-- The actions that resolve a deadlock together with `a`, `overlapSets[a]`, src/synthesis.cc:569-591.
Simplified: the code visits each pair once and adds both. -/
def overlapSet (I : PickInst S) (k : ℕ) (c : Finset ℕ) (a : ℕ) : Finset ℕ :=
  insert a (c.filter fun b => (I.mcv.dl k ∩ (dom (I.xn a) ∩ dom (I.xn b))).Nonempty)

/-- The first smallest set, src/synthesis.cc:593-604. -/
def minOverlap (f : ℕ → Finset ℕ) (st : Option (Finset ℕ)) (a : ℕ) : Option (Finset ℕ) :=
  match st with
  | none => some (f a)
  | some m => if (f a).card < m.card then some (f a) else some m

/-- The part of `QuickPick` for one action, src/synthesis.cc:642-663. -/
def quickKeys (I : PickInst S) (reach : Finset S) (a : ℕ) : List (ℕ × ℕ) :=
  if I.shadowPuppet then if dom (I.xn a) ∩ I.hiInv = ∅ then [(0, a)] else [(1, a)]
  else if (reach ∩ rng (I.xn a)).Nonempty then
    (1, a) :: if dom (I.xn a) ⊆ reach then [] else [(0, a)]
  else [(2, a)]

/-- `biasMap` as the list of its insertions and `biasToMax`, src/synthesis.cc:436-664.  Simplified: an entry
without actions (`MRVLitePick` without candidates) is left out. -/
def biasOf (m : PickMethod) (I : PickInst S) (k : ℕ) (reach : Finset S) (c : Finset ℕ) :
    Option (List (ℕ × ℕ) × Bool) :=
  match m with
  | .mrvLite => some ((arr c).map fun a => (0, a), true)
  | .lex => some (((arr c).foldl (lexStep I) ([], I.mcv.dl k)).1, false)
  | .greedy => ((arr c).mapM fun a => (resolveMap false I k c a).map fun n => (n, a)).map (·, true)
  | .greedySlow => ((arr c).mapM fun a => (resolveMap true I k c a).map fun n => (n, a)).map (·, true)
  | .lcvLite => ((arr c).mapM fun a => (reviseDeadlocksMRV (fun a => dom (I.xn a)) {a} ∅ I.mcv).map fun ds =>
      ((((List.range ds.sz).drop 1).map fun j => (ds.cands j).card).sum, a)).map (·, false)
  | .lcvHeavy => ((arr c).mapM fun a =>
      match I.revised a with
      | none => some (I.nCands, a)
      | some (nc, na) => if nc ≤ I.nCands ∧ I.nActs < na then some ((I.nCands - nc) / (na - I.nActs), a) else none).map
        (·, false)
  | .lcvJank =>
    let best := ((arr c).foldl (minOverlap (overlapSet I k c)) none).getD ∅
    some ((arr best).map fun a => (((I.revised a).map Prod.fst).getD 0, a), true)
  | .conflict => some ((arr (if (I.membs ∩ c).Nonempty then c ∩ I.membs else c)).map fun a => (0, a), false)
  | .quick => some ((arr c).flatMap (quickKeys I reach), false)
  | .fullyRandom => some ([], true)

/-- The entry of `biasMap` that is taken, src/synthesis.cc:666-674: `rbegin` or `begin`. -/
def biasBest (l : List (ℕ × ℕ)) (toMax : Bool) : Finset ℕ :=
  match (if toMax then (l.map Prod.fst).max? else (l.map Prod.fst).min?) with
  | none => ∅
  | some n => ((l.filter fun e => e.1 = n).map Prod.snd).toFinset

/-- `pick_action_candidates`, src/synthesis.cc:399-698; `k` is `dlset_idx`. -/
def pickCands (opt : PickOpt) (I : PickInst S) (k : ℕ) : Option (Finset ℕ) :=
  match preReach (2 * Fintype.card S + 2) I.lo I.hiInv with
  | none => none
  | some reach =>
    let c := if opt.backReach then backOnly I k reach else I.mcv.cands k
    let c := if opt.nice = .first then niceOnly I.nice c else c
    match biasOf opt.method I k reach c with
    | none => none
    | some (l, toMax) =>
      let c := biasBest l toMax
      some (if l = [] then ∅ else if opt.nice = .last then niceOnly I.nice c else c)

end

/-- What `PickActionMRV` looks at in one instance: `no_partial`, `candidates`, the size and the candidates of
`mcv_deadlocks`, and what `pick_action_candidates` returns for each rank. -/
structure MrvInst where
  noPartial : Bool
  cands : List ℕ
  sz : ℕ
  sets : ℕ → Finset ℕ
  sub : ℕ → Option (Finset ℕ)

/-- What `PickActionMRV` sees of an instance. -/
def mrvOf {S : Type} [Fintype S] [DecidableEq S] (opt : PickOpt) (noPartial : Bool) (cands : List ℕ)
    (I : PickInst S) : MrvInst :=
  ⟨noPartial, cands, I.mcv.sz, I.mcv.cands, pickCands opt I⟩

/-- The inner loop that finds `mrv_dlset_idx`, src/synthesis.cc:303-309, from the given ranks on. -/
def mrvScan (sets : ℕ → Finset ℕ) : List ℕ → ℕ → ℕ
  | [], m => m
  | i :: l, m => if 0 < m ∧ m ≤ i then m else mrvScan sets l (if sets i = ∅ then m else i)

/-- `mrv_dlset_idx`, src/synthesis.cc:299-310. -/
def mrvIdx (insts : List MrvInst) : ℕ :=
  insts.foldl (fun m x => if x.noPartial then m else mrvScan x.sets (List.range x.sz) m) 0

/-- How `PickActionMRV` ends. -/
inductive PickRes (α : Type) where
  | abort
  | no
  | ok (a : α)

/-- The second loop, src/synthesis.cc:311-333; `c` is `candidates`. -/
def mrvChoose (k : ℕ) : List MrvInst → Finset ℕ → PickRes (Finset ℕ)
  | [], c => .ok c
  | x :: l, c =>
    if x.noPartial ∨ x.sz ≤ k ∨ x.sets k = ∅ then mrvChoose k l c
    else
      match x.sub k with
      | none => .abort
      | some t => if t = ∅ then .no else mrvChoose k l (if c = ∅ ∨ t.card < c.card then t else c)

/-- Only one of the actions that differ in random values, src/synthesis.cc:351-374; the state is `tmp_set` and
`candidates`, `zero a` is the action with these values set to 0. -/
def zeroStep (zero : ℕ → ℕ) (st : Finset ℕ × Finset ℕ) (a : ℕ) : Finset ℕ × Finset ℕ :=
  if zero a ∈ st.1 then (st.1, st.2.erase a) else (insert (zero a) st.1, st.2)

/-- See `zeroStep`; only if `topo.probabilistic_ck()`. -/
def zeroOnly (zero : Option (ℕ → ℕ)) (c : Finset ℕ) : Finset ℕ :=
  match zero with
  | none => c
  | some f => ((arr c).foldl (zeroStep f) (∅, c)).2

/-- `PickActionMRV`, src/synthesis.cc:277-397.  `zero` is given iff `topo.probabilistic_ck()`; `urandom rng n` is
`urandom.pick(n)`; `level` is `bt_level`. -/
def pickActionMRV {ρ : Type} (opt : PickOpt) (zero : Option (ℕ → ℕ)) (urandom : ρ → ℕ → ρ × ℕ) (rng : ρ)
    (level : ℕ) (insts : List MrvInst) : ρ × PickRes ℕ :=
  let first := insts.find? fun x => !x.cands.isEmpty
  if opt.method = .fullyRandom then
    match first with
    | none => (rng, .no)
    | some x =>
      let r := urandom rng x.cands.length
      match x.cands[r.2]? with
      | none => (r.1, .abort)
      | some a => (r.1, .ok a)
  else
    match mrvChoose (mrvIdx insts) insts ∅ with
    | .abort => (rng, .abort)
    | .no => (rng, .no)
    | .ok c =>
      let c := if c = ∅ then ((first.map fun x => x.cands).getD []).toFinset else c
      if c = ∅ then (rng, .abort)
      else
        let c := zeroOnly zero c
        if opt.randomize ∧ opt.depth ≤ level then
          let r := urandom rng (arr c).length
          match (arr c)[r.2]? with
          | none => (r.1, .abort)
          | some a => (r.1, .ok a)
        else
          match (arr c).head? with
          | none => (rng, .abort)
          | some a => (rng, .ok a)

end Verif.Model
