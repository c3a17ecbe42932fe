import Verif.Model.Conflict
import Mathlib.Data.Finset.Union

/-!
Model of the ranking of deadlocks by the number of candidate actions that resolve them,
src/synthesis.cc:122-261.

`vector<DeadlockConstraint>` is modelled by its size and two functions (set of deadlocks and set of
candidates at each position).  `pre a` is `topo.action_pfmla(a).pre()`.  A `Set<uint>` is iterated in
ascending order.  A failed `Claim` is the result `none`.
-/

namespace Verif.Model

variable {σ : Type} [DecidableEq σ]

/-- `vector<DeadlockConstraint>`, src/synthesis.hh: `deadlockPF` and `candidates` at each position. -/
structure DlSets (σ : Type) where
  sz : ℕ
  dl : ℕ → Finset σ
  cands : ℕ → Finset ℕ

/-- The inner loop of `RankDeadlocksMRV`, src/synthesis.cc:134-145, from position `i-1` down. -/
def rankShift (p : Finset σ) : ℕ → DlSets σ → DlSets σ
  | 0, ds => ds
  | i + 1, ds =>
    let resolved := ds.dl i ∩ p
    if resolved.Nonempty then
      let ds := if i = ds.sz - 1 then
          { ds with
            sz := ds.sz + 1
            dl := Function.update ds.dl ds.sz ∅
            cands := Function.update ds.cands ds.sz ∅ } else ds
      let dl := Function.update ds.dl i (ds.dl i \ resolved)
      rankShift p i { ds with dl := Function.update dl (i + 1) (dl (i + 1) ∪ resolved) }
    else rankShift p i ds

/-- The second loop of `RankDeadlocksMRV`, src/synthesis.cc:147-155. -/
def rankCands (pre : ℕ → Finset σ) : List ℕ → DlSets σ → DlSets σ
  | [], ds => ds
  | a :: l, ds => rankCands pre l { ds with
      cands := fun i => if i < ds.sz ∧ (pre a ∩ ds.dl i).Nonempty then insert a (ds.cands i) else ds.cands i }

/-- `RankDeadlocksMRV`, src/synthesis.cc:122-156. -/
def rankDeadlocksMRV (pre : ℕ → Finset σ) (candidates : List ℕ) (deadlock : Finset σ) : DlSets σ :=
  if deadlock.Nonempty then
    rankCands pre candidates
      (candidates.foldl (fun ds a => rankShift (pre a) ds.sz ds)
        ⟨1, fun i => if i = 0 then deadlock else ∅, fun _ => ∅⟩)
  else ⟨0, fun _ => ∅, fun _ => ∅⟩

/-- The loop over `j` at src/synthesis.cc:222-232; `js` are the values of `j` that remain, the pair is
`minidx` and the deadlocks of `diffDeadlockSets`. -/
def moveDown (p : Finset σ) : List ℕ → ℕ × (ℕ → Finset σ) → ℕ × (ℕ → Finset σ)
  | [], st => st
  | j :: js, (minidx, dl) =>
    let diff := p ∩ dl j
    if diff.Nonempty then
      let dl := Function.update dl (j - 1) (dl (j - 1) ∪ diff)
      let dl := Function.update dl j (dl j \ diff)
      moveDown p js (if j = minidx then minidx - 1 else minidx, dl)
    else moveDown p js (minidx, dl)

/-- The loop over the removed candidates, src/synthesis.cc:218-233; `i` is the rank, so that
`diffDeadlockSets` has size `i + 1`. -/
def reviseDelLoop (pre : ℕ → Finset σ) (i : ℕ) : List ℕ → ℕ × (ℕ → Finset σ) → Option (ℕ × (ℕ → Finset σ))
  | [], st => some st
  | a :: l, (minidx, dl) =>
    if 0 < minidx then
      reviseDelLoop pre i l (moveDown (pre a) ((List.range (i + 1)).drop minidx) (minidx, dl))
    else none

/-- The candidates of `diffDeadlockSets[j]`, src/synthesis.cc:239-251. -/
def diffCands (pre : ℕ → Finset σ) (i minidx : ℕ) (diffDl : Finset σ) (dl : ℕ → Finset σ)
    (cands : Finset ℕ) (j : ℕ) : Finset ℕ :=
  cands.filter fun a =>
    if ¬ (pre a ∩ diffDl).Nonempty then j = i
    else minidx ≤ j ∧ j < i + 1 ∧ (pre a ∩ dl j).Nonempty

/-- The body of the loop over the ranks, src/synthesis.cc:179-259. -/
def reviseRank (pre : ℕ → Finset σ) (adds dels : Finset ℕ) (addGuard delGuard : Finset σ) (i : ℕ)
    (ds : DlSets σ) : Option (DlSets σ) :=
  let addCandidates := ds.cands i ∩ adds
  let delCandidates := ds.cands i ∩ dels
  let diff := ds.cands i ∩ addCandidates
  let ds := if diff.Nonempty then
      let dl1 := ds.dl i \ addGuard
      { ds with
        dl := Function.update ds.dl i dl1
        cands := Function.update ds.cands i
          ((ds.cands i \ diff).filter fun a => (dl1 ∩ pre a).Nonempty) }
    else ds
  let diff := ds.cands i ∩ delCandidates
  if diff.Nonempty then
    let diffDl := ds.dl i ∩ delGuard
    let dl1 := ds.dl i \ diffDl
    match reviseDelLoop pre i (arr diff) (i, fun j => if j = i then diffDl else ∅) with
    | none => none
    | some (minidx, sets) =>
      let cands1 := ds.cands i \ diff
      let sets := Function.update sets i dl1
      let cs := diffCands pre i minidx diffDl sets cands1
      some { ds with
        dl := fun j => if j = i then dl1 else if minidx ≤ j ∧ j < i then ds.dl j ∪ sets j else ds.dl j
        cands := fun j => if j = i then cands1 ∩ cs i
          else if minidx ≤ j ∧ j < i then ds.cands j ∪ cs j else ds.cands j }
  else some ds

/-- The loop over the ranks. -/
def reviseLoop (pre : ℕ → Finset σ) (adds dels : Finset ℕ) (addGuard delGuard : Finset σ) :
    List ℕ → DlSets σ → Option (DlSets σ)
  | [], ds => some ds
  | i :: l, ds => (reviseRank pre adds dels addGuard delGuard i ds).bind
      (reviseLoop pre adds dels addGuard delGuard l)

/-- `ReviseDeadlocksMRV`, src/synthesis.cc:164-261. -/
def reviseDeadlocksMRV (pre : ℕ → Finset σ) (adds dels : Finset ℕ) (ds : DlSets σ) :
    Option (DlSets σ) :=
  reviseLoop pre adds dels (adds.biUnion pre) (dels.biUnion pre) ((List.range ds.sz).drop 1) ds

end Verif.Model
