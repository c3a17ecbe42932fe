import Verif.Model.Canonical
import Verif.Spec.Biring
import Mathlib.Data.Finset.Max
import Mathlib.Data.Finset.Powerset
import Mathlib.Data.Finset.Union
import Mathlib.Data.Finset.Image

/-!
Model of the checks of invariants of bidirectional rings, src/biring.cc:158-271, 331-435.

A bit table is the set of the places that are set.  The places are numbers of configurations, see Model/Canonical.
`#if 0` parts and `better_biring_sat_ck`, which is not called, are left out.
-/

namespace Verif.Model

/-- The configurations that may follow, src/biring.cc:164-171 and 339-346. -/
def biNext (d idx : ℕ) : Finset ℕ :=
  let config := pcConfigOfEnumIdx idx d
  (Finset.range d).image fun i => enumIdxOfPcConfig (config.2.1, config.2.2, i) d

/-- `direct_biring_continuations` and `biring_continuations`, src/biring.cc:158-186. -/
def biConts (d : ℕ) (set : Finset ℕ) (idx : ℕ) : Finset ℕ := biNext d idx ∩ set

/-- The loop of `biring_legit_enum_idx`, src/biring.cc:198-212, for the configuration `e` in place `idx`; `none` is one
that does not end in `fuel` rounds. -/
def biLegitLoop (d : ℕ) (set : Finset ℕ) (e : ℕ) : ℕ → Finset ℕ → Finset ℕ → ℕ → Option Bool
  | 0, _, _, _ => none
  | fuel + 1, cache, frontier, idx =>
    let conts := biConts d set idx
    if e ∈ conts then some true
    else
      let frontier' := frontier.erase idx ∪ (conts \ cache)
      if h : frontier'.Nonempty then biLegitLoop d set e fuel (cache ∪ conts) frontier' (frontier'.min' h)
      else some false

/-- `biring_legit_enum_idx`, src/biring.cc:188-214. -/
def biLegit (d : ℕ) (set : Finset ℕ) (e : ℕ) : Option Bool :=
  biLegitLoop d set e (set.card + 2) {e} {e} e

/-- A round of `biring_fixpoint`, src/biring.cc:265-267. -/
def biFixRound (d : ℕ) (set : Finset ℕ) (i : ℕ) : Option (Finset ℕ) :=
  if i ∈ set then (biLegit d set i).map fun b => if b then set else set.erase i else some set

/-- `biring_fixpoint`, src/biring.cc:256-271. -/
def biFix (d : ℕ) (set : Finset ℕ) : Option (Finset ℕ) := (List.range (d * d * d)).foldlM (biFixRound d) set

/-- `img`, src/biring.cc:331-353. -/
def biImg (d : ℕ) (set pre : Finset ℕ) : Finset ℕ := pre.biUnion (biConts d set)

/-- The loop of `true_biring_sat_ck` for a configuration, src/biring.cc:375-386; the answer is `nsteps`, or none if the
loop is left.  `none` is a loop that does not end in `fuel` rounds. -/
def biTrueLoop (d : ℕ) (set : Finset ℕ) (e : ℕ) : ℕ → Finset (Finset ℕ) → Finset ℕ → Option (Option ℕ)
  | 0, _, _ => none
  | fuel + 1, visited, pre =>
    if pre ∈ visited then some none
    else
      let visited' := insert pre visited
      let img := biImg d set pre
      if e ∈ img ∧ pre = img then some (some visited'.card) else biTrueLoop d set e fuel visited' img

/-- The configurations of a set in ascending order, src/biring.cc:366-368 and 411-413. -/
def biList (d : ℕ) (set : Finset ℕ) : List ℕ := (List.range (d * d * d)).filter (· ∈ set)

/-- The outer loop of `true_biring_sat_ck`, src/biring.cc:366-388. -/
def biTrueOuter (d : ℕ) (set : Finset ℕ) : List ℕ → Option (Option ℕ)
  | [] => some none
  | e :: l => (biTrueLoop d set e (2 ^ set.card + 1) ∅ {e}).bind fun r =>
    match r with
    | some n => some (some n)
    | none => biTrueOuter d set l

/-- `true_biring_sat_ck`, src/biring.cc:359-389. -/
def biTrue (d : ℕ) (set : Finset ℕ) : Option (Option ℕ) := biTrueOuter d set (biList d set)

/-- `while (N >= N_0 && sats.ck(N))  N -= 1`, src/biring.cc:427-429 (for `N_0 > 0`). -/
def biDescend (n0 : ℕ) (sats : Finset ℕ) : ℕ → ℕ
  | 0 => 0
  | n + 1 => if n + 1 ≥ n0 ∧ n + 1 ∈ sats then biDescend n0 sats n else n + 1

/-- The sizes of rings found for a configuration, src/biring.cc:415-425. -/
def biSteps (d : ℕ) (set : Finset ℕ) (e n : ℕ) : Finset ℕ :=
  (Finset.range (n + 1)).filter fun s => 1 ≤ s ∧ e ∈ (biImg d set)^[s] {e}

/-- The loop over the configurations, src/biring.cc:411-434. -/
def biSizes (d : ℕ) (set : Finset ℕ) (n0 : ℕ) : List ℕ → Finset ℕ → ℕ → Bool
  | [], _, _ => false
  | e :: l, sats, n =>
    let sats' := sats ∪ biSteps d set e n
    let n' := biDescend n0 sats' n
    if n' < n0 then true else biSizes d set n0 l sats' n'

/-- `biring_sat_ck`, src/biring.cc:391-435. -/
def biSat (d : ℕ) (set : Finset ℕ) (n0 : ℕ) : Option Bool :=
  (biTrue d set).map fun r =>
    match r with
    | none => false
    | some k => if n0 = 0 ∨ k - 1 < n0 then true else biSizes d set n0 (biList d set) ∅ (k - 1)

end Verif.Model
