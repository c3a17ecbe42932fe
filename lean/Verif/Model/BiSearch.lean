import Verif.Model.Biring

/-!
Model of the search for invariants of bidirectional rings, src/biring.cc:613-731.

The sets are as in Model/Biring; the order of bit tables is a parameter as in Model/Canonical.  The set `db` and the
lines that are written are the same list (`true || ...`, src/biring.cc:670).
-/

namespace Verif.Model

/-- The bits of a set. -/
def biBits (d : ℕ) (set : Finset ℕ) : List Bool := (List.range (d * d * d)).map fun i => decide (i ∈ set)

/-- The set without a place, and without all configurations that have the same values of the process and the left
neighbour if there is the option `-pair`, src/biring.cc:686-696. -/
def biDrop (d : ℕ) (pair : Bool) (set : Finset ℕ) (q : ℕ) : Finset ℕ :=
  if pair then
    let config := pcConfigOfEnumIdx q d
    set.erase q \ (Finset.range d).image fun i => enumIdxOfPcConfig (config.1, config.2.1, i) d
  else set.erase q

/-- `recurse`, src/biring.cc:613-701; `none` is a recursion of more than `fuel` levels. -/
def biRecurse (gt : List Bool → List Bool → Bool) (d : ℕ) (pair : Bool) (minsz : ℕ) :
    ℕ → Finset ℕ → ℕ → List (List Bool) → Option (List (List Bool))
  | 0, _, _, _ => none
  | fuel + 1, set, q, out =>
    (biFix d set).bind fun set => (biSat d set minsz).bind fun b =>
      if b = false then some out
      else (canonicalSet gt (biBits d set) d).bind fun c =>
        if c ∈ out then some out
        else (List.range q).reverse.foldlM (fun out i =>
          if i ∈ set then biRecurse gt d pair minsz fuel (biDrop d pair set i) i out else some out) (out ++ [c])

/-- The set that the search starts with, src/biring.cc:706-722. -/
def biInit (d : ℕ) (pair trivial : Bool) : Finset ℕ :=
  if trivial then Finset.range (d * d * d)
  else Finset.range (d * d * d) \ (Finset.range d).biUnion fun v =>
    if pair then (Finset.range d).image fun i => enumIdxOfPcConfig (v, v, i) d else {enumIdxOfPcConfig (v, v, v) d}

/-- `searchit`, src/biring.cc:703-731. -/
def biSearch (gt : List Bool → List Bool → Bool) (d : ℕ) (pair trivial : Bool) (minsz : ℕ) :
    Option (List (List Bool)) :=
  biRecurse gt d pair minsz (d * d * d + 1) (biInit d pair trivial) (d * d * d) []

end Verif.Model
