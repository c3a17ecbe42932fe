import Verif.Model.Loop
import Verif.Model.Uni
import Mathlib.Data.Finset.Basic

/-!
Model of `unidirectionalRingProtocolGenerator`, src/uni/synthesize.cc:58-151.

An `M`×`M` matrix of zeros and ones is the set of its nonzero positions.  An access outside a matrix
is the result `none`.  Freeing memory and diagnostics are left out.
-/

namespace Verif.Model

/-- The matrix `L`, src/uni/synthesize.cc:65-69; `none` when a value is outside the matrix. -/
def legitMatrix (legits : List (ℕ × ℕ)) (M : ℕ) : Option (Finset (ℕ × ℕ)) :=
  if ∀ p ∈ legits, p.1 < M ∧ p.2 < M then some legits.toFinset else none

/-- `gamma`, src/uni/synthesize.cc:75-82: `none` when `gammaExists` stays false. -/
def findGamma (L : Finset (ℕ × ℕ)) (M : ℕ) : Option ℕ :=
  (List.range M).find? fun i => (i, i) ∈ L

/-- Row `i` of the consistency loop, src/uni/synthesize.cc:96-105; the state is `Lprime` and
`modifiedMatrix`. -/
def pruneRow (M : ℕ) (st : Finset (ℕ × ℕ) × Bool) (i : ℕ) : Finset (ℕ × ℕ) × Bool :=
  if (List.range M).any fun j => (i, j) ∈ st.1 then st
  else if (List.range M).any fun j => (j, i) ∈ st.1 then (st.1.filter fun p => p.2 ≠ i, true)
  else st

/-- One round of the consistency loop, src/uni/synthesize.cc:94-107. -/
def pruneBody (M : ℕ) (L : Finset (ℕ × ℕ)) : Finset (ℕ × ℕ) ⊕ Finset (ℕ × ℕ) :=
  let r := (List.range M).foldl (pruneRow M) (L, false)
  if r.2 then .inr r.1 else .inl r.1

/-- The body of the inner loop of the search, src/uni/synthesize.cc:126-131; the state is `tree_q`
and `tau`. -/
def bfsVisit (L : Finset (ℕ × ℕ)) (gamma j : ℕ) (st : List ℕ × List ℕ) (i : ℕ) :
    List ℕ × List ℕ :=
  if i ≠ gamma ∧ st.2.getD i 0 = i ∧ (i, j) ∈ L then (st.1 ++ [i], st.2.set i j) else st

/-- One round of the search, src/uni/synthesize.cc:123-132. -/
def bfsBody (L : Finset (ℕ × ℕ)) (M gamma : ℕ) (st : List ℕ × List ℕ) :
    List ℕ ⊕ (List ℕ × List ℕ) :=
  match st.1 with
  | [] => .inl st.2
  | j :: q => .inr ((List.range M).foldl (bfsVisit L gamma j) (q, st.2))

/-- Values that were not reached, src/uni/synthesize.cc:134-138. -/
def closeTau (tau : List ℕ) (M gamma : ℕ) : List ℕ :=
  (List.range M).map fun i => if tau.getD i 0 = i then gamma else tau.getD i 0

/-- The actions, src/uni/synthesize.cc:142-145 (the members of `UniAct` are bytes). -/
def tauActions (L : Finset (ℕ × ℕ)) (tau : List ℕ) (M : ℕ) : List UniAct :=
  (pairsUpTo M).filterMap fun p =>
    if (p.1, p.2) ∉ L ∧ tau.getD p.1 0 ≠ p.2 then
      some (toByte p.1, toByte p.2, toByte (tau.getD p.1 0))
    else none

/-- `unidirectionalRingProtocolGenerator`, src/uni/synthesize.cc:58-151, with at most `fuel` rounds
of each loop. -/
def uniRingGenerator (fuel : ℕ) (legits : List (ℕ × ℕ)) (M : ℕ) : Option (List UniAct) :=
  (legitMatrix legits M).bind fun L =>
    match findGamma L M with
    | none => some []
    | some gamma =>
      (loopFuel (pruneBody M) fuel L).bind fun L' =>
        (loopFuel (bfsBody L' M gamma) fuel ([gamma], List.range M)).map fun tau =>
          tauActions L' (closeTau tau M gamma) M

end Verif.Model
