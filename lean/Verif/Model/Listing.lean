import Verif.Model.Conflict
import Verif.Model.Sym

/-!
Model of two listings: the states or transitions of a formula, src/xnsys.cc:507-575, and the topology for graphviz,
src/graphviz.cc.

A formula is the set of its transitions; it has a context (it is not the constant `true`, for which `pick_pre` fails).
`pick` is `pick_pre`, which gives a state of a formula that has one (C66).  A line of the first listing is the word
`pre` (`false`) or `img` (`true`) with a state, whose values are those of C66.  A `Set<uint>` is visited in ascending
order and a `Map` without an entry gives the empty set (both from the library `cx`).
-/

namespace Verif.Model

section
variable {S : Type} [Fintype S] [DecidableEq S]

/-- The lines of a round, src/xnsys.cc:525-538. -/
def oputLines (sgn : Int) (s t : S) : List (Bool × S) :=
  (if sgn ≤ 0 then [(false, s)] else []) ++ (if sgn ≥ 0 then [(true, t)] else [])

/-- What is left after a round, src/xnsys.cc:542-547. -/
def oputRest (sgn : Int) (pf : Finset (S × S)) (s t : S) : Finset (S × S) :=
  if sgn < 0 then pf.filter fun p => p.1 ≠ s
  else if sgn > 0 then pf.filter fun p => p.2 ≠ t
  else pf.erase (s, t)

/-- `Net::oput_pfmla`, src/xnsys.cc:507-550; `none` is a loop of more than `fuel` rounds. -/
def oputPfmla (pick : Finset S → Option S) (sgn : Int) (justOne : Bool) : ℕ → Finset (S × S) → Option (List (Bool × S))
  | 0, _ => none
  | fuel + 1, pf =>
    if pf = ∅ then some []
    else (pick (dom pf)).bind fun s => (pick (img pf {s})).bind fun t =>
      if justOne then some (oputLines sgn s t)
      else (oputPfmla pick sgn justOne fuel (oputRest sgn pf s t)).map fun l => oputLines sgn s t ++ l

/-- `oput_one_xn`, `oput_all_xn`, `oput_one_pf`, `oput_all_pf`, src/xnsys.cc:553-575. -/
def oputOneXn (pick : Finset S → Option S) (pf : Finset (S × S)) := oputPfmla pick 0 true (pf.card + 1) pf
@[inherit_doc oputOneXn] def oputAllXn (pick : Finset S → Option S) (pf : Finset (S × S)) :=
  oputPfmla pick 0 false (pf.card + 1) pf
@[inherit_doc oputOneXn] def oputOnePf (pick : Finset S → Option S) (pf : Finset (S × S)) :=
  oputPfmla pick (-1) true (pf.card + 1) pf
@[inherit_doc oputOneXn] def oputAllPf (pick : Finset S → Option S) (pf : Finset (S × S)) :=
  oputPfmla pick (-1) false (pf.card + 1) pf

end

/-- What the listing looks at in a process: its name, the variables that it writes and those that it reads. -/
structure GvPc where
  name : String
  wvbls : List ℕ
  rvbls : List ℕ

/-- An insertion into the entry `k` of a map. -/
def gvAdd (m : ℕ → Finset ℕ) (k i : ℕ) : ℕ → Finset ℕ := fun x => if x = k then insert i (m x) else m x

/-- `own_map`, src/graphviz.cc:14-22. -/
def gvOwn (pcs : List GvPc) : ℕ → Finset ℕ :=
  pcs.zipIdx.foldl (fun m p => p.1.wvbls.foldl (fun m v => gvAdd m v p.2) m) fun _ => ∅

/-- `pc_read_map`, src/graphviz.cc:24-37. -/
def gvRead (pcs : List GvPc) : ℕ → Finset ℕ :=
  pcs.zipIdx.foldl (fun m p => p.1.rvbls.foldl (fun m v => (arr (gvOwn pcs v)).foldl
    (fun m o => if o ≠ p.2 then gvAdd m o p.2 else m) m) m) fun _ => ∅

/-- The lines of the edges, src/graphviz.cc:38-51: the processes and `true` for `dir="both"`. -/
def gvEdges (pcs : List GvPc) : List (ℕ × ℕ × Bool) :=
  (List.range pcs.length).flatMap fun i => (arr (gvRead pcs i)).flatMap fun j =>
    if i ∈ gvRead pcs j then (if i < j then [(i, j, true)] else []) else [(i, j, false)]

/-- The lines of the processes, src/graphviz.cc:17. -/
def gvNodes (pcs : List GvPc) : List (ℕ × String) := pcs.zipIdx.map fun p => (p.2, p.1.name)

end Verif.Model
