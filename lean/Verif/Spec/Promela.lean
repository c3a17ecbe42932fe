import Mathlib.Data.Int.Notation
import Mathlib.Algebra.Order.Ring.Int

/-!
The part of the language Promela that is used by the written models, and its meaning: `init` is process 0, the
processes of the `active` proctypes are numbered on from 1 in the order of their declarations; `%` is that of C; an
index outside of an array is an error, such a move does not exist.
-/

namespace Verif.Spec

/-- A reference `x[expr]`, or `x[(expr+add)%mod]` if `mod` is not 0; `expr` is a function of the local variable that
holds the number of the process. -/
structure PmRef where
  vbl : ℕ
  expr : ℤ → ℤ
  add : ℕ
  mod : ℕ

/-- The value of the index. -/
def PmRef.value (r : PmRef) (i : ℤ) : ℤ := if r.mod = 0 then r.expr i else (r.expr i + r.add).tmod r.mod

/-- The member of the array (`size x` is the size of the array `x`). -/
def PmRef.loc (size : ℕ → ℕ) (r : PmRef) (i : ℤ) : Option ℕ :=
  if 0 ≤ r.value i ∧ r.value i < size r.vbl then some (r.value i).toNat else none

/-- `active [count] proctype P() { int i = _pid - offset; do :: atomic { guard -> assignments } ... od }`. -/
structure PmProc where
  count : ℕ
  offset : ℕ
  acts : List (List (PmRef × ℕ) × List (PmRef × ℕ))

/-- The values of the members of all arrays. -/
abbrev PmState := ℕ → ℕ → ℕ

/-- The assignments one after the other. -/
def pmAssign (size : ℕ → ℕ) (i : ℤ) : List (PmRef × ℕ) → PmState → Option PmState
  | [], s => some s
  | (r, v) :: l, s =>
    match r.loc size i with
    | none => none
    | some j => pmAssign size i l fun x m => if x = r.vbl ∧ m = j then v else s x m

/-- A move of a process whose local variable is `i`. -/
def PmMove (size : ℕ → ℕ) (p : PmProc) (i : ℤ) (s t : PmState) : Prop :=
  ∃ a ∈ p.acts, (∀ g ∈ a.1, ∃ j, g.1.loc size i = some j ∧ s g.1.vbl j = g.2) ∧ pmAssign size i a.2 s = some t

/-- A move of the model. -/
def PmStep (size : ℕ → ℕ) (procs : List PmProc) (s t : PmState) : Prop :=
  ∃ pre p post, procs = pre ++ p :: post ∧
    ∃ q < p.count, PmMove size p ((1 + (pre.map PmProc.count).sum + q : ℕ) - p.offset) s t

/-- A step of a protocol by one process: it reads the members `reads` of arrays and writes the members `writes`; they
have the values `old` before the step and `new` after it, everything else is kept. -/
structure PmProto (reads writes : List (ℕ × ℕ)) (old new : List ℕ) (s t : PmState) : Prop where
  guard : reads.map (fun x => s x.1 x.2) = old
  assign : writes.map (fun x => t x.1 x.2) = new
  frame : ∀ x m, (x, m) ∉ writes → t x m = s x m

end Verif.Spec
