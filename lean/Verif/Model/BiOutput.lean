import Verif.Model.Biring

/-!
Model of how invariants of bidirectional rings are written, src/biring.cc:537-611, and of the graph
for graphviz, src/biring.cc:733-815.

A clause `(x[i-1]==a && x[i]==b && x[i+1]==c)` is the list of its values, where a part that is not written is `none`.
The text of a specification is represented by the size of the domain, the clauses of the invariant and those of the
guard of the action.  `Set` of the library cx is represented by the list of what was inserted.
-/

namespace Verif.Model

/-- `(x[i-1]==left && x[i]==own && x[i+1]==right)`, src/biring.cc:562-569. -/
structure BiClause where
  left : ℕ
  own : Option ℕ
  right : Option ℕ
  deriving DecidableEq, Repr

/-- The loop of `oput_biring_invariant`, src/biring.cc:547-570; `cache` are the pairs seen so far. -/
def biClausesLoop (d : ℕ) (pair own : Bool) : List ℕ → List (ℕ × ℕ) → List BiClause
  | [], _ => []
  | i :: l, cache =>
    let config := pcConfigOfEnumIdx i d
    if pair = true ∧ (config.1, config.2.1) ∈ cache then biClausesLoop d pair own l cache
    else
      ⟨config.1, if own then some config.2.1 else none, if pair then none else some config.2.2⟩ ::
        biClausesLoop d pair own l (if pair then (config.1, config.2.1) :: cache else cache)

/-- `oput_biring_invariant`, src/biring.cc:537-571. -/
def biClauses (d : ℕ) (set : Finset ℕ) (pair own : Bool) : List BiClause := biClausesLoop d pair own (biList d set) []

/-- The meaning of a clause for the values of the left neighbour, of the process and of the right neighbour. -/
def BiClause.holds (cl : BiClause) (a b c : ℕ) : Bool :=
  decide (a = cl.left) && (cl.own.all fun v => decide (b = v)) && (cl.right.all fun v => decide (c = v))

/-- What `oput_biring_protocon_spec` writes, src/biring.cc:573-611: `M`, the clauses of the invariant, and the value that
is assigned with the clauses of the guard. -/
structure BiSpec where
  M : ℕ
  inv : List BiClause
  puppet : Option (ℕ × List BiClause)
  deriving DecidableEq, Repr

/-- `oput_biring_protocon_spec`, src/biring.cc:573-611. -/
def biSpecFile (d : ℕ) (set : Finset ℕ) (pair grow : Bool) : BiSpec :=
  ⟨d + if grow then 1 else 0, biClauses d set pair true,
    if grow then some (d, biClauses d set false false) else none⟩

/-- The meaning of `(0!=0 || clause || ...)`, src/biring.cc:592-595. -/
def BiSpec.legit (f : BiSpec) (a b c : ℕ) : Bool := f.inv.foldl (fun r cl => r || cl.holds a b c) (decide (0 ≠ 0))

/-- The meaning of the guard, src/biring.cc:598-603. -/
def BiSpec.enabled (f : BiSpec) (a b c : ℕ) : Bool :=
  match f.puppet with
  | none => false
  | some (v, cls) => cls.foldl (fun r cl => r && !cl.holds a b c) (decide (a ≠ v) && decide (b ≠ v) && decide (c ≠ v))

/-- The edges of the graph with `pair`, src/biring.cc:747-764; the loop is that of `oput_biring_invariant`. -/
def biPairEdges (d : ℕ) (set : Finset ℕ) : List (ℕ × ℕ) :=
  (biClauses d set true true).map fun cl => (cl.left, cl.own.getD 0)

/-- The loop over the continuations of a configuration, src/biring.cc:796-805; `src` are the first two values of it. -/
def biEdgeLoop (d : ℕ) (src : ℕ × ℕ) : List ℕ → List (ℕ × ℕ) → List ((ℕ × ℕ) × (ℕ × ℕ))
  | [], _ => []
  | j :: l, cache =>
    let dst := pcConfigOfEnumIdx j d
    if (dst.1, dst.2.1) ∈ cache then biEdgeLoop d src l cache
    else (src, (dst.1, dst.2.1)) :: biEdgeLoop d src l ((dst.1, dst.2.1) :: cache)

/-- The edges of the graph without `pair`, src/biring.cc:786-811. -/
def biEdges (d : ℕ) (set : Finset ℕ) : List ((ℕ × ℕ) × (ℕ × ℕ)) :=
  (biList d set).flatMap fun i =>
    biEdgeLoop d ((pcConfigOfEnumIdx i d).1, (pcConfigOfEnumIdx i d).2.1) (biList d (biConts d set i)) []

end Verif.Model
