import Verif.Model.Loop
import Mathlib.Data.Finset.Basic

/-!
Model of the local-deadlock analysis for rings, src/deadfree.cc:27-158.

The program handles one process whose readable variables are those of its predecessor, itself and its
successor, in this order.  The states in which that process has no enabled action are a finite set of
triples of values; its invariant is a predicate on such triples.  Printed messages are the result.
-/

namespace Verif.Model

/-- `LCNode`, src/deadfree.cc:13-18. -/
structure LCNode where
  legit : Bool
  pd : ℕ
  id : ℕ
  sc : ℕ
  deriving DecidableEq, Repr

/-- The loop that enumerates the silent states, src/deadfree.cc:50-73.  `pick` is `pick_pre`, which
chooses some state (`none` if there is none). -/
def lcNodesBody (pick : Finset (ℕ × ℕ × ℕ) → Option (ℕ × ℕ × ℕ)) (legit : ℕ × ℕ × ℕ → Bool)
    (st : Finset (ℕ × ℕ × ℕ) × List LCNode) :
    List LCNode ⊕ (Finset (ℕ × ℕ × ℕ) × List LCNode) :=
  match pick st.1 with
  | none => .inl st.2
  | some s => .inr (st.1.erase s, st.2 ++ [⟨legit s, s.1, s.2.1, s.2.2⟩])

/-- `lcgraph.edges[(a, b)]`, src/deadfree.cc:62-63: the nodes whose first two values are `a`, `b`. -/
def lcNext (nodes : List LCNode) (a b : ℕ) : List ℕ :=
  (List.range nodes.length).filter fun k =>
    match nodes[k]? with
    | some n => n.pd = a ∧ n.id = b
    | none => False

/-- What the program prints: the lines `[RING TRACE]` of one ring, and the size of a deadlock. -/
inductive LCEvent where
  | ring (trace : List LCNode)
  | deadlock (size : ℕ)
  deriving DecidableEq, Repr

/-- Walking back through the stack `trace` (top first), src/deadfree.cc:110-121: the nodes pushed on
`traceoutput`. -/
def lcBack : LCNode → List LCNode → List LCNode
  | _, [] => []
  | term, n :: l => if term.pd = n.id ∧ term.id = n.sc then n :: lcBack n l else lcBack term l

/-- The loop over `next`, src/deadfree.cc:105-145; the state is `frontier` and `visited`, the boolean
says that the loop was left at `break`. -/
def lcFor (sidx dist : ℕ) : List ℕ → List (ℕ × ℕ) × Finset ℕ → (List (ℕ × ℕ) × Finset ℕ) × Bool
  | [], st => (st, false)
  | k :: l, st =>
    if sidx = k then (st, true)
    else if k ∈ st.2 then lcFor sidx dist l st
    else lcFor sidx dist l (st.1 ++ [(k, dist + 1)], insert k st.2)

/-- The variables of the search from `sidx`, src/deadfree.cc:85-89, and the messages so far. -/
structure LCState where
  frontier : List (ℕ × ℕ)
  visited : Finset ℕ
  trace : List LCNode
  out : List LCEvent

/-- One round of the search from `sidx`, src/deadfree.cc:91-150; an index outside the table is the
result `none`. -/
def lcBody (nodes : List LCNode) (sidx : ℕ) (st : LCState) : Option (List LCEvent) ⊕ LCState :=
  match st.frontier with
  | [] => .inl (some st.out)
  | (t, dist) :: q =>
    match nodes[t]?, nodes[sidx]? with
    | some tnode, some snode =>
      let next := lcNext nodes tnode.id tnode.sc
      let trace := if next.length ≠ 0 then tnode :: st.trace else st.trace
      let r := lcFor sidx dist next (q, st.visited)
      if r.2 then
        let back := lcBack snode trace
        let out := st.out ++ [.ring back.reverse]
        if back.any (·.legit) then .inl (some (out ++ [.deadlock (dist + 1)]))
        else .inr ⟨r.1.1, r.1.2, [], out⟩
      else .inr ⟨r.1.1, r.1.2, trace, st.out⟩
    | _, _ => .inl none

/-- The search from `sidx`, src/deadfree.cc:79-151. -/
def lcFrom (fuel : ℕ) (nodes : List LCNode) (sidx : ℕ) : Option (List LCEvent) :=
  match nodes[sidx]? with
  | none => none
  | some n => if n.legit then some []
    else (loopFuel (lcBody nodes sidx) fuel ⟨[(sidx, 0)], ∅, [], []⟩).bind id

/-- The loop over `sidx`, src/deadfree.cc:78-152. -/
def lcAll (fuel : ℕ) (nodes : List LCNode) : Option (List LCEvent) :=
  (List.range nodes.length).foldlM (fun out sidx => (lcFrom fuel nodes sidx).map (out ++ ·)) []

/-- `deadlock_freedom_ck`, src/deadfree.cc:27-158, from the set of silent states on. -/
def deadlockFreedomCk (fuel : ℕ) (pick : Finset (ℕ × ℕ × ℕ) → Option (ℕ × ℕ × ℕ))
    (legit : ℕ × ℕ × ℕ → Bool) (silent : Finset (ℕ × ℕ × ℕ)) : Option (List LCEvent) :=
  (loopFuel (lcNodesBody pick legit) fuel (silent, [])).bind (lcAll fuel)

end Verif.Model
