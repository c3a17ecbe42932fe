import Mathlib.Data.Finset.Lattice.Fold
import Mathlib.Data.List.Sort

/-!
Model of the conflict database of the synthesizer, `src/conflictfamily.hh` and
`src/conflictfamily.cc`.

A `FlatSet<uint>` is a sorted array without duplicates; it is modelled by `Finset ℕ`, its array by
`arr`.  The container `Set< FlatSet<uint> >` (a `std::set`) is modelled by the list of its
members in iteration order.  The order in which a `std::set` of flat sets iterates is decided by
the comparison of the (absent) cx library; it is a parameter `r` of the model, about which nothing
is assumed.  Machine integers are unbounded.  `FlatSet::subseteq_ck` and `FlatSet::elem_ck` are set
inclusion and membership, `FlatSet::subseteq_fuzz_ck(&diff, b, 1)` holds when at most one member is
missing from `b` and then fills `diff` with the missing members.
-/

namespace Verif.Model

/-- The array behind a `FlatSet<uint>`: its members in ascending order (cx library, assumed). -/
def arr (b : Finset ℕ) : List ℕ := (List.range (b.sup id + 1)).filter (· ∈ b)

/-- The fields of `ConflictFamily`, src/conflictfamily.hh:12-17.  `sets` is `conflict_sets` in
iteration order, `newSets` is the table `new_conflict_sets` (last pushed at the end), `recording`
is `record_new_conflict_sets`, `impossible` is `impossible_set`. -/
structure CFam where
  sets : List (Finset ℕ)
  newSets : List (Finset ℕ)
  recording : Bool
  impossible : Finset ℕ

/-- Default constructor, src/conflictfamily.hh:21-23. -/
def CFam.empty : CFam := ⟨[], [], false, ∅⟩

/-- `ConflictFamily::operator-`, src/conflictfamily.cc:14-21. -/
def CFam.sub (st fam : CFam) : CFam :=
  ⟨st.sets.filter (fun a => a ∉ fam.sets), [], false, st.impossible \ fam.impossible⟩

/-- `ConflictFamily::conflict_ck`, src/conflictfamily.cc:23-37. -/
def conflictCk (st : CFam) (test : Finset ℕ) : Bool :=
  st.sets.any (fun a => a ⊆ test)

/-- `ConflictFamily::exact_conflict_ck`, src/conflictfamily.cc:39-50. -/
def exactConflictCk (st : CFam) (test : Finset ℕ) : Bool :=
  st.sets.any (fun a => a = test)

/-- The loop of `add_conflict`, src/conflictfamily.cc:56-72: walks over the stored sets, leaves the
function at the first subset of `b` (second component `true`, everything after it untouched) and
erases the supersets of `b` met on the way. -/
def addLoop (b : Finset ℕ) : List (Finset ℕ) → List (Finset ℕ) × Bool
  | [] => ([], false)
  | a :: l =>
    if a ⊆ b then (a :: l, true)
    else
      let p := addLoop b l
      if b ⊆ a then p else (a :: p.1, p.2)

/-- `ConflictFamily::add_conflict(const FlatSet<uint>&)`, src/conflictfamily.cc:52-81. -/
def addConflict (r : Finset ℕ → Finset ℕ → Prop) [DecidableRel r] (b : Finset ℕ) (st : CFam) :
    CFam :=
  match addLoop b st.sets with
  | (l, true) => { st with sets := l }
  | (l, false) =>
    { sets := l.orderedInsert r b
      newSets := if st.recording then st.newSets ++ [b] else st.newSets
      recording := st.recording
      impossible :=
        match arr b with
        | [e] => insert e st.impossible
        | _ => st.impossible }

/-- `ConflictFamily::add_conflict(const Table<uint>&)` and the overload for `Set<uint>`,
src/conflictfamily.cc:83-95. -/
def addTable (r : Finset ℕ → Finset ℕ → Prop) [DecidableRel r] (b : List ℕ) (st : CFam) : CFam :=
  addConflict r b.toFinset st

/-- `ConflictFamily::add_impossible`, src/conflictfamily.cc:97-101. -/
def addImpossible (r : Finset ℕ → Finset ℕ → Prop) [DecidableRel r] (e : ℕ) (st : CFam) : CFam :=
  addConflict r {e} st

/-- `ConflictFamily::add_conflicts(const ConflictFamily&)`, src/conflictfamily.cc:103-111. -/
def addFamily (r : Finset ℕ → Finset ℕ → Prop) [DecidableRel r] (fam st : CFam) : CFam :=
  (fam.sets.filter (fun a => a ∉ st.sets)).foldl (fun st a => addConflict r a st) st

/-- `ConflictFamily::add_conflicts(const Table<uint>&)`, src/conflictfamily.cc:113-122.  `none`
when a length prefix points past the end of the table (the C++ reads out of bounds).  `fuel` bounds
the recursion; it is always called with more fuel than entries. -/
def addFlatFuel (r : Finset ℕ → Finset ℕ → Prop) [DecidableRel r] :
    ℕ → List ℕ → CFam → Option CFam
  | _, [], st => some st
  | 0, _ :: _, _ => none
  | fuel + 1, n :: l, st =>
    if l.length < n then none
    else addFlatFuel r fuel (l.drop n) (addConflict r (l.take n).toFinset st)

/-- See `addFlatFuel`; src/conflictfamily.cc:113-122. -/
def addFlat (r : Finset ℕ → Finset ℕ → Prop) [DecidableRel r] (l : List ℕ) (st : CFam) :
    Option CFam :=
  addFlatFuel r (l.length + 1) l st

/-- `ConflictFamily::trim`, src/conflictfamily.cc:124-137. -/
def trim (maxSz : ℕ) (st : CFam) : CFam :=
  if maxSz = 0 then st
  else { st with sets := st.sets.filter (fun a => ¬ maxSz < a.card) }

/-- One round of the loop of `ConflictFamily::conflict_sizes`, src/conflictfamily.cc:142-149:
grow the table with zeros if necessary, then increment. -/
def bumpSize (t : List ℕ) (sz : ℕ) : List ℕ :=
  let t := if t.length ≤ sz then t ++ List.replicate (1 + sz - t.length) 0 else t
  t.modify sz (· + 1)

/-- `ConflictFamily::conflict_sizes`, src/conflictfamily.cc:139-150. -/
def conflictSizes (st : CFam) : List ℕ :=
  st.sets.foldl (fun t a => bumpSize t a.card) []

/-- The merge walk of `superset_membs` over one conflict set, src/conflictfamily.cc:160-177; first
list is the rest of `test_set`, second the rest of `conflict_set`. -/
def supersetWalk (count : Finset ℕ) : List ℕ → List ℕ → Finset ℕ → Finset ℕ
  | _, [], membs => membs
  | [], e :: cs, membs => supersetWalk count [] cs (if e ∈ count then insert e membs else membs)
  | t :: ts, e :: cs, membs =>
    if t ≠ e then supersetWalk count (t :: ts) cs (if e ∈ count then insert e membs else membs)
    else supersetWalk count ts cs membs

/-- `ConflictFamily::superset_membs`, src/conflictfamily.cc:152-179. -/
def supersetMembs (st : CFam) (test count : Finset ℕ) : Finset ℕ :=
  st.sets.foldl
    (fun membs a => if test ⊆ a then supersetWalk count (arr test) (arr a) membs else membs) ∅

/-- The loop of `conflict_membs`, src/conflictfamily.cc:187-196. -/
def conflictMembsLoop (test count : Finset ℕ) :
    List (Finset ℕ) → Finset ℕ → Bool × Finset ℕ
  | [], membs => (true, membs)
  | a :: l, membs =>
    match arr (a \ test) with
    | [] => (false, membs)
    | [d] => conflictMembsLoop test count l (if d ∈ count then insert d membs else membs)
    | _ => conflictMembsLoop test count l membs

/-- `ConflictFamily::conflict_membs`, src/conflictfamily.cc:181-197, with the caller's set
`*ret_membs` as argument and its new value as second component of the result. -/
def conflictMembs (st : CFam) (membs test count : Finset ℕ) : Bool × Finset ℕ :=
  conflictMembsLoop test count st.sets membs

/-- `ConflictFamily::all_conflicts(Table< FlatSet<uint> >&)`, src/conflictfamily.cc:199-207. -/
def allConflicts (st : CFam) : List (Finset ℕ) := st.sets

/-- Length-prefixed flat encoding used in `all_conflicts` and `flush_new_conflicts`,
src/conflictfamily.cc:213-220 and 247-253. -/
def encodeFlat (l : List (Finset ℕ)) : List ℕ :=
  l.flatMap (fun a => a.card :: arr a)

/-- `ConflictFamily::all_conflicts(Table<uint>&)`, src/conflictfamily.cc:209-221. -/
def allConflictsFlat (st : CFam) : List ℕ := encodeFlat st.sets

/-- `ConflictFamily::flush_new_conflicts(Table< FlatSet<uint> >&)`, src/conflictfamily.cc:223-238:
returned table and new state. -/
def flushSets (st : CFam) : List (Finset ℕ) × CFam :=
  if st.recording = false then (allConflicts st, { st with recording := true })
  else (st.newSets.reverse, { st with newSets := [] })

/-- `ConflictFamily::flush_new_conflicts(Table<uint>&)`, src/conflictfamily.cc:240-258. -/
def flushFlat (st : CFam) : List ℕ × CFam :=
  if st.recording = false then (allConflictsFlat st, { st with recording := true })
  else (encodeFlat st.newSets.reverse, { st with newSets := [] })

/-- `ConflictFamily::flush_new_conflicts()`, src/conflictfamily.cc:260-265. -/
def flushDiscard (st : CFam) : CFam := { st with newSets := [], recording := true }

/-- `ConflictFamily::clear`, src/conflictfamily.cc:267-274. -/
def clearFam (_ : CFam) : CFam := ⟨[], [], false, ∅⟩

/-- `ConflictFamily::sat_ck`, src/conflictfamily.cc:276-284. -/
def satCk (st : CFam) : Bool :=
  match st.sets with
  | [e] => decide (0 < e.card)
  | _ => true

/-- `ConflictFamily::oput`, src/conflictfamily.cc:297-309, as the sequence of numbers written. -/
def oputConflicts (st : CFam) : List ℕ :=
  st.sets.length :: encodeFlat st.sets

/-- Insertion into the `std::set`, `conflict_sets << x`: no effect if present. -/
def setInsert (r : Finset ℕ → Finset ℕ → Prop) [DecidableRel r] (b : Finset ℕ)
    (l : List (Finset ℕ)) : List (Finset ℕ) :=
  if b ∈ l then l else l.orderedInsert r b

/-- The loop of `ConflictFamily::xget`, src/conflictfamily.cc:320-334, on the sequence of numbers
in the file.  Reading past the end leaves the variable at its initial value 0 and marks the stream
bad; the code looks at that mark only after reading a member, so a missing size is taken as 0. -/
def xgetLoop (r : Finset ℕ → Finset ℕ → Prop) [DecidableRel r] :
    ℕ → List ℕ → CFam → CFam
  | 0, _, st => st
  | k + 1, l, st =>
    let sz := l.headD 0
    let rest := l.tail
    if rest.length < sz then st
    else
      let t := rest.take sz
      xgetLoop r k (rest.drop sz)
        { st with
          sets := setInsert r t.toFinset st.sets
          impossible := match t with
            | [e] => insert e st.impossible
            | _ => st.impossible }

/-- `ConflictFamily::xget`, src/conflictfamily.cc:311-335. -/
def xgetConflicts (r : Finset ℕ → Finset ℕ → Prop) [DecidableRel r] (l : List ℕ) (st : CFam) :
    CFam :=
  xgetLoop r (l.headD 0) l.tail { st with sets := [], impossible := ∅ }

end Verif.Model
