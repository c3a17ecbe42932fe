import Verif.Model.Uni

/-!
Aperiodic ring protocols: `src/uni/aperiodic.cc` and the table of `src/uni/unifile.cc`.

The library is not part of the checkout.  A `Map` whose values are the sizes at insertion is the list of its
keys in the order of insertion; a `Set` is the list of its members in ascending order.
-/

namespace Verif.Model

/-- Key of the map of symbols, src/uni/aperiodic.cc:74. -/
abbrev Sym := ℕ × ℕ × ℕ

/-- `UINT_MAX`, the default arguments at src/uni/aperiodic.cc:75-77. -/
def symMax : ℕ := 4294967295

/-- `LookupSymId`, src/uni/aperiodic.cc:72-80: the map and the id. -/
def lookupSym (m : List Sym) (s : Sym) : List Sym × ℕ :=
  if s ∈ m then (m, m.idxOf s) else (m ++ [s], m.length)

/-- Insertion into a `Set` (library): ascending, without repetition. -/
def ascInsert {α : Type} [DecidableEq α] (lt : α → α → Bool) (x : α) : List α → List α
  | [] => [x]
  | y :: l => if x = y then y :: l else if lt x y then x :: y :: l else y :: ascInsert lt x l

/-- The order of triples in `Set<UniAct>` (library), src/uni/aperiodic.cc:102. -/
def tripleLt (x y : ℕ × ℕ × ℕ) : Bool :=
  decide (x.1 < y.1 ∨ (x.1 = y.1 ∧ (x.2.1 < y.2.1 ∨ (x.2.1 = y.2.1 ∧ x.2.2 < y.2.2))))

/-- A set of colours, src/uni/aperiodic.cc:110-115. -/
def colorSet (l : List ℕ) : List ℕ := l.foldl (fun s x => ascInsert (fun a b => decide (a < b)) x s) []

/-- Insertion of `UniAct(x, y, z)` with ids `x`, `y`, `z`, src/uni/aperiodic.cc:137-142, 201; the arguments are converted
to `PcState`. -/
def putAct (acts : List UniAct) (t : ℕ × ℕ × ℕ) : List UniAct :=
  ascInsert tripleLt (toByte t.1, toByte t.2.1, toByte t.2.2) acts

/-- One tile in `ReduceToActionTiles`, src/uni/aperiodic.cc:126-143; `doll` is the id of the symbol `$`. -/
def reduceTile (doll : ℕ) (st : List Sym × List UniAct) (t : ℕ × ℕ × ℕ × ℕ) : List Sym × List UniAct :=
  let cd := lookupSym st.1 (t.2.2.1, t.2.2.2, symMax)
  let a0 := lookupSym cd.1 (t.1, 0, 1)
  let b1 := lookupSym a0.1 (t.2.1, 1, 1)
  let c1 := lookupSym b1.1 (t.2.2.1, 1, 1)
  let d0 := lookupSym c1.1 (t.2.2.2, 0, 1)
  (d0.1, [(a0.2, b1.2, cd.2), (doll, cd.2, c1.2), (cd.2, doll, d0.2), (c1.2, d0.2, doll)].foldl putAct st.2)

/-- The map after the reservation of ids for the colours, src/uni/aperiodic.cc:104-123. -/
def reserveSyms (tiles : List (ℕ × ℕ × ℕ × ℕ)) : List Sym :=
  let doll := lookupSym [] (symMax, symMax, symMax)
  let m := (colorSet (tiles.flatMap fun t => [t.1, t.2.2.2])).foldl (fun m a => (lookupSym m (a, 0, 1)).1) doll.1
  (colorSet (tiles.flatMap fun t => [t.2.1, t.2.2.1])).foldl (fun m b => (lookupSym m (b, 1, 1)).1) m

/-- `ReduceToActionTiles`, src/uni/aperiodic.cc:97-146: the actions and the domain size. -/
def reduceActs (tiles : List (ℕ × ℕ × ℕ × ℕ)) : List UniAct × ℕ :=
  let st := tiles.foldl (reduceTile 0) (reserveSyms tiles, [])
  (st.2, st.1.length)

/-- The macros `ReductionTile` and `ReductionRow`, src/uni/aperiodic.cc:200-204. -/
def reductionRow (t u v w x y z : ℕ) : List (ℕ × ℕ × ℕ) :=
  [(t, u, v), (u, t, v), (v, w, x), (w, v, x), (x, y, z), (y, x, z)]

/-- One tile in `ReduceToCommutativeTiles`, src/uni/aperiodic.cc:186-213; the ids 0 to 3 are `id00`, `id11`, `hash`
and `doll`. -/
def commuteTile (st : List Sym × List UniAct) (t : ℕ × ℕ × ℕ × ℕ) : List Sym × List UniAct :=
  let a := t.1
  let b := t.2.1
  let c := t.2.2.1
  let d := t.2.2.2
  let cd := lookupSym st.1 (c, d, symMax)
  let a0 := lookupSym cd.1 (a, 0, 1)
  let d0 := lookupSym a0.1 (d, 0, 1)
  let d00 := lookupSym d0.1 (d, 0, 2)
  let b1 := lookupSym d00.1 (b, 1, 1)
  let c1 := lookupSym b1.1 (c, 1, 1)
  let c11 := lookupSym c1.1 (c, 1, 2)
  (c11.1, (reductionRow a0.2 b1.2 cd.2 0 d00.2 3 d0.2 ++ reductionRow 1 cd.2 c11.2 d00.2 2 d0.2 1 ++
    reductionRow 3 c11.2 c1.2 2 0 1 3).foldl putAct st.2)

/-- The first four symbols, src/uni/aperiodic.cc:181-184. -/
def specialSyms : List Sym :=
  let m := (lookupSym [] (0, 0, 0)).1
  let m := (lookupSym m (1, 0, 0)).1
  let m := (lookupSym m (3, 0, 0)).1
  (lookupSym m (2, 0, 0)).1

/-- `ReduceToCommutativeTiles`, src/uni/aperiodic.cc:169-217: the actions and the domain size. -/
def commuteActs (tiles : List (ℕ × ℕ × ℕ × ℕ)) : List UniAct × ℕ :=
  let st := tiles.foldl commuteTile (specialSyms, [])
  (st.2, st.1.length)

/-- The first loop of `check_constraints`, src/uni/aperiodic.cc:235-243: the set of guards, or `none` for
`return false`. -/
def guardLoop : List UniAct → List (ℕ × ℕ) → Option (List (ℕ × ℕ))
  | [], gs => some gs
  | t :: l, gs => if (t.1, t.2.1) ∈ gs then none else guardLoop l ((t.1, t.2.1) :: gs)

/-- `check_constraints`, src/uni/aperiodic.cc:220-262. -/
def checkConstraints (acts : List UniAct) (commutative : Bool) : Bool :=
  match guardLoop acts [] with
  | none => false
  | some gs => acts.all fun t =>
      !decide ((t.1, t.2.2) ∈ gs) && !decide ((t.2.2, t.2.1) ∈ gs) &&
        !(commutative && !decide ((t.2.1, t.1, t.2.2) ∈ acts))

/-- `TileSet`, src/uni/aperiodic.cc:48-66. -/
def tileSet : List (ℕ × ℕ × ℕ × ℕ) := [
  (1, 1, 2, 2), (1, 5, 4, 1), (2, 3, 6, 2), (2, 4, 6, 1), (2, 5, 3, 1), (3, 2, 2, 6), (3, 3, 4, 4), (3, 4, 4, 5),
  (3, 6, 4, 3), (4, 2, 1, 6), (4, 3, 5, 4), (4, 4, 5, 5), (5, 1, 1, 4), (5, 2, 1, 3), (6, 3, 3, 4), (6, 6, 3, 3)]

/-- `main` with the argument `-id`, src/uni/aperiodic.cc:265-302: the function printed, with its domain size; `none` for
`failout_sysCx`. -/
def aperiodicMain (commutative : Bool) : Option (List ℕ × ℕ) :=
  let r := if commutative then commuteActs tileSet else reduceActs tileSet
  if !checkConstraints r.1 commutative then none else (ppgfunOfActs r.1 r.2).map fun P => (P, r.2)

/-- `tilings_and_patterns_aperiodic_uniring`, src/uni/unifile.cc:519-563; the domain size is 29. -/
def knownAperiodic : List UniAct := [
  (0, 13, 8), (0, 14, 10), (0, 15, 12), (0, 16, 12), (0, 17, 9), (0, 18, 8), (0, 19, 10), (0, 20, 10),
  (0, 21, 10), (0, 22, 7), (0, 23, 11), (0, 24, 11), (0, 25, 7), (0, 26, 7), (0, 27, 9), (0, 28, 9),
  (1, 7, 13), (1, 11, 14), (2, 9, 15), (2, 10, 16), (2, 11, 17), (3, 8, 18), (3, 9, 19), (3, 10, 20), (3, 12, 21),
  (4, 8, 22), (4, 9, 23), (4, 10, 24), (5, 7, 25), (5, 8, 26), (6, 9, 27), (6, 12, 28),
  (7, 3, 0), (7, 4, 0), (7, 6, 0), (8, 2, 0), (8, 6, 0), (9, 1, 0), (9, 3, 0), (9, 4, 0),
  (10, 1, 0), (10, 3, 0), (10, 4, 0), (10, 5, 0), (11, 4, 0), (11, 5, 0), (12, 1, 0), (12, 2, 0),
  (13, 0, 2), (14, 0, 1), (15, 0, 2), (16, 0, 1), (17, 0, 1), (18, 0, 6), (19, 0, 4), (20, 0, 5), (21, 0, 3),
  (22, 0, 6), (23, 0, 4), (24, 0, 5), (25, 0, 4), (26, 0, 3), (27, 0, 4), (28, 0, 3)]

end Verif.Model
