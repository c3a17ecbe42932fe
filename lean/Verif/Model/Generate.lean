import Verif.Model.Livelock
import Verif.Model.Canonical
import Verif.Model.Loop
import Mathlib.Data.Finset.Sort

/-!
Model of the search for unidirectional ring protocols without small periodic tilings: src/uni/generate.cc:89-545
and the checks it uses, src/uni/livelock.cc:9-52,179-394.

A `BitTable` over action identifiers is the finite set of its members; `for each_in_BitTable` visits them
in ascending order.  All identifiers are below `domsz*domsz*domsz`, the size of the tables.  An adjacency list
built by the pattern `DoTwice(digraph.commit_degrees())` gives each node the arcs added for it, in order
(C28), so it is the list of the arcs.  The variant with BDDs, given actions and the option for breadth-first
output are not modelled.
-/

namespace Verif.Model

/-- `Trit` of the library `cx`. -/
inductive Trit3 where
  | nil | may | yes
  deriving DecidableEq, Repr

/-- `id_of3` for values in range, src/uni/uniact.hh:62-70. -/
def id3 (d a b c : ℕ) : ℕ := (a * d + b) * d + c

/-- The members of a `BitTable` with `d*d*d` entries in ascending order. -/
def eachAct (d : ℕ) (s : Finset ℕ) : List ℕ := (List.range (d * d * d)).filter (· ∈ s)

/-- The values of a loop variable of `subtract_action_mask` and `action_mask_overlap_ck`: from `beg` in steps
of `inc` below `domsz`, where `beg` and `inc` are as at src/uni/livelock.cc:12-19,33-40.  There are at most
`domsz` of them. -/
def maskVals (d m : ℕ) : List ℕ :=
  let beg := if m ≠ d then m else 0
  let inc := if m ≠ d then d else 1
  ((List.range d).map fun k => beg + k * inc).filter (· < d)

/-- The identifiers visited by the loops at src/uni/livelock.cc:21-27,42-50. -/
def maskIds (d : ℕ) (m : UniAct) : List ℕ :=
  (maskVals d m.1).flatMap fun a => (maskVals d m.2.1).flatMap fun b =>
    (maskVals d m.2.2).map fun c => id3 d a b c

/-- `subtract_action_mask`, src/uni/livelock.cc:9-28. -/
def subtractMask (d : ℕ) (s : Finset ℕ) (m : UniAct) : Finset ℕ := (maskIds d m).foldl (fun s i => s.erase i) s

/-- `action_mask_overlap_ck`, src/uni/livelock.cc:30-52. -/
def maskOverlapCk (d : ℕ) (m : UniAct) (s : Finset ℕ) : Bool := (maskIds d m).any (· ∈ s)

/-- `ppgfun[id_of2(a, b, domsz)]` for values in range and a table with `domsz*domsz` entries. -/
def ppgVal (P : List ℕ) (d a b : ℕ) : ℕ := P.getD (a * d + b) d

/-- `init_ppgfun`, src/uni/generate.cc:107-116. -/
def initPpgfun (d : ℕ) (s : Finset ℕ) : List ℕ :=
  (eachAct d s).foldl (fun P i =>
    let act := actOfId i d
    P.set (act.1 * d + act.2.1) act.2.2) (List.replicate (d * d) d)

/-- The arcs of `make_tile_cont_digraph`, src/uni/livelock.cc:307-353, in the order they are added. -/
def tileContArcs (d : ℕ) (s : Finset ℕ) (P : List ℕ) : List (ℕ × ℕ) :=
  (eachAct d s).flatMap fun i =>
    let act := actOfId i d
    (List.range d).flatMap fun x =>
      if maskOverlapCk d (d, act.2.2, x) s then
        (List.range d).flatMap fun e =>
          let f := ppgVal P d act.2.2 e
          if f < d then
            let g := ppgVal P d x f
            if g < d ∧ maskOverlapCk d (act.2.1, d, e) s then
              [(id3 d act.1 act.2.1 x, id3 d act.2.2 e g)]
            else []
          else []
      else []

/-- The arcs of `make_overapprox_tile_cont_digraph`, src/uni/livelock.cc:355-394. -/
def overContArcs (d : ℕ) (s : Finset ℕ) : List (ℕ × ℕ) :=
  (eachAct d s).flatMap fun i =>
    let act := actOfId i d
    (List.range d).flatMap fun x =>
      if maskOverlapCk d (d, act.2.2, x) s then
        (List.range d).flatMap fun e =>
          if maskOverlapCk d (act.2.1, d, e) s then
            (List.range d).flatMap fun f =>
              if id3 d act.2.2 e f ∈ s then
                (List.range d).flatMap fun g =>
                  if id3 d x f g ∈ s then [(id3 d act.1 act.2.1 x, id3 d act.2.2 e g)] else []
              else []
          else []
      else []

/-- The arcs from a node. -/
def arcsOf (arcs : List (ℕ × ℕ)) (x : ℕ) : List ℕ := (arcs.filter fun e => e.1 = x).map Prod.snd

/-- The loop over `i` at src/uni/livelock.cc:287-294 over the arcs from index `i` on: the first arc to a node that is
not yet visited, with its index. -/
def nextArc (vis : Finset ℕ) : ℕ → List ℕ → Option (ℕ × ℕ)
  | _, [] => none
  | i, y :: l => if y ∈ vis then nextArc vis (i + 1) l else some (i, y)

/-- One round of the loop of `cycle_ck_from`, src/uni/livelock.cc:284-301.  The state is `stack`, top first, and
`visited`; the result is the stack at the end. -/
def cycleFromBody (arcs : List (ℕ × ℕ)) (init : ℕ) (st : List (ℕ × ℕ) × Finset ℕ) :
    List (ℕ × ℕ) ⊕ (List (ℕ × ℕ) × Finset ℕ) :=
  match st.1 with
  | [] => .inl []
  | (x, i) :: rest =>
    match nextArc st.2 i ((arcsOf arcs x).drop i) with
    | none => .inr (rest, st.2)
    | some (k, y) =>
      if y = init then .inl ((x, k + 1) :: rest)
      else .inr ((y, 0) :: (x, k + 1) :: rest, insert y st.2)

/-- `cycle_ck_from`, src/uni/livelock.cc:273-304: the nodes on the stack, bottom first; the check succeeds if there
are any. -/
def cycleCkFrom (fuel : ℕ) (arcs : List (ℕ × ℕ)) (init : ℕ) : Option (List ℕ) :=
  if (arcsOf arcs init).length = 0 then some []
  else (loopFuel (cycleFromBody arcs init) fuel ([(init, 0)], ∅)).map fun st => (st.map Prod.fst).reverse

/-- The next row of tiles, src/uni/livelock.cc:188-206: `west` is the value to the west; the inner `none` is
`return Nil`. -/
def guideRow (P : List ℕ) (d : ℕ) : ℕ → List ℕ → Option (Option (List ℕ))
  | _, [] => some (some [])
  | west, b :: l => (ppgAt P d west b).bind fun c =>
    if d ≤ c then some none else (guideRow P d c l).map fun r => r.map (c :: ·)

/-- Setting the tiles of a row in `livelockset`, src/uni/livelock.cc:230-236. -/
def markRow (d : ℕ) : ℕ → List ℕ → List ℕ → Finset ℕ → Finset ℕ
  | a, b :: bs, c :: cs, ls => markRow d c bs cs (insert (id3 d a b c) ls)
  | _, _, _, ls => ls

/-- The loop over `bot_west`, src/uni/livelock.cc:223-240; `mark` sets the tiles of the row. -/
def guideLoop (f : ℕ → Finset ℕ → Option (Trit3 × Finset ℕ)) (mark : Finset ℕ → Finset ℕ) :
    List ℕ → Bool → Finset ℕ → Option (Trit3 × Finset ℕ)
  | [], impossible, ls => some (if impossible then .nil else .may, ls)
  | w :: l, impossible, ls => (f w ls).bind fun r =>
    match r.1 with
    | .yes => some (.yes, mark r.2)
    | .nil => guideLoop f mark l impossible r.2
    | .may => guideLoop f mark l false r.2

/-- The part of `guided_livelock_semick_rec` before the limit is looked at, src/uni/livelock.cc:188-218; `k` is the
rest. -/
def guideStep (P : List ℕ) (d : ℕ) (goal top : List ℕ) (west : ℕ) (ls : Finset ℕ)
    (k : List ℕ → Option (Trit3 × Finset ℕ)) : Option (Trit3 × Finset ℕ) :=
  if top = [] then none
  else (guideRow P d west top).bind fun r =>
    match r with
    | none => some (.nil, ls)
    | some mid =>
      if mid.getLast? ≠ some west then some (.may, ls)
      else if mid = goal then some (.yes, ls)
      else k mid

/-- `guided_livelock_semick_rec`, src/uni/livelock.cc:179-242. -/
def guidedRec (P : List ℕ) (d : ℕ) (goal : List ℕ) : ℕ → List ℕ → ℕ → Finset ℕ → Option (Trit3 × Finset ℕ)
  | 0, top, west, ls => guideStep P d goal top west ls fun _ => some (.may, ls)
  | limit + 1, top, west, ls => guideStep P d goal top west ls fun mid =>
      guideLoop (guidedRec P d goal limit mid) (markRow d west top mid) (List.range d) true ls

/-- The loop over `mid_west`, src/uni/livelock.cc:262-270. -/
def guidedLoop (f : ℕ → Finset ℕ → Option (Trit3 × Finset ℕ)) : List ℕ → Finset ℕ → Option (Bool × Finset ℕ)
  | [], ls => some (false, ls)
  | w :: l, ls => (f w ls).bind fun r => if r.1 = .yes then some (true, r.2) else guidedLoop f l r.2

/-- `guided_livelock_ck`, src/uni/livelock.cc:244-271, with the final `livelockset`; `limit - 1` wraps around for
`limit = 0`, which the callers exclude. -/
def guidedCk (acts : List (ℕ × ℕ)) (P : List ℕ) (d limit : ℕ) : Option (Bool × Finset ℕ) :=
  if limit = 0 then none
  else
    (acts.mapM fun p => (ppgAt P d p.1 p.2).bind fun c => if c < d then some c else none).bind fun top =>
      let ls := (acts.zip top).foldl (fun ls t => insert (id3 d t.1.1 t.1.2 t.2) ls) ∅
      guidedLoop (guidedRec P d (acts.map Prod.snd) (limit - 1) top) (List.range d) ls

/-- The loop over `j` of `map_livelock_ppgs`, src/uni/unifile.cc:311-318, with `f` of src/uni/generate.cc:118-123: the
new row without its first entry and the set of actions. -/
def mapRow (P : List ℕ) (d : ℕ) : ℕ → List ℕ → Finset ℕ → Option (List ℕ × Finset ℕ)
  | _, [], ls => some ([], ls)
  | a, b :: l, ls => (ppgAt P d a b).bind fun c =>
    if c < d then (mapRow P d c l (insert (id3 d a b c) ls)).map fun r => (c :: r.1, r.2) else none

/-- `map_livelock_ppgs`, src/uni/unifile.cc:292-321: over the remaining entries of `col`, `row` is without its first
entry. -/
def mapRows (P : List ℕ) (d : ℕ) : List ℕ → List ℕ → Finset ℕ → Option (Finset ℕ)
  | [], _, ls => some ls
  | c :: col, row, ls => (mapRow P d c row ls).bind fun r => mapRows P d col r.1 r.2

/-- `map_livelock_ppgs` called at src/uni/generate.cc:225-231: the actions of the livelock. -/
def livelockActs (P : List ℕ) (d : ℕ) (row col : List ℕ) : Option (Finset ℕ) :=
  if row.head? ≠ none ∧ row.head? = row.getLast? ∧ row.head? = col.getLast? ∧ row.head? = col.head? then
    mapRows P d col.tail row.tail ∅
  else none

/-- `max_livelock_actids`, src/uni/generate.cc:232-236. -/
def lastTwo (l : List ℕ) : ℕ × ℕ := l.foldl (fun m i => (m.2, i)) (0, 0)

/-- Removing the reasons of a livelock from the candidates of all smaller depths, src/uni/generate.cc:232-248 and
313-329; `stack` holds the candidates of these depths. -/
def pruneStack (d : ℕ) (mask : Finset ℕ) (stack : List (Finset ℕ)) : Option (List (Finset ℕ)) :=
  let m := lastTwo (eachAct d mask)
  if m.1 > 0 then
    some (stack.map fun c => if m.2 ∉ c then ∅ else if m.1 ∉ c then c.erase m.2 else c)
  else none

/-- The options of the search, src/uni/generate.cc:23-50. -/
structure GenOpt where
  domsz : ℕ
  maxDepth : ℕ
  maxPeriod : ℕ
  maxPpgs : ℕ
  overapprox : Bool
  nwDisabling : Bool
  dfsThreshold : ℕ

/-- Searching a starting node, src/uni/generate.cc:273-279 and 283-289; the empty list if there is none. -/
def findCycle (fuel d : ℕ) (arcs : List (ℕ × ℕ)) (a b : ℕ) : List ℕ → Option (List ℕ)
  | [] => some []
  | x :: l => (cycleCkFrom fuel arcs (id3 d a b x)).bind fun r =>
    if r ≠ [] then some r else findCycle fuel d arcs a b l

/-- The loop over `pending`, src/uni/generate.cc:269-333.  The result is the returned value and the actions of
a livelock if one was found. -/
def leadsLoop (o : GenOpt) (fuel : ℕ) (P : List ℕ) (dig over : List (ℕ × ℕ)) :
    List ℕ → Finset ℕ → Bool → Option (Trit3 × Option (Finset ℕ))
  | [], _, maybe => some (if maybe then .yes else .may, none)
  | i :: l, pending, maybe =>
    if i ∉ pending then leadsLoop o fuel P dig over l pending maybe
    else
      let act := actOfId i o.domsz
      (findCycle fuel o.domsz dig act.1 act.2.1 (List.range o.domsz)).bind fun nodes =>
        if nodes = [] then
          if o.overapprox then
            (findCycle fuel o.domsz over act.1 act.2.1 (List.range o.domsz)).bind fun nodes =>
              if nodes = [] then some (.nil, none) else leadsLoop o fuel P dig over l pending false
          else leadsLoop o fuel P dig over l pending false
        else
          (nodes.mapM fun n =>
            let t := actOfId n o.domsz
            (ppgAt P o.domsz t.1 t.2.1).bind fun c => if c < o.domsz then some (t.1, t.2.1, c) else none).bind
          fun tiles =>
            let pending := tiles.foldl (fun s t => s.erase (id3 o.domsz t.1 t.2.1 t.2.2)) pending
            if o.maxPpgs > o.maxPeriod ∧ nodes.length ≤ o.maxPeriod then
              (guidedCk (tiles.map fun t => (t.1, t.2.1)) P o.domsz o.maxPpgs).bind fun g =>
                if g.1 then some (.nil, some g.2) else leadsLoop o fuel P dig over l pending maybe
            else leadsLoop o fuel P dig over l pending maybe

/-- `periodic_leads_semick` without BDDs, src/uni/generate.cc:212-336; `stack` holds the candidates of the smaller
depths, `cand` those of this depth. -/
def periodicLeads (o : GenOpt) (fuel : ℕ) (delegates : Finset ℕ) (P : List ℕ) (stack : List (Finset ℕ))
    (cand : Finset ℕ) : Option (Trit3 × List (Finset ℕ)) :=
  (livelockSemick o.maxPeriod o.maxPeriod P o.domsz).bind fun v =>
    match v with
    | .yes row col => (livelockActs P o.domsz row col).bind fun mask =>
        (pruneStack o.domsz mask stack).map fun stack => (.nil, stack)
    | v =>
      let dig := tileContArcs o.domsz delegates P
      let over := if o.overapprox then overContArcs o.domsz (delegates ∪ cand) else []
      (leadsLoop o fuel P dig over (List.range (o.domsz * o.domsz * o.domsz)) delegates (v ≠ .nil)).bind fun r =>
        match r.2 with
        | some mask => (pruneStack o.domsz mask stack).map fun stack => (r.1, stack)
        | none => some (r.1, stack)

/-- `trim_coexist`, src/uni/generate.cc:339-367. -/
def trimCoexist (d : ℕ) (nw : Bool) (s : Finset ℕ) (actid : ℕ) : Finset ℕ :=
  let act := actOfId actid d
  let s := if act.1 = act.2.1 then subtractMask d s (act.2.2, act.2.2, act.1) else s
  let s := if act.1 = act.2.2 then subtractMask d s (act.2.1, act.1, act.2.1) else s
  let s := subtractMask d s (act.1, act.2.1, d)
  let s := subtractMask d s (act.1, act.2.2, d)
  let s := subtractMask d s (act.1, d, act.2.1)
  if !nw then s
  else subtractMask d (subtractMask d s (act.2.2, act.2.1, d)) (d, act.2.1, act.1)

/-- The loop over `next_actid`, src/uni/generate.cc:433-441; `f` is the recursive call, the last entry of `stack` are the
candidates of this depth. -/
def genLoop (f : List (Finset ℕ) → ℕ → Option (List (Finset ℕ) × List (List ℕ))) :
    List ℕ → List (Finset ℕ) → Option (List (Finset ℕ) × List (List ℕ))
  | [], stack => some (stack, [])
  | n :: l, stack =>
    if n ∈ stack.getLastD ∅ then
      (f stack n).bind fun r =>
        (genLoop f l (r.1.dropLast ++ [(r.1.getLastD ∅).erase n])).map fun q => (q.1, r.2 ++ q.2)
    else genLoop f l stack

/-- `recurse`, src/uni/generate.cc:369-442, with `trust_given` unset and no file for breadth-first search.  `stack`
are the candidates of the depths below this one; the result is `stack` at the end and the functions
printed.  An entry of the tables of size `domsz*domsz+1` (src/uni/generate.cc:450,455) is used for every depth. -/
def recurse (o : GenOpt) (cfuel : ℕ) : ℕ → Finset ℕ → List (Finset ℕ) → ℕ →
    Option (List (Finset ℕ) × List (List ℕ))
  | 0, _, _, _ => none
  | fuel + 1, delegates, stack, actid =>
    let depth := stack.length
    let delegates := insert actid delegates
    if o.domsz * o.domsz < depth ∨ actid ∉ stack.getLastD ∅ then none
    else
      let cand := trimCoexist o.domsz o.nwDisabling ((stack.getLastD ∅).erase actid) actid
      let P := initPpgfun o.domsz delegates
      (periodicLeads o cfuel delegates P stack cand).bind fun r =>
        if r.1 = .nil then some (r.2, [])
        else (canonicalCk P o.domsz).bind fun canonical =>
          if !canonical then some (r.2, [])
          else
            let out := if r.1 = .yes then [P] else []
            let act := actOfId actid o.domsz
            if depth = o.maxDepth ∧ ¬ o.domsz * o.domsz - 1 - (act.1 * o.domsz + act.2.1) ≤ o.dfsThreshold then
              some (r.2, out)
            else
              (genLoop (recurse o cfuel fuel delegates)
                (List.range' (actid + 1) (o.domsz * o.domsz * o.domsz - (actid + 1))) (r.2 ++ [cand])).map
                fun q => (q.1.dropLast, out ++ q.2)

/-- Removing the actions `id_of3(f a b)`, the macros at src/uni/generate.cc:460-475. -/
def removeActs (d : ℕ) (f : ℕ → ℕ → ℕ) (s : Finset ℕ) : Finset ℕ :=
  (pairsUpTo d).foldl (fun s p => s.erase (f p.1 p.2)) s

/-- One `RECURSE`, src/uni/generate.cc:477-478, from the action `(a, b, c)`: `id_of3` fails for values outside of
the domain. -/
def startAt (o : GenOpt) (cfuel fuel : ℕ) (c0 : Finset ℕ) (a b c : ℕ) : Option (Finset ℕ × List (List ℕ)) :=
  (idOf3 a b c o.domsz).bind fun i => (recurse o cfuel fuel ∅ [c0] i).map fun r => (r.1.getLastD ∅, r.2)

/-- `searchit` without given actions, src/uni/generate.cc:444-458,480-486,532-545: the functions printed. -/
def searchit (o : GenOpt) (cfuel fuel : ℕ) : Option (List (List ℕ)) :=
  let d := o.domsz
  let c0 := removeActs d (fun a b => id3 d a b b) (Finset.range (d * d * d))
  let c0 := if o.nwDisabling then removeActs d (fun a b => id3 d a b a) c0 else c0
  (startAt o cfuel fuel c0 0 0 1).bind fun r1 =>
    let c1 := removeActs d (fun a b => id3 d a a b) r1.1
    (if !o.nwDisabling then
        (startAt o cfuel fuel c1 0 1 0).map fun r2 => (removeActs d (fun a b => id3 d a b a) r2.1, r2.2)
      else some (c1, [])).bind fun r2 =>
        (startAt o cfuel fuel r2.1 0 1 2).map fun r3 => r1.2 ++ r2.2 ++ r3.2

end Verif.Model
