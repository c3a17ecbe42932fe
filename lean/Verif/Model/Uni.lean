import Mathlib.Data.List.Basic

/-!
Model of the small data types of the unidirectional ring tools: action identifiers
(`src/uni/uniact.hh`), propagation functions and action sets (`src/uni/unifile.cc`) and adjacency
lists (`src/uni/adjlist.hh`).

`Table<T>` is a list.  A failing `Claim` and an access outside a table are the result `none`.
`PcState` is `byte`: storing a number in it keeps the number modulo 256.  `uint` arithmetic is
unbounded (with domain sizes up to 256 every number involved is below `2 ^ 25`).
-/

namespace Verif.Model

universe u

/-- Conversion to `PcState`, src/uni/uniact.hh:7 (`typedef byte PcState`). -/
def toByte (n : ℕ) : ℕ := n % 256

/-- `UniAct`, src/uni/uniact.hh:12-21: the triple (value of the predecessor, own value, new own
value). -/
abbrev UniAct := ℕ × ℕ × ℕ

/-- `UniAct::of_id`, src/uni/uniact.hh:36-43. -/
def actOfId (actid domsz : ℕ) : UniAct :=
  let loQuot := actid / domsz
  let loRem := actid % domsz
  let hiQuot := loQuot / domsz
  let hiRem := loQuot % domsz
  (toByte hiQuot, toByte hiRem, toByte loRem)

/-- `UniStep::of_id`, src/uni/uniact.hh:45-51. -/
def stepOfId (stepid domsz : ℕ) : ℕ × ℕ :=
  (toByte (stepid / domsz), toByte (stepid % domsz))

/-- `id_of2`, src/uni/uniact.hh:53-60; `none` when a `Claim` fails. -/
def idOf2 (a b domsz : ℕ) : Option ℕ :=
  if a < domsz ∧ b < domsz then some (a * domsz + b) else none

/-- `id_of3`, src/uni/uniact.hh:62-70; `none` when a `Claim` fails. -/
def idOf3 (a b c domsz : ℕ) : Option ℕ :=
  if a < domsz ∧ b < domsz ∧ c < domsz then some ((a * domsz + b) * domsz + c) else none

/-- The loop at src/uni/unifile.cc:19-21 (and 46-48 with exponent 3): least `d ≥ domsz` with
`d ^ e ≥ sz`.  The fuel `sz` always suffices. -/
def rootLoop (e sz : ℕ) : ℕ → ℕ → ℕ
  | 0, domsz => domsz
  | fuel + 1, domsz => if domsz ^ e < sz then rootLoop e sz fuel (domsz + 1) else domsz

/-- `uniring_domsz_of(const Table<PcState>&)`, src/uni/unifile.cc:15-26. -/
def domszOfPpg (sz : ℕ) : ℕ :=
  let domsz := rootLoop 2 sz (sz + 1) 0
  if sz ≠ domsz ^ 2 then 0 else toByte domsz

/-- `uniring_domsz_of(const Table<UniAct>&)`, src/uni/unifile.cc:28-40. -/
def domszOfActs (acts : List UniAct) : ℕ :=
  toByte (acts.foldl (fun domsz act =>
    [act.1, act.2.1, act.2.2].foldl (fun domsz x => if domsz < x + 1 then x + 1 else domsz) domsz) 0)

/-- `uniring_domsz_of(const BitTable&)`, src/uni/unifile.cc:42-53. -/
def domszOfActset (sz : ℕ) : ℕ :=
  let domsz := rootLoop 3 sz (sz + 1) 0
  if sz ≠ domsz ^ 3 then 0 else toByte domsz

/-- One assignment `ppgfun[id_of2(act[0], act[1], domsz)] = act[2]`, src/uni/unifile.cc:64-65. -/
def ppgAssign (domsz : ℕ) (ppgfun : List ℕ) (act : UniAct) : Option (List ℕ) :=
  (idOf2 act.1 act.2.1 domsz).bind fun i =>
    if i < ppgfun.length then some (ppgfun.set i (toByte act.2.2)) else none

/-- `uniring_ppgfun_of(const Table<UniAct>&, domsz)`, src/uni/unifile.cc:55-68. -/
def ppgfunOfActs (acts : List UniAct) (domsz : ℕ) : Option (List ℕ) :=
  let domsz := if domsz = 0 then domszOfActs acts else domsz
  acts.foldlM (ppgAssign domsz) (List.replicate (domsz * domsz) (toByte domsz))

/-- The members of a `BitTable` in ascending order (`begidx`/`nextidx`). -/
def bitIndices (bt : List Bool) : List ℕ :=
  (List.range bt.length).filter fun i => bt.getD i false

/-- `uniring_ppgfun_of(const BitTable&, domsz)`, src/uni/unifile.cc:70-83. -/
def ppgfunOfActset (actset : List Bool) (domsz : ℕ) : Option (List ℕ) :=
  let domsz := if domsz = 0 then domszOfActset actset.length else domsz
  ((bitIndices actset).map fun i => actOfId i domsz).foldlM (ppgAssign domsz)
    (List.replicate (domsz * domsz) (toByte domsz))

/-- The body of the double loop of `uniring_actions_of(const Table<PcState>&, …)`,
src/uni/unifile.cc:92-99. -/
def actionAt (ppgfun : List ℕ) (domsz a b : ℕ) : Option (List UniAct) :=
  (idOf2 a b domsz).bind fun i =>
    (ppgfun[i]?).map fun c => if c < domsz then [(toByte a, toByte b, toByte c)] else []

/-- The pairs `(a, b)` in the order of the double loops over `a` and `b`. -/
def pairsUpTo (domsz : ℕ) : List (ℕ × ℕ) :=
  (List.range domsz).flatMap fun a => (List.range domsz).map fun b => (a, b)

/-- `uniring_actions_of(const Table<PcState>&, domsz)`, src/uni/unifile.cc:86-101. -/
def actionsOfPpg (ppgfun : List ℕ) (domsz : ℕ) : Option (List UniAct) :=
  let domsz := if domsz = 0 then domszOfPpg ppgfun.length else domsz
  ((pairsUpTo domsz).mapM fun p => actionAt ppgfun domsz p.1 p.2).map List.flatten

/-- `uniring_actions_of(const BitTable&, domsz)`, src/uni/unifile.cc:103-114. -/
def actionsOfActset (actset : List Bool) (domsz : ℕ) : Option (List UniAct) :=
  let domsz := if domsz = 0 then domszOfActset actset.length else domsz
  if domsz = 0 then none else some ((bitIndices actset).map fun i => actOfId i domsz)

/-- One round of the double loop of `uniring_actset_of`, src/uni/unifile.cc:122-129. -/
def actsetRound (ppgfun : List ℕ) (domsz : ℕ) (actset : List Bool) (p : ℕ × ℕ) :
    Option (List Bool) :=
  (idOf2 p.1 p.2 domsz).bind fun i => (ppgfun[i]?).bind fun c =>
    if c < domsz then (idOf3 p.1 p.2 c domsz).map fun j => actset.set j true else some actset

/-- `uniring_actset_of(const Table<PcState>&, domsz)`, src/uni/unifile.cc:116-131. -/
def actsetOfPpg (ppgfun : List ℕ) (domsz : ℕ) : Option (List Bool) :=
  let domsz := if domsz = 0 then domszOfPpg ppgfun.length else domsz
  (pairsUpTo domsz).foldlM (actsetRound ppgfun domsz)
    (List.replicate (domsz * domsz * domsz) false)

/-- `AdjList<T>`, src/uni/adjlist.hh:13-25.  A node is its offset (`none` stands for `SIZE_MAX`)
and its degree.  An entry of `arcs` is `none` before it is written. -/
structure AdjList (T : Type u) where
  nodes : List (Option ℕ × ℕ)
  arcs : List (Option T)

variable {T : Type u}

/-- Constructor, src/uni/adjlist.hh:69-78. -/
def AdjList.new (T : Type u) (nnodes : ℕ) : AdjList T := ⟨List.replicate nnodes (none, 0), []⟩

/-- Add `n` to the degree of a node. -/
def AdjList.bump (g : AdjList T) (id n : ℕ) : AdjList T :=
  { g with nodes := g.nodes.modify id fun p => (p.1, p.2 + n) }

/-- `increment_degree`, src/uni/adjlist.hh:29-31. -/
def AdjList.incrementDegree (g : AdjList T) (id n : ℕ) : Option (AdjList T) :=
  if id < g.nodes.length then some (g.bump id n) else none

/-- The loop of `commit_degrees`, src/uni/adjlist.hh:91-94 together with 96-97: given the end index
so far, gives the offsets and resets the degrees; second component the total. -/
def commitLoop : ℕ → List (Option ℕ × ℕ) → List (Option ℕ × ℕ) × ℕ
  | off, [] => ([], off)
  | off, p :: l =>
    let r := commitLoop (off + p.2) l
    ((some off, 0) :: r.1, r.2)

/-- `commit_degrees`, src/uni/adjlist.hh:80-98; `none` when the `Claim` that degrees have not been
committed yet fails. -/
def AdjList.commitDegrees (g : AdjList T) : Option (AdjList T) :=
  match g.nodes with
  | [] => some g
  | (some _, _) :: _ => none
  | (none, _) :: _ =>
    let r := commitLoop 0 g.nodes
    some ⟨r.1, List.replicate r.2 none⟩

/-- `flush`, src/uni/adjlist.hh:39-43. -/
def AdjList.flush (g : AdjList T) : AdjList T :=
  { g with nodes := g.nodes.map fun p => (p.1, 0) }

/-- `degree`, src/uni/adjlist.hh:49-51. -/
def AdjList.degree (g : AdjList T) (id : ℕ) : Option ℕ := (g.nodes[id]?).map (·.2)

/-- Iterating over `arc_from(src, i)` for `i < degree(src)`, src/uni/adjlist.hh:53-59; `none` when an
entry is outside the table or was never written. -/
def AdjList.arcsFrom (g : AdjList T) (src : ℕ) : Option (List T) :=
  (g.nodes[src]?).bind fun p =>
    (List.range p.2).mapM fun i => p.1.bind fun off => (g.arcs[off + i]?).join

/-- `del_arcs_from`, src/uni/adjlist.hh:61-63. -/
def AdjList.delArcsFrom (g : AdjList T) (src : ℕ) : Option (AdjList T) :=
  if src < g.nodes.length then some { g with nodes := g.nodes.modify src fun p => (p.1, 0) }
  else none

/-- `add_arc`, src/uni/adjlist.hh:100-108. -/
def AdjList.addArc (g : AdjList T) (src : ℕ) (dst : T) : Option (AdjList T) :=
  match g.nodes with
  | [] => none
  | (none, _) :: _ => if src < g.nodes.length then some (g.bump src 1) else none
  | (some _, _) :: _ =>
    match g.nodes[src]? with
    | some (some off, deg) =>
      if off + deg < g.arcs.length then
        some (AdjList.bump { g with arcs := g.arcs.set (off + deg) (some dst) } src 1)
      else none
    | _ => none

/-- The loop of `del_arc`, src/uni/adjlist.hh:116-125: `n` entries removed so far; `k` rounds to go;
returns the table and the number of removed entries. -/
def delLoop [DecidableEq T] (dst : T) : ℕ → ℕ → ℕ → List (Option T) → Option (List (Option T) × ℕ)
  | 0, _, n, arcs => some (arcs, n)
  | k + 1, i, n, arcs =>
    match arcs[i]? with
    | some (some a) =>
      if a = dst then delLoop dst k (i + 1) (n + 1) arcs
      else delLoop dst k (i + 1) n (if n > 0 then arcs.set (i - n) (some a) else arcs)
    | _ => none

/-- `del_arc`, src/uni/adjlist.hh:110-126. -/
def AdjList.delArc [DecidableEq T] (g : AdjList T) (src : ℕ) (dst : T) : Option (AdjList T) :=
  match g.nodes[src]? with
  | some (some off, deg) =>
    (delLoop dst deg off 0 g.arcs).map fun r =>
      { nodes := g.nodes.modify src fun p => (p.1, p.2 - r.2), arcs := r.1 }
  | _ => none

end Verif.Model
