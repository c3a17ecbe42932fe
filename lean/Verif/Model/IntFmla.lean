import Verif.Model.Loop
import Verif.Model.Index
import Mathlib.Data.Fintype.Pi
import Mathlib.Data.Finset.Prod

/-!
Model of integer expressions over the state, `IntPFmla`, src/pfmla.hh:455-529 and
src/pfmla.cc:168-455.

The system has `n` variables with domain sizes `dom`; a formula is a set of states, a transition
formula a set of pairs of states.  There is one formula context, so the pointer `ctx` is a flag.  Failed
`Claim`s and accesses outside a table are `none`.  `int` is unbounded.
-/

namespace Verif.Model

/-- States: one value below the domain size per variable. -/
abbrev FSt (n : ℕ) (dom : Fin n → ℕ) : Type := (i : Fin n) → Fin (dom i)

/-- `class IntPFmla`, src/pfmla.hh:455-469: variables, domain sizes, and the table of values indexed by
the states of these variables. -/
structure IntFmla (n : ℕ) where
  ctx : Bool
  vbls : List (Fin n)
  doms : List ℕ
  stateMap : List ℤ
  deriving DecidableEq, Repr

variable {n : ℕ} {dom : Fin n → ℕ}

/-- `IntPFmla(const PFmlaVbl&)`, src/pfmla.hh:473-482. -/
def IntFmla.ofVbl (dom : Fin n → ℕ) (v : Fin n) : IntFmla n where
  ctx := true
  vbls := [v]
  doms := [dom v]
  stateMap := (List.range (dom v)).map Int.ofNat

/-- `IntPFmla(int)`, src/pfmla.hh:484-488. -/
def IntFmla.ofInt (x : ℤ) : IntFmla n where
  ctx := false
  vbls := []
  doms := []
  stateMap := [x]

/-- `IntPFmla(int mul, int add, uint n)`, src/pfmla.hh:490-498: a set of numbers. -/
def IntFmla.ofSet (mul add : ℤ) (k : ℕ) : IntFmla n where
  ctx := false
  vbls := []
  doms := [k]
  stateMap := (List.range k).map fun i : ℕ => mul * (add + (i : ℤ))

/-- `Table::add_domain(k)` (library function, assumed): each entry is repeated `k` times, that is,
the table gets a new least significant digit. -/
def addDomain (l : List ℤ) (k : ℕ) : List ℤ := l.flatMap fun x => List.replicate k x

/-- The loop over the variables of `b` in `intmap_init_op`, src/pfmla.cc:233-248.  `vblMap` is filled
from the front. -/
def initVbls : List (Fin n × ℕ) → List ℕ × IntFmla n → List ℕ × IntFmla n
  | [], st => st
  | (v, d) :: rest, (vblMap, a) =>
    if v ∈ a.vbls then
      initVbls rest (vblMap ++ [a.vbls.idxOf v], a)
    else
      initVbls rest (vblMap ++ [a.vbls.length],
        ⟨a.ctx, a.vbls ++ [v], a.doms ++ [d], addDomain a.stateMap d⟩)

/-- `intmap_init_op`, src/pfmla.cc:204-249. -/
def initOp (a b : IntFmla n) : Option (List ℕ × IntFmla n) :=
  if a.stateMap.length = 0 ∨ b.stateMap.length = 0 then none
  else if a.vbls = [] ∧ b.vbls = [] then
    if a.ctx ∨ b.ctx then none
    else some ([], ⟨a.ctx, a.vbls, a.doms ++ b.doms, addDomain a.stateMap b.stateMap.length⟩)
  else if a.vbls.length ≠ a.doms.length ∨ b.vbls.length ≠ b.doms.length then none
  else if ¬ (a.ctx ∨ b.ctx) then none
  else some (initVbls (b.vbls.zip b.doms) ([], ⟨a.ctx || b.ctx, a.vbls, a.doms, a.stateMap⟩))

/-- `intmap_coerce_lookup`, src/pfmla.cc:251-271: the value of `b` at the state with number `idx` of
the variables of `a`. -/
def coerceLookup (a b : IntFmla n) (idx : ℕ) (vblMap : List ℕ) : Option ℤ :=
  if a.vbls = [] then b.stateMap[idx % b.stateMap.length]?
  else
    let stA := stateOfIndex idx a.doms
    match (List.range b.doms.length).mapM fun j => vblMap[j]?.bind fun k => stA[k]? with
    | none => none
    | some stB => b.stateMap[indexOfState stB b.doms]?

/-- `IntPFmla::negate`, src/pfmla.cc:273-281. -/
def IntFmla.negate (a : IntFmla n) : IntFmla n where
  ctx := a.ctx
  vbls := a.vbls
  doms := a.doms
  stateMap := a.stateMap.map fun x => - x

/-- `enum BinIntOp`, src/pfmla.hh:458-464. -/
inductive IntOp where
  | add | sub | mul | div | mod | pow | min | max
  deriving DecidableEq, Repr

/-- The bodies of the loops in `defeq_binop`, src/pfmla.cc:297-357.  Division truncates; `umod_int`
(library function, assumed) is the nonnegative remainder; the power is computed by repeated
multiplication. -/
def IntOp.eval (op : IntOp) (x y : ℤ) : Option ℤ :=
  match op with
  | .add => some (x + y)
  | .sub => some (x - y)
  | .mul => some (x * y)
  | .div => if y = 0 then none else some (x.tdiv y)
  | .mod => if y ≤ 0 then none else some (x.emod y)
  | .pow => if y < 0 then none else some ((fun v => v * x)^[y.toNat] 1)
  | .min => some (if y < x then y else x)
  | .max => some (if y > x then y else x)

/-- `IntPFmla::defeq_binop`, src/pfmla.cc:283-366. -/
def IntFmla.binop (op : IntOp) (a b : IntFmla n) : Option (IntFmla n) :=
  match initOp a b with
  | none => none
  | some (vblMap, a1) =>
    match (List.range a1.stateMap.length).mapM fun idx =>
        a1.stateMap[idx]?.bind fun x => (coerceLookup a1 b idx vblMap).bind fun y => op.eval x y with
    | none => none
    | some m => some ⟨a1.ctx, a1.vbls, a1.doms, m⟩

/-- `PFmla::of_state`, src/pfmla.cc:168-178. -/
def ofState (dom : Fin n → ℕ) (st : List ℕ) (vbls : List (Fin n)) : Finset (FSt n dom) :=
  (st.zip vbls).foldl (fun conj p => conj ∩ Finset.univ.filter fun s => (s p.2).val = p.1) Finset.univ

/-- `IntPFmla::cmp`, src/pfmla.cc:369-400. -/
def IntFmla.cmp (dom : Fin n → ℕ) (lt eq gt : Bool) (a b : IntFmla n) : Option (Finset (FSt n dom)) :=
  if a.vbls = [] ∧ b.vbls = [] ∧ (a.stateMap.length ≠ 1 ∨ b.stateMap.length ≠ 1) then none
  else match initOp a b with
  | none => none
  | some (vblMap, a1) =>
    (List.range a1.stateMap.length).foldlM (fun disj idx =>
      a1.stateMap[idx]?.bind fun x => (coerceLookup a1 b idx vblMap).bind fun y =>
        some (if (lt ∧ x < y) ∨ (eq ∧ x = y) ∨ (gt ∧ x > y)
          then disj ∪ ofState dom (stateOfIndex idx a1.doms) a1.vbls else disj)) ∅

/-! ### `img_eq` -/

/-- `inverse[key].push(i)` for a `Map< int, Table<luint> >`: a sorted list of keys with tables. -/
def mapPush (key : ℤ) (i : ℕ) : List (ℤ × List ℕ) → List (ℤ × List ℕ)
  | [] => [(key, [i])]
  | (k, l) :: m =>
    if key < k then (key, [i]) :: (k, l) :: m
    else if k < key then (k, l) :: mapPush key i m
    else (k, l ++ [i]) :: m

/-- The loops that fill `inverse_a` and `inverse_b`, src/pfmla.cc:412-417. -/
def inverseMap (l : List ℤ) : List (ℤ × List ℕ) :=
  l.zipIdx.foldl (fun m p => mapPush p.1 p.2 m) []

/-- `Map::lower_bound`. -/
def lowerBound (m : List (ℤ × List ℕ)) (key : ℤ) : List (ℤ × List ℕ) :=
  m.dropWhile fun p => p.1 < key

/-- The disjunction over the states of one key, src/pfmla.cc:441-444 and 445-448. -/
def statesOfIdcs (dom : Fin n → ℕ) (f : IntFmla n) (idcs : List ℕ) : Finset (FSt n dom) :=
  idcs.foldl (fun disj i => disj ∪ ofState dom (stateOfIndex i f.doms) f.vbls) ∅

/-- The loop of `img_eq`, src/pfmla.cc:426-452; iterators are the remaining parts of the maps. -/
def imgEqBody (dom : Fin n → ℕ) (a b : IntFmla n) (invA invB : List (ℤ × List ℕ))
    (st : List (ℤ × List ℕ) × List (ℤ × List ℕ) × Finset (FSt n dom × FSt n dom)) :
    Finset (FSt n dom × FSt n dom) ⊕
      (List (ℤ × List ℕ) × List (ℤ × List ℕ) × Finset (FSt n dom × FSt n dom)) :=
  match st with
  | ((ka, ia) :: ta, (kb, ib) :: tb, disj) =>
    if ka < kb then .inr (lowerBound invA kb, (kb, ib) :: tb, disj)
    else if kb < ka then .inr ((ka, ia) :: ta, lowerBound invB ka, disj)
    else .inr (ta, tb, disj ∪ statesOfIdcs dom b ib ×ˢ statesOfIdcs dom a ia)
  | (_, _, disj) => .inl disj

/-- `IntPFmla::img_eq`, src/pfmla.cc:402-455: pairs of states; `a` is evaluated in the second one.
`state_of_index` writes as many entries as there are domains into tables with one entry per variable
(lines 421-422, 442, 446). -/
def IntFmla.imgEq (dom : Fin n → ℕ) (fuel : ℕ) (a b : IntFmla n) :
    Option (Finset (FSt n dom × FSt n dom)) :=
  if a.vbls = [] then
    match a.cmp dom false true false b with
    | none => none
    | some p => some (p ×ˢ Finset.univ)
  else if a.vbls.length ≠ a.doms.length ∨ b.vbls.length ≠ b.doms.length then none
  else
    match inverseMap b.stateMap with
    | [] => none
    | (kb, ib) :: tb =>
      loopFuel (imgEqBody dom a b (inverseMap a.stateMap) ((kb, ib) :: tb)) fuel
        (lowerBound (inverseMap a.stateMap) kb, (kb, ib) :: tb, ∅)

end Verif.Model
