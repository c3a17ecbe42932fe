import Mathlib.Data.List.Range
import Mathlib.Data.Int.Order.Basic

/-!
Model of how the instances of a parameterized system are enumerated, src/opt.cc:191-207 (ranges) and src/opt.cc:236-272
(`push_instances`).

The expression of a value (`NatMap::expression`) is represented by the numbers that are written in it.  A map of
constants is the list of its entries in the order of their keys, which differ.  Of `ProtoconParamOpt` only the map of
constants is modelled; the rest is copied.
-/

namespace Verif.Model

/-- `NatMap`, src/xnspec.hh:67-71. -/
structure ParamVal where
  membs : List ℤ
  expr : List ℤ
  scalar : Bool
  deriving DecidableEq, Repr

/-- `NatMap::operator=(int)`, src/xnspec.hh:81-87. -/
def ParamVal.ofInt (v : ℤ) : ParamVal := ⟨[v], [v], true⟩

/-- `constant_map` -/
abbrev ParamMap := List (String × ParamVal)

/-- The loop at src/opt.cc:204-206; `none` means that the fuel does not suffice. -/
def rangeLoop (stop diff : ℤ) : ℕ → ℤ → Option (List ℤ)
  | 0, _ => none
  | fuel + 1, val => if val = stop then some [] else (rangeLoop stop diff fuel (val + diff)).map fun l => val :: l

/-- The values of `begval..endval`, src/opt.cc:202-207. -/
def rangeVals (begval endval : ℤ) : Option (List ℤ) :=
  let diff := if begval < endval then 1 else -1
  rangeLoop (endval + diff) diff ((endval - begval).natAbs + 2) begval

/-- The first instance, src/opt.cc:243-254; `resize(1)` of an empty table gives a zero. -/
def firstVal (t : ParamVal) : ParamVal := if t.scalar then { t with membs := [t.membs.headD 0] } else t

/-- `instance.constant_map[key] = v`, src/opt.cc:266. -/
def setConst (key : String) (v : ℤ) (m : ParamMap) : ParamMap :=
  m.map fun e => if e.1 = key then (e.1, ParamVal.ofInt v) else e

/-- The body of the loop over the parameters, src/opt.cc:258-270; `cur` are the instances from `begidx` on. -/
def pushParam (cur : List ParamMap) (p : String × ParamVal) : List ParamMap :=
  if p.2.scalar then cur ++ (p.2.membs.drop 1).flatMap fun v => cur.map (setConst p.1 v) else cur

/-- `push_instances`, src/opt.cc:236-272. -/
def pushInstances (instances : List ParamMap) (instdef : ParamMap) : List ParamMap :=
  instances ++ instdef.foldl pushParam [instdef.map fun e => (e.1, firstVal e.2)]

end Verif.Model
