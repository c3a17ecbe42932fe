import Verif.Model.Action

/-!
Model of the way from transitions back to actions: `Pc::actions` and `PcSymm::actions`,
src/xnpc.cc:97-133, 168-283, and the collection of the transitions of a process by `add_action`,
src/prot-xfile.cc:558-604.

Formulas are sets of states or of pairs of states.  Which state a formula gives (`state`) is a parameter.
The table `spec->access` and the variables `rvbls` have the same length (`add_access`).
-/

set_option linter.unusedSectionVars false

namespace Verif.Model

variable {V : Type} [Fintype V] [DecidableEq V] {dom : V → ℕ}

/-- `pfmla_of_state`: the states with the given values. -/
def cylinder (vs : List V) (vals : List ℕ) : Finset (VSt V dom) :=
  Finset.univ.filter fun s => ∀ e ∈ vs.zip vals, (s e.1).val = e.2

/-- `smooth`: the variable becomes arbitrary. -/
def smoothSt (v : V) (P : Finset (VSt V dom)) : Finset (VSt V dom) :=
  Finset.univ.filter fun s => ∃ a, Function.update s v a ∈ P

/-- A process with `puppet_xn` and `closed_assume`, src/xnpc.hh. -/
structure PcXn (V : Type) (dom : V → ℕ) where
  pc : SPc V dom
  puppet : Finset (VSt V dom × VSt V dom)
  closed : Finset (VSt V dom)

/-- The choices of `state`: a first state of some transition, and some state. -/
structure Picker (V : Type) (dom : V → ℕ) where
  pre : Finset (VSt V dom × VSt V dom) → Option (VSt V dom)
  img : Finset (VSt V dom) → Option (VSt V dom)

/-- The written variables with `waccess`. -/
def SPc.wpairs (pc : SPc V dom) : List (V × Access) :=
  pc.spec.wmap.filterMap fun r => (pc.rvbls[r]?).bind fun v => (pc.spec.access[r]?).map fun a => (v, a)

/-- The body of the loop at src/xnpc.cc:221-236: if any value of the variable will do, it is not
assigned. -/
def keepStep (img : Finset (VSt V dom)) (st : Finset (VSt V dom) × List ℕ) (e : (V × Access) × ℕ) :
    Finset (VSt V dom) × List ℕ :=
  if e.1.2.wdomsz = e.1.2.domsz + 1 then
    if smoothSt e.1.1 st.1 ⊆ img then (smoothSt e.1.1 st.1, st.2.set e.2 e.1.2.domsz) else st
  else st

/-- The loop `while (img_pf.sat_ck())`, src/xnpc.cc:216-242; `pre` holds the values of the guard. -/
def imgLoop (pk : Picker V dom) (pc : SPc V dom) (pre : List ℕ) :
    ℕ → Finset (VSt V dom) → List (List ℕ) → Option (List (List ℕ))
  | 0, _, _ => none
  | k + 1, img, acc =>
    if img = ∅ then some acc
    else
      match pk.img img with
      | none => none
      | some t =>
        let vals := pc.wvbls.map fun v => (t v).val
        let r := pc.wpairs.zipIdx.foldl (keepStep img) (cylinder pc.wvbls vals, vals)
        imgLoop pk pc pre k (img \ r.1) (acc ++ [pre ++ r.2])

/-- `pre_pf` after the loop at src/xnpc.cc:194-206. -/
def preSet (pc : SPc V dom) (s : VSt V dom) : Finset (VSt V dom) :=
  (pc.rvbls.zip pc.spec.access).foldl
    (fun P e => if e.2.syntReadCk then P else smoothSt e.1 P)
    (cylinder pc.rvbls (pc.rvbls.map fun v => (s v).val))

/-- `pre_state` after the loop at src/xnpc.cc:194-206. -/
def preVals (pc : SPc V dom) (s : VSt V dom) : List ℕ :=
  (pc.rvbls.zip pc.spec.access).map fun e => if e.2.syntReadCk then (s e.1).val else 0

/-- `img_pf`, src/xnpc.cc:208-214. -/
def imgSet (pc : SPc V dom) (xn : Finset (VSt V dom × VSt V dom)) (pre : Finset (VSt V dom)) :
    Finset (VSt V dom) :=
  (pc.rvbls.zip pc.spec.access).foldl
    (fun P e => if e.2.randomWriteCk then (smoothSt e.1 P).filter fun s => (s e.1).val = 0 else P)
    ((xn.filter fun e => e.1 ∈ pre).image Prod.snd)

/-- The loop `while (xn.sat_ck())`, src/xnpc.cc:188-244. -/
def preLoop (pk : Picker V dom) (pc : SPc V dom) :
    ℕ → Finset (VSt V dom × VSt V dom) → List (List ℕ) → Option (List (List ℕ))
  | 0, _, _ => none
  | k + 1, xn, acc =>
    if xn = ∅ then some acc
    else
      match pk.pre xn with
      | none => none
      | some s =>
        let img := imgSet pc xn (preSet pc s)
        match imgLoop pk pc (preVals pc s) (img.card + 1) img acc with
        | none => none
        | some acc => preLoop pk pc k (xn.filter fun e => e.1 ∉ preSet pc s) acc

/-- `Pc::actions`, src/xnpc.cc:168-245: the values of the actions in the order in which they are pushed.
Each round removes something, so that the numbers of rounds given are enough. -/
def pcActions (pk : Picker V dom) (p : PcXn V dom) : Option (List (List ℕ)) :=
  let xn := p.puppet.filter fun e => e.1 ∈ p.closed
  preLoop pk p.pc (xn.card + 1) xn []

/-- `init_representative`, src/xnpc.cc:97-123: the first process whose variables are distinct. -/
def representativePc (membs : List (PcXn V dom)) : Option (PcXn V dom) :=
  membs.find? fun p => decide p.pc.rvbls.Nodup && decide p.pc.wvbls.Nodup

/-- `PcSymm::actions`, src/xnpc.cc:247-272: the numbers of the actions. -/
def symmActions (pk : Picker V dom) (c : PcComm) (membs : List (PcXn V dom)) : Option (Finset ℕ) :=
  let l : Option (List (List ℕ)) := match representativePc membs with
    | some p => pcActions pk p
    | none => (membs.mapM (pcActions pk)).map List.flatten
  l.map fun l => (l.map (actId c)).toFinset

/-- What `add_action` does to `puppet_xn` of one process, src/prot-xfile.cc:574-600 (role `puppet` or
`direct`), for several actions in order; `scc` gives the states on cycles. -/
def addActions {n : ℕ} {dom : Fin n → ℕ} (c : RdPc n dom) (k : ℕ) (ρ : IMap)
    (scc : Finset (FSt n dom × FSt n dom) → Finset (FSt n dom)) :
    List ActTree → Finset (FSt n dom × FSt n dom) → Option (Finset (FSt n dom × FSt n dom))
  | [], xn => some xn
  | T :: l, xn =>
    match parseAction c k ρ T true with
    | none => none
    | some P =>
      let xn := xn ∪ P
      addActions c k ρ scc l
        (if c.pc.spec.access.any Access.syntWriteonlyCk && !c.pc.spec.access.any Access.randomWriteCk
          then xn.filter fun e => e.1 ∉ scc xn else xn)

end Verif.Model
