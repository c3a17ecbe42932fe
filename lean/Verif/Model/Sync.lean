import Verif.Model.Index
import Verif.Model.Sym
import Verif.Model.Conflict
import Mathlib.Data.Fintype.Pi

/-!
Model of the transition formulas of single processes and of the synchronous relation,
src/xnsys.cc:825-970.

A formula over variables and their primed copies is a set of pairs of states.  Which process symmetry
and which values belong to an action number (`Net::action`) and which actions an action represents
are parameters here (see `Model/Index` for the numbering).  Failed `Claim`s, `failout_sysCx` and
accesses outside a table are the result `none`.
-/

set_option linter.unusedSectionVars false

namespace Verif.Model

/-- States: a value for each variable. -/
abbrev VSt (V : Type) (dom : V → ℕ) : Type := (v : V) → Fin (dom v)

/-- A process, src/xnpc.hh `Pc`: the number of its symmetry, the accesses of its symmetry, the variables
they refer to (`rvbls`), and what random processes may do (`okay_xn`, src/xnsys.cc:934-941). -/
structure SPc (V : Type) (dom : V → ℕ) where
  symm : ℕ
  spec : PcSymm
  rvbls : List V
  okay : Finset (VSt V dom × VSt V dom)

/-- The parts of `Net` used here. -/
structure SNet (V : Type) (dom : V → ℕ) where
  pcs : List (SPc V dom)
  /-- `Net::action`: symmetry and values of an action number -/
  action : ℕ → Option (ℕ × List ℕ)
  /-- `represented_actions` -/
  represented : ℕ → List ℕ
  /-- `identity_xn` -/
  ident : Finset (VSt V dom × VSt V dom)

/-- `synt_readonly_ck`, src/xnspec.hh:259-261. -/
def Access.syntReadonlyCk (a : Access) : Bool := a.syntReadCk && !a.writeCk

/-- `synt_writeonly_ck`, src/xnspec.hh:262-264. -/
def Access.syntWriteonlyCk (a : Access) : Bool := !a.syntReadCk && a.writeCk

variable {V : Type} [Fintype V] [DecidableEq V] {dom : V → ℕ}

/-- `pc.wvbls`, filled together with `spec->wmap` by `add_access`, src/xnsys.cc:241-260. -/
def SPc.wvbls (pc : SPc V dom) : List V := pc.spec.wmap.filterMap fun r => pc.rvbls[r]?

/-- What the loops of `xn_of_pc` use of a written variable: the variable, its access, `aguard(i)` and
`assign(i)` (src/xnpc.hh:261-262). -/
structure WEnt (V : Type) where
  v : V
  acc : Access
  aguard : ℕ
  assign : ℕ

/-- The written variables of an action. -/
def SPc.wEnts (pc : SPc V dom) (vals : List ℕ) : Option (List (WEnt V)) :=
  pc.spec.wmap.zipIdx.mapM fun e =>
    (pc.rvbls[e.1]?).bind fun v => (pc.spec.access[e.1]?).bind fun acc =>
      (vals[e.1]?).bind fun g => (vals[pc.spec.access.length + e.2]?).map fun a => ⟨v, acc, g, a⟩

/-- The read variables of an action, with `guard(i)`. -/
def SPc.rEnts (pc : SPc V dom) (vals : List ℕ) : Option (List (V × Access × ℕ)) :=
  (List.range pc.spec.access.length).mapM fun r =>
    (pc.rvbls[r]?).bind fun v => (pc.spec.access[r]?).bind fun acc =>
      (vals[r]?).map fun g => (v, acc, g)

/-- The part of the formula for one written variable, src/xnsys.cc:914-932. -/
def wPart (w : WEnt V) : Finset (VSt V dom × VSt V dom) :=
  (if w.acc.syntReadCk then Finset.univ.filter fun e => (e.1 w.v).val = w.aguard else Finset.univ) ∩
  (if w.acc.randomWriteCk then Finset.univ
    else if w.assign = w.acc.domsz then Finset.univ.filter fun e => e.2 w.v = e.1 w.v
    else Finset.univ.filter fun e => (e.2 w.v).val = w.assign % dom w.v)

/-- `xn_of_pc`, src/xnsys.cc:895-970. -/
def xnOfPc (pc : SPc V dom) (vals : List ℕ) : Option (Finset (VSt V dom × VSt V dom)) :=
  match pc.wEnts vals, pc.rEnts vals with
  | some ws, some rs =>
    -- the `Claim` at line 926
    if ∀ w ∈ ws, w.acc.randomWriteCk = false → w.assign = w.acc.domsz → w.acc.syntWriteonlyCk then
      let xn := ws.foldl (fun xn w => xn ∩ wPart w) Finset.univ
      let probabilistic := ws.any fun w => w.acc.syntReadCk && w.acc.randomWriteCk
      let xn := if probabilistic then xn ∩ pc.okay else xn
      let readableSelfLoop := !probabilistic && ws.all fun w =>
        !(w.acc.syntReadCk && !w.acc.randomWriteCk && w.aguard != w.assign)
      let xn := if readableSelfLoop then
          xn ∩ ws.foldl (fun g w =>
            if w.acc.syntWriteonlyCk && decide (w.assign < w.acc.domsz)
            then g ∪ Finset.univ.filter fun e => (e.1 w.v).val ≠ w.assign else g) ∅
        else xn
      some (rs.foldl (fun xn r => if r.2.1.syntReadonlyCk
        then xn ∩ Finset.univ.filter fun e => (e.1 r.1).val = r.2.2 else xn) xn)
    else none
  | _, _ => none

/-- `xfmlae[pcidx]` after the loop at src/xnsys.cc:840-848 over the actions `all`.  The loop over the
members of the action's symmetry is turned inside out: an action is added to each process of its
symmetry. -/
def pcXn (net : SNet V dom) (pc : SPc V dom) : List ℕ → Finset (VSt V dom × VSt V dom) →
    Option (Finset (VSt V dom × VSt V dom))
  | [], xn => some xn
  | a :: l, xn =>
    match net.action a with
    | none => none
    | some (k, vals) =>
      if pc.symm = k then
        match xnOfPc pc vals with
        | none => none
        | some x => pcXn net pc l (xn ∪ x)
      else pcXn net pc l xn

/-- The body of the loop at src/xnsys.cc:853-873 for one process: `self_loop | xfmlae[pcidx]`. -/
def pcPart (full : Bool) (wvbls : List V) (x : Finset (VSt V dom × VSt V dom)) :
    Finset (VSt V dom × VSt V dom) :=
  let loop := wvbls.foldl (fun l v => l ∩ Finset.univ.filter fun e => e.2 v = e.1 v) Finset.univ
  (if full then loop.filter fun e => e.1 ∉ x.image Prod.fst else loop) ∪ x

/-- The loop at src/xnsys.cc:853-873; the set holds the variables written so far. -/
def syncLoop (net : SNet V dom) (full : Bool) (all : List ℕ) : List (SPc V dom) →
    Finset V → Finset (VSt V dom × VSt V dom) → Option (Finset V × Finset (VSt V dom × VSt V dom))
  | [], written, xn => some (written, xn)
  | pc :: l, written, xn =>
    if pc.wvbls.Nodup ∧ ∀ v ∈ pc.wvbls, v ∉ written then
      match pcXn net pc all ∅ with
      | none => none
      | some x => syncLoop net full all l (written ∪ pc.wvbls.toFinset) (xn ∩ pcPart full pc.wvbls x)
    else none

/-- `Net::sync_xn`, src/xnsys.cc:825-884. -/
def syncXn (net : SNet V dom) (actidcs : List ℕ) (full : Bool) :
    Option (Finset (VSt V dom × VSt V dom)) :=
  let all := arr (actidcs.flatMap net.represented).toFinset
  match syncLoop net full all net.pcs ∅ Finset.univ with
  | none => none
  | some (written, xn) =>
    some ((xn.filter fun e => ∀ v, v ∉ written → e.2 v = e.1 v) \ net.ident)

end Verif.Model
