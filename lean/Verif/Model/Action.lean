import Verif.Model.Grammar
import Verif.Model.Sync

/-!
Model of the text of actions: the rules for actions of src/prot-xfile.leg:86-126, the writing of actions,
src/prot-ofile.cc:110-267, and the evaluation of an action for one process, `parse_action`,
src/prot-xfile.cc:359-539.
-/

namespace Verif.Model

/-! ### Reading -/

/-- The assignments of an action, src/prot-xfile.leg:93-105. -/
inductive Asg where
  /-- `(:= v e)` -/
  | set (v e : Ex)
  /-- `(:= v (wild))` -/
  | rand (v : Ex)
  /-- `(:= (wild) (wild))` -/
  | wildAll
  /-- `(wild)` -/
  | wild
  deriving DecidableEq, Repr

/-- The tree of an action; `actto` for the arrow `-=>`. -/
structure ActTree where
  actto : Bool
  guard : Ex
  asgs : List Asg
  deriving DecidableEq, Repr

/-- `DEFEQ`, src/prot-xfile.leg:690. -/
def defeqP (s : List Char) : Option (List Char) := (lit ":=" (ows s)).map ows

/-- One assignment, without `END_STMT`, src/prot-xfile.leg:93-105. -/
def asgP (isPred : String → Bool) (k : ℕ) (s : List Char) : Option (Option (Asg × List Char)) :=
  match parse isPred k .vref s with
  | none => none
  | some (some (v, r)) =>
    match defeqP r with
    | none => some (some (.set v.1 v.1, r))
    | some r1 =>
      match lit "_" r1 with
      | some r2 => some (some (.rand v.1, r2))
      | none =>
        match parse isPred k .expr r1 with
        | none => none
        | some none => some (some (.set v.1 v.1, r))
        | some (some (e, r2)) => some (some (.set v.1 e.1, r2))
  | some none =>
    match lit "_" s with
    | none => some none
    | some r =>
      match (defeqP r).bind (lit "_") with
      | some r1 => some (some (.wildAll, r1))
      | none => some (some (.wild, r))

/-- The assignments, src/prot-xfile.leg:93-107. -/
def asgsP (isPred : String → Bool) (k : ℕ) : ℕ → List Asg → List Char → Option (List Asg × List Char)
  | 0, _, _ => none
  | m + 1, acc, s =>
    match asgP isPred k s with
    | none => none
    | some none => some (acc, s)
    | some (some (a, r)) =>
      match lit ";" (ows r) with
      | none => some (acc, s)
      | some r1 => asgsP isPred k m (acc ++ [a]) (ows r1)

/-- `ActionExpr`, src/prot-xfile.leg:86-110. -/
def actP (isPred : String → Bool) (k : ℕ) (s : List Char) : Option (Option (ActTree × List Char)) :=
  match lit "(" s with
  | none => some none
  | some r =>
    match parse isPred k .expr (ows r) with
    | none => none
    | some none => some none
    | some (some (g, r)) =>
      match firstLit [("-->", false), ("-=>", true)] (ows r) with
      | none => some none
      | some (o, r) =>
        match asgsP isPred k k [] (ows r) with
        | none => none
        | some (l, r) =>
          match lit ")" r with
          | none => some none
          | some r => some (some (⟨o, g.1, l⟩, r))

/-- The repetition `( ActionExpr WS? (',' WS?)? )*`, src/prot-xfile.leg:124. -/
def actsP (isPred : String → Bool) (k : ℕ) : ℕ → List ActTree → List Char →
    Option (List ActTree × List Char)
  | 0, _, _ => none
  | m + 1, acc, s =>
    match actP isPred k s with
    | none => none
    | some none => some (acc, s)
    | some (some (a, r)) =>
      actsP isPred k m (acc ++ [a]) (match lit "," (ows r) with
        | some r1 => ows r1
        | none => ows r)

/-- The form `puppet:` of `PuppetActionDef`, src/prot-xfile.leg:122-126. -/
def puppetP (isPred : String → Bool) (k : ℕ) (s : List Char) : Option (Option (List ActTree × List Char)) :=
  match lit "puppet:" s with
  | none => some none
  | some r =>
    match actsP isPred k k [] (ows r) with
    | none => none
    | some (l, r) =>
      match lit ";" (ows r) with
      | none => some none
      | some r => some (some (l, r))

/-! ### Writing -/

/-- The read variables of an action: number of the access, access, `guard`. -/
def readList (pc : PcSymm) (vals : List ℕ) : Option (List (ℕ × Access × ℕ)) :=
  (List.range pc.access.length).mapM fun r =>
    (pc.access[r]?).bind fun acc => (vals[r]?).map fun g => (r, acc, g)

/-- The written variables of an action: number of the access, access, `aguard`, `assign`. -/
def writeList (pc : PcSymm) (vals : List ℕ) : Option (List (ℕ × Access × ℕ × ℕ)) :=
  pc.wmap.zipIdx.mapM fun e =>
    (pc.access[e.1]?).bind fun acc => (vals[e.1]?).bind fun g =>
      (vals[pc.access.length + e.2]?).map fun a => (e.1, acc, g, a)

/-- `puppet_self_loop_ck`, src/xnpc.cc:7-25. -/
def puppetSelfLoop (ws : List (ℕ × Access × ℕ × ℕ)) : Bool :=
  ws.all fun w =>
    if w.2.1.syntWriteonlyCk then !(w.2.1.puppetCk && w.2.2.2 != w.2.1.domsz)
    else w.2.2.1 == w.2.2.2 && !w.2.1.randomWriteCk

/-- The written variables that are mentioned, src/prot-ofile.cc:190-195. -/
def mentioned (ws : List (ℕ × Access × ℕ × ℕ)) : List (ℕ × Access × ℕ × ℕ) :=
  ws.filter fun w => !(puppetSelfLoop ws && !w.2.1.pureShadowCk) && w.2.1.domsz != w.2.2.2

/-- Texts separated by ` && `. -/
def joinAnd : List (List Char) → List Char
  | [] => []
  | [a] => a
  | a :: l => a ++ " && ".toList ++ joinAnd l

/-- `oput_protocon_pc_act (OFile&, const Xn::ActSymm&)`, src/prot-ofile.cc:170-203, without the line
break at the beginning; `name` gives `vbl_name(i)`. -/
def actText (pc : PcSymm) (name : ℕ → List Char) (vals : List ℕ) : Option (List Char) :=
  match readList pc vals, writeList pc vals with
  | some rs, some ws =>
    some ("( ".toList ++
      joinAnd ((rs.filter fun r => r.2.1.syntReadCk).map fun r =>
        name r.1 ++ "==".toList ++ Nat.toDigits 10 r.2.2) ++
      " --> ".toList ++
      ((mentioned ws).flatMap fun w => name w.1 ++ ":=".toList ++
        (if w.2.1.randomWriteCk then "_".toList else Nat.toDigits 10 w.2.2.2) ++ "; ".toList) ++
      ")".toList)
  | _, _ => none

/-- The section `puppet:` of a process written without espresso, src/prot-ofile.cc:237-267 (left out if
there are no actions). -/
def puppetText (pc : PcSymm) (name : ℕ → List Char) (acts : List (List ℕ)) : Option (List Char) :=
  (acts.mapM (actText pc name)).map fun l =>
    if l = [] then [] else
      "\n  puppet:".toList ++ (l.flatMap fun t => "\n    ".toList ++ t) ++ "\n    ;".toList

/-! ### Meaning -/

variable {n : ℕ} {dom : Fin n → ℕ}

/-- `lookup_vbl`, src/prot-xfile.cc:1637-1672. -/
def lookupVbl (env : EvalEnv n dom) (k : ℕ) (ρ : IMap) (x : String) (i : Ex) : Option (Fin n × IMap) :=
  match evalI env k ρ i with
  | none => none
  | some (f, ρ1) =>
    match single f with
    | none => none
    | some m =>
      match env.vbls x with
      | none => none
      | some membs =>
        match umodGet membs m with
        | none => none
        | some v => if readable env v then some (v, ρ1) else none

/-- The variables of the loop over the assignments, src/prot-xfile.cc:381-389; `assigned` holds the
positions in `wvbls` whose bit in `wvbl_assigned` is set. -/
structure AsgSt (n : ℕ) (dom : Fin n → ℕ) where
  xn : Finset (FSt n dom × FSt n dom)
  ρ : IMap
  assigned : List ℕ
  autoIden : Bool
  allWild : Bool
  rmLoops : Bool

/-- The process and its environment. -/
structure RdPc (n : ℕ) (dom : Fin n → ℕ) where
  env : EvalEnv n dom
  pc : SPc (Fin n) dom
  /-- `random_ck` -/
  random : Fin n → Bool
  /-- the transitions that `-=>` removes, src/prot-xfile.cc:497-527 (not modelled) -/
  cyc : Finset (FSt n dom × FSt n dom) → Finset (FSt n dom × FSt n dom)

/-- The lookup of the variable and the search for it in `wvbls`, src/prot-xfile.cc:413-450. -/
def findW (c : RdPc n dom) (k : ℕ) (ρ : IMap) (v : Ex) : Option (Fin n × ℕ × IMap) :=
  match v with
  | .aref x i =>
    match lookupVbl c.env k ρ x i with
    | none => none
    | some (v, ρ1) => (c.pc.wvbls.findIdx? (· = v)).map fun j => (v, j, ρ1)
  | _ => none

/-- Marking the variable, src/prot-xfile.cc:440-447. -/
def markW (c : RdPc n dom) (st : AsgSt n dom) (j : ℕ) (ρ : IMap) : AsgSt n dom :=
  { st with
    ρ := ρ
    assigned := j :: st.assigned
    rmLoops := st.rmLoops ||
      (((c.pc.spec.wmap[j]?).bind fun r => c.pc.spec.access[r]?).map Access.syntWriteonlyCk).getD false }

/-- The pairs whose first state is one of a transition. -/
def preXn (xn : Finset (FSt n dom × FSt n dom)) : Finset (FSt n dom × FSt n dom) :=
  xn.image Prod.fst ×ˢ Finset.univ

/-- One assignment, src/prot-xfile.cc:390-462. -/
def asgStep (c : RdPc n dom) (k : ℕ) (st : AsgSt n dom) : Asg → Option (AsgSt n dom)
  | .wild => some { st with autoIden := true }
  | .wildAll => some { st with allWild := true }
  | .rand v =>
    match findW c k st.ρ v with
    | none => none
    | some (_, j, ρ1) =>
      let st := markW c st j ρ1
      some (if st.allWild then { st with xn := preXn st.xn } else st)
  | .set v e =>
    match findW c k st.ρ v with
    | none => none
    | some (v, j, ρ1) =>
      match evalI c.env k ρ1 e with
      | none => none
      | some (f, ρ2) =>
        let st := markW c st j ρ2
        if st.allWild then some { st with xn := preXn st.xn }
        else
          match f.binop .mod (.ofInt (dom v)) with
          | none => none
          | some g =>
            match (IntFmla.ofVbl dom v).imgEq dom k g with
            | none => none
            | some x => some { st with xn := st.xn ∩ x }

/-- The assignments in order. -/
def asgLoop (c : RdPc n dom) (k : ℕ) : List Asg → AsgSt n dom → Option (AsgSt n dom)
  | [], st => some st
  | a :: l, st =>
    match asgStep c k st a with
    | none => none
    | some st => asgLoop c k l st

/-- `smooth_pre`: the variable is arbitrary in the first state. -/
def smoothPreV (v : Fin n) (xn : Finset (FSt n dom × FSt n dom)) : Finset (FSt n dom × FSt n dom) :=
  Finset.univ.filter fun e => ∃ a, (Function.update e.1 v a, e.2) ∈ xn

/-- Variables that keep their values, src/prot-xfile.cc:464-483. -/
def idenXn (c : RdPc n dom) (actto : Bool) (st : AsgSt n dom) : Finset (FSt n dom × FSt n dom) :=
  c.pc.wvbls.zipIdx.foldl (fun xn e =>
    if st.autoIden && !(st.allWild || st.assigned.contains e.2 ||
        (actto && (((c.pc.spec.wmap[e.2]?).bind fun r => c.pc.spec.access[r]?).map
          Access.randomWriteCk).getD false))
    then xn ∩ Finset.univ.filter fun p => p.2 e.1 = p.1 e.1 else xn) st.xn

/-- `parse_action`, src/prot-xfile.cc:359-539; `ρ` is `index_map` within the process. -/
def parseAction (c : RdPc n dom) (k : ℕ) (ρ : IMap) (t : ActTree) (autoIden : Bool) :
    Option (Finset (FSt n dom × FSt n dom)) :=
  match evalP c.env k ρ t.guard with
  | none => none
  | some (guard, ρ1) =>
    match asgLoop c k t.asgs ⟨guard ×ˢ Finset.univ, ρ1, [], autoIden, false, false⟩ with
    | none => none
    | some st =>
      let xn := idenXn c t.actto st
      let xn := c.pc.rvbls.foldl (fun xn v =>
        if c.random v then (guard ×ˢ Finset.univ) ∩ smoothPreV v xn else xn) xn
      let xn := if t.actto then xn \ c.cyc xn else xn
      some (if st.rmLoops then xn \ Finset.univ.filter fun p => ∀ v ∈ c.pc.wvbls, p.2 v = p.1 v else xn)

end Verif.Model
