import Verif.Spec.Promela
import Verif.Model.Sync

/-!
Model of the writing of Promela models, src/promela.cc, and of `Net::unroll_action`, src/xnsys.cc:414-477.

What is written is a Promela program in the sense of Spec/Promela, not text.  Left out: the definitions of constants,
the declarations and the initialization of the variables, the property (which is to be written by the user), and the
`#define`s.  An index expression is a function of the number of the process among those of its kind; that Promela
evaluates it as this program does is assumed.
-/

set_option linter.unusedSectionVars false

namespace Verif.Model
open Verif.Spec

/-- An access of a kind of processes: its type, the variable, the index expression. -/
structure PmAcc where
  acc : Access
  vbl : ℕ
  expr : ℤ → ℤ

/-- A kind of processes: the number of processes and the accesses. -/
structure PmKind where
  membs : ℕ
  accs : List PmAcc

/-- The written accesses (`wvbl_symms`), in order. -/
def PmKind.waccs (k : PmKind) : List PmAcc := k.accs.filter fun a => a.acc.writeCk

/-- `Xn::ActSymm`, src/xnpc.hh:136-160, 260-266: the number of the kind, and the values of guards and assignments. -/
structure PmAct where
  kind : ℕ
  guards : List ℕ
  assigns : List ℕ
deriving DecidableEq

/-- `random_ck`, src/xnspec.hh:268. -/
def Access.anyRandomCk (a : Access) : Bool := a.type = .randomRead || a.type = .randomWrite

/-- Which read accesses take part, src/xnsys.cc:435-436 (without `include_shadow`). -/
def unrollRead (a : Access) : Bool := !a.pureShadowCk && (a.syntReadCk || a.syntWriteonlyCk)

/-- Which written accesses take part, src/xnsys.cc:446-448 (without `include_shadow`). -/
def unrollWrite (a : Access) : Bool := !a.anyRandomCk && a.writeCk && !a.pureShadowCk

section
variable {σ : Type} [DecidableEq σ]

/-- The guards for a state, src/xnsys.cc:434, 463-465; `rd s a` is the value of the variable of an access. -/
def unrollGuards (k : PmKind) (rd : σ → PmAcc → ℕ) (s : σ) : List ℕ :=
  k.accs.map fun a => if unrollRead a.acc then rd s a else 0

/-- The assignments for a state, src/xnsys.cc:445, 471-473. -/
def unrollAssigns (k : PmKind) (rd : σ → PmAcc → ℕ) (t : σ) : List ℕ :=
  k.waccs.map fun a => if unrollWrite a.acc then rd t a else 0

/-- The inner loop, src/xnsys.cc:467-475.  `pick` is the choice of a state (`state`); `none` is non-termination. -/
def unrollImg (k : PmKind) (rd : σ → PmAcc → ℕ) (pick : Finset σ → Option σ) : ℕ → Finset σ → Option (List (List ℕ))
  | 0, _ => none
  | fuel + 1, S =>
    if S = ∅ then some []
    else
      match pick S with
      | none => none
      | some t =>
        (unrollImg k rd pick fuel (S.filter fun t' => unrollAssigns k rd t' ≠ unrollAssigns k rd t)).map
          (unrollAssigns k rd t :: ·)

/-- The outer loop, src/xnsys.cc:457-476. -/
def unrollPre (c : ℕ) (k : PmKind) (rd : σ → PmAcc → ℕ) (pick : Finset σ → Option σ) :
    ℕ → Finset (σ × σ) → Option (List PmAct)
  | 0, _ => none
  | fuel + 1, X =>
    if X = ∅ then some []
    else
      match pick (X.image Prod.fst) with
      | none => none
      | some s =>
        let img := (X.filter fun e => unrollGuards k rd e.1 = unrollGuards k rd s).image Prod.snd
        match unrollImg k rd pick (img.card + 1) img with
        | none => none
        | some ws =>
          (unrollPre c k rd pick fuel (X.filter fun e => unrollGuards k rd e.1 ≠ unrollGuards k rd s)).map
            (ws.map (fun w => ⟨c, unrollGuards k rd s, w⟩) ++ ·)

/-- `Net::unroll_action`, src/xnsys.cc:414-477, for an action of kind `c`; `rep` tells if there is a
representative process, `xn` is its `represented_xns_of_pc`, `assume` its `closed_assume`. -/
def unrollAction (rep : Bool) (c : ℕ) (k : PmKind) (rd : σ → PmAcc → ℕ) (pick : Finset σ → Option σ)
    (xn : Finset (σ × σ)) (assume : Finset σ) : Option (List PmAct) :=
  if !rep then some []
  else
    let X := xn.filter fun e => e.1 ∈ assume
    unrollPre c k rd pick (X.card + 1) X

/-- An action of the system, as it is seen by `unroll_action`: its kind, whether there is a representative process,
its transitions, and `closed_assume`. -/
structure PmUnit (σ : Type) where
  kind : ℕ
  rep : Bool
  xn : Finset (σ × σ)
  assume : Finset σ

/-- The loop at src/promela.cc:202-206. -/
def unrollAll (kinds : List PmKind) (rd : ℕ → σ → PmAcc → ℕ) (pick : Finset σ → Option σ) :
    List (PmUnit σ) → Option (List PmAct)
  | [] => some []
  | u :: us =>
    match kinds[u.kind]? with
    | none => none
    | some k =>
      match unrollAction u.rep u.kind k (rd u.kind) pick u.xn u.assume with
      | none => none
      | some acts => (unrollAll kinds rd pick us).map (acts ++ ·)

end

/-- The loop `while (index_map.membs[i] + (int) add_val < 0)`, src/promela.cc:17-19; at most `-m` rounds are needed. -/
def addUp (sz : ℕ) (m : ℤ) : ℕ → ℕ → ℕ
  | 0, add => add
  | fuel + 1, add => if m + add < 0 then addUp sz m fuel (add + sz) else add

/-- One round of the loop at src/promela.cc:14-24: `mod_val` and `add_val`. -/
def pmRefRound (sz : ℕ) (st : ℕ × ℕ) (m : ℤ) : ℕ × ℕ :=
  let st := if m < 0 then (sz, addUp sz m m.natAbs st.2) else st
  if m ≥ sz then (sz, st.2) else st

/-- `OPutPromelaVblRef`, src/promela.cc:7-37; `index_map.membs` are the values of the index expression for the
processes of the kind, `size` is `vbl_symm.membs.sz()`. -/
def pmRef (size : ℕ → ℕ) (k : PmKind) (a : PmAcc) : PmRef :=
  let st := ((List.range k.membs).map fun i : ℕ => a.expr i).foldl (pmRefRound (size a.vbl)) (0, 0)
  ⟨a.vbl, a.expr, st.2, st.1⟩

/-- `OPutPromelaAction`, src/promela.cc:39-58. -/
def pmAction (size : ℕ → ℕ) (k : PmKind) (act : PmAct) : List (PmRef × ℕ) × List (PmRef × ℕ) :=
  ((k.accs.zip act.guards).map fun x => (pmRef size k x.1, x.2),
    (k.waccs.zip act.assigns).map fun x => (pmRef size k x.1, x.2))

/-- `OPutPromelaPc`, src/promela.cc:73-140. -/
def pmKind (size : ℕ → ℕ) (acts : List PmAct) (c : ℕ) (k : PmKind) (offset : ℕ) : List PmProc :=
  if k.membs = 0 then []
  else if (acts.any fun a => a.kind = c) = false then []
  else [⟨k.membs, offset, (acts.filter fun a => a.kind = c).map (pmAction size k)⟩]

/-- The loop at src/promela.cc:208-212. -/
def pmKinds (size : ℕ → ℕ) (acts : List PmAct) : ℕ → List PmKind → ℕ → List PmProc
  | _, [], _ => []
  | c, k :: ks, offset => pmKind size acts c k offset ++ pmKinds size acts (c + 1) ks (offset + k.membs)

/-- `OPutPromelaModel`, src/promela.cc:147-239, for the unrolled actions; `sort` is `std::sort`. -/
def promela (size : ℕ → ℕ) (sort : List PmAct → List PmAct) (acts : List PmAct) (kinds : List PmKind) : List PmProc :=
  pmKinds size (sort acts) 0 kinds 1

end Verif.Model
