import Verif.Model.IntFmla
import Mathlib.Data.Fintype.Powerset

/-!
Model of the evaluation of expressions in specification files, src/prot-xfile.cc:1155-1725.

An expression (`Sesp`) is a term of the type `Ex`, one constructor per key; which names occur in which
maps is given by `EvalEnv`.  The map `index_map`, which the evaluation changes, is passed along.  A
failure (`good == false`; it also sets `allgood`, so that nothing is evaluated any more), a failed
`Claim` and an access outside a table are `none`.  Expressions bound by a `let` in an action refer to
each other by name, so evaluation has a `fuel` bounding the depth of the recursion.
-/

namespace Verif.Model

/-- `forall`, `exists`, `unique`. -/
inductive Quant where
  | all | ex | uniq
  deriving DecidableEq, Repr

/-- Expressions. -/
inductive Ex where
  | name (x : String)
  | num (k : ℕ)
  /-- `(bool)` -/
  | castB (b : Ex)
  /-- `(int)` -/
  | castI (b : Ex)
  | not (b : Ex)
  | and (b c : Ex)
  | or (b c : Ex)
  | imp (b c : Ex)
  | iff (b c : Ex)
  | xor (b c : Ex)
  /-- `<`, `<=`, `!=`, `==`, `>=`, `>`: which of less, equal, greater are accepted. -/
  | cmp (lt eq gt : Bool) (b c : Ex)
  | quant (q : Quant) (x : String) (r d : Ex)
  | neg (b : Ex)
  | arith (op : IntOp) (b c : Ex)
  | natDom (b : Ex)
  | iif (b c d : Ex)
  | aref (a : String) (i : Ex)
  deriving Repr, DecidableEq

/-- `Map< String, int > index_map`, src/prot-xfile.hh:67. -/
abbrev IMap := String → Option ℤ

/-- The process in use: `pc_in_use` with the values of `pc_symm_spec->let_map` and
`pc_symm->predicate_map` for it. -/
structure PcEnv (n : ℕ) (dom : Fin n → ℕ) where
  rvbls : List (Fin n)
  lets : String → Option ℤ
  preds : String → Option (Finset (FSt n dom))

/-- The maps that evaluation reads: `spec->constant_map`, `sys->predicate_map`, `scope_let_map`,
`vbl_map` (each name with the table of its variables) and the process. -/
structure EvalEnv (n : ℕ) (dom : Fin n → ℕ) where
  consts : String → Option (List ℤ)
  preds : String → Option (Finset (FSt n dom))
  lets : String → Option Ex
  vbls : String → Option (List (Fin n))
  pc : Option (PcEnv n dom)

variable {n : ℕ} {dom : Fin n → ℕ}

/-- `lookup_pfmla`, src/prot-xfile.cc:1674-1702. -/
def lookupPfmla (env : EvalEnv n dom) (x : String) : Option (Finset (FSt n dom)) :=
  if x = "true" then some Finset.univ
  else if x = "false" then some ∅
  else match env.preds x with
    | some pf => some pf
    | none => env.pc.bind fun pc => pc.preds x

/-- `lookup_int`, src/prot-xfile.cc:1704-1725. -/
def lookupInt (env : EvalEnv n dom) (ρ : IMap) (x : String) : Option ℤ :=
  match ρ x with
  | some v => some v
  | none =>
    match env.consts x with
    | some membs => membs[0]?
    | none => env.pc.bind fun pc => pc.lets x

/-- `membs[umod_int (idx, membs.sz())]`, src/prot-xfile.cc:1606 and 1651. -/
def umodGet {α : Type} (membs : List α) (idx : ℤ) : Option α :=
  membs[(idx.emod membs.length).toNat]?

/-- The access check of `lookup_vbl`, src/prot-xfile.cc:1654-1667. -/
def readable (env : EvalEnv n dom) (v : Fin n) : Bool :=
  match env.pc with
  | none => true
  | some pc => pc.rvbls.contains v

/-- `ipf.state_map.sz() == 1` and `state_map[0]` in `eval_int`, src/prot-xfile.cc:1558-1562. -/
def single (f : IntFmla n) : Option ℤ :=
  match f.stateMap with
  | [x] => some x
  | _ => none

/-- The combination of the bodies, src/prot-xfile.cc:1326-1336; `pfb` is only used by `unique`. -/
def quantStep (q : Quant) (pf pfb c : Finset (FSt n dom)) : Finset (FSt n dom) × Finset (FSt n dom) :=
  match q with
  | .all => (pf ∩ c, pfb)
  | .ex => (pf ∪ c, pfb)
  | .uniq => ((pf \ (c ∩ pfb)) ∪ (c \ pfb), pfb ∪ c)

/-- The initial value, src/prot-xfile.cc:1309-1318. -/
def quantInit (q : Quant) : Finset (FSt n dom) :=
  match q with
  | .all => Finset.univ
  | .ex => ∅
  | .uniq => ∅

/-- The loop over the range, src/prot-xfile.cc:1320-1338; `ev` evaluates the body. -/
def quantLoop (q : Quant) (x : String) (ev : IMap → Option (Finset (FSt n dom) × IMap)) :
    List ℤ → Finset (FSt n dom) → Finset (FSt n dom) → IMap → Option (Finset (FSt n dom) × IMap)
  | [], pf, _, ρ => some (pf, ρ)
  | v :: l, pf, pfb, ρ =>
    match ev (Function.update ρ x (some v)) with
    | none => none
    | some (c, ρ1) => quantLoop q x ev l (quantStep q pf pfb c).1 (quantStep q pf pfb c).2 ρ1

mutual

/-- `eval(P::Fmla& pf, Sesp a)`, src/prot-xfile.cc:1155-1386. -/
def evalP (env : EvalEnv n dom) : ℕ → IMap → Ex → Option (Finset (FSt n dom) × IMap)
  | 0, _, _ => none
  | k + 1, ρ, e =>
    match e with
    | .name x =>
      match lookupPfmla env x with
      | none => none
      | some pf => some (pf, ρ)
    | .castB b => evalP env k ρ b
    | .castI b => evalP env k ρ b
    | .not b =>
      match evalP env k ρ b with
      | none => none
      | some (pf, ρ1) => some (pfᶜ, ρ1)
    | .and b c =>
      match evalP env k ρ b with
      | none => none
      | some (pf, ρ1) =>
        if pf = ∅ then some (pf, ρ1)
        else match evalP env k ρ1 c with
          | none => none
          | some (pfc, ρ2) => some (pf ∩ pfc, ρ2)
    | .or b c =>
      match evalP env k ρ b with
      | none => none
      | some (pf, ρ1) =>
        if pf = Finset.univ then some (pf, ρ1)
        else match evalP env k ρ1 c with
          | none => none
          | some (pfc, ρ2) => some (pf ∪ pfc, ρ2)
    | .imp b c =>
      match evalP env k ρ b with
      | none => none
      | some (pf, ρ1) =>
        if pf = ∅ then some (Finset.univ, ρ1)
        else match evalP env k ρ1 c with
          | none => none
          | some (pfc, ρ2) => some (pfᶜ ∪ pfc, ρ2)
    | .iff b c =>
      match evalP env k ρ b with
      | none => none
      | some (pf, ρ1) =>
        match evalP env k ρ1 c with
        | none => none
        | some (pfc, ρ2) => some ((pf ∩ pfc) ∪ (pfᶜ ∩ pfcᶜ), ρ2)
    | .xor b c =>
      match evalP env k ρ b with
      | none => none
      | some (pf, ρ1) =>
        match evalP env k ρ1 c with
        | none => none
        | some (pfc, ρ2) => some ((pf \ pfc) ∪ (pfc \ pf), ρ2)
    | .cmp lt eq gt b c =>
      match evalI env k ρ b with
      | none => none
      | some (f, ρ1) =>
        match evalI env k ρ1 c with
        | none => none
        | some (g, ρ2) =>
          match f.cmp dom lt eq gt g with
          | none => none
          | some pf => some (pf, ρ2)
    | .quant q x r d =>
      match evalI env k ρ r with
      | none => none
      | some (f, ρ1) =>
        if f.vbls = [] then
          match quantLoop q x (fun ρ' => evalP env k ρ' d) f.stateMap (quantInit q) ∅ ρ1 with
          | none => none
          | some (pf, ρ2) => some (pf, Function.update ρ2 x none)
        else none
    | _ => none

/-- `eval(IntPFmla& ipf, Sesp a)`, src/prot-xfile.cc:1393-1548, with `eval_int`, `eval_gtz`
(1550-1593), `eval_vbl` (1595-1617) and `lookup_vbl` (1637-1672). -/
def evalI (env : EvalEnv n dom) : ℕ → IMap → Ex → Option (IntFmla n × IMap)
  | 0, _, _ => none
  | k + 1, ρ, e =>
    match e with
    | .name x =>
      match env.lets x with
      | some e' => evalI env k ρ e'
      | none =>
        match lookupInt env ρ x with
        | none => none
        | some v => some (.ofInt v, ρ)
    | .num m => some (.ofInt m, ρ)
    | .castI b => evalI env k ρ b
    | .neg b =>
      match evalI env k ρ b with
      | none => none
      | some (f, ρ1) => some (f.negate, ρ1)
    | .arith op b c =>
      match evalI env k ρ b with
      | none => none
      | some (f, ρ1) =>
        match evalI env k ρ1 c with
        | none => none
        | some (g, ρ2) =>
          match f.binop op g with
          | none => none
          | some r => some (r, ρ2)
    | .natDom b =>
      match evalI env k ρ b with
      | none => none
      | some (f, ρ1) =>
        match single f with
        | none => none
        | some m => if 0 < m then some (.ofSet 1 0 m.toNat, ρ1) else none
    | .iif b c d =>
      match evalP env k ρ b with
      | none => none
      | some (pf, ρ1) =>
        if pf = Finset.univ then evalI env k ρ1 c
        else if pf = ∅ then evalI env k ρ1 d
        else none
    | .aref a i =>
      match evalI env k ρ i with
      | none => none
      | some (f, ρ1) =>
        match single f with
        | none => none
        | some m =>
          match env.consts a with
          | some membs =>
            match umodGet membs m with
            | none => none
            | some v => some (.ofInt v, ρ1)
          | none =>
            match env.vbls a with
            | none => none
            | some membs =>
              match umodGet membs m with
              | none => none
              | some v => if readable env v then some (.ofVbl dom v, ρ1) else none
    | _ => none

end

end Verif.Model
