import Verif.Model.File
import Verif.Spec.Action
import Verif.Spec.Legit

/-!
Specification notions for whole files: the conditions under which what the program knows about a file can
be written (`FileFit`), and what it means that a file has been read back (`FileBack`).
-/

namespace Verif.Spec

open Verif.Model

/-! ### Conditions -/

/-- A name. -/
def Named (x : String) : Prop := ident x.toList = some (x, [])

/-- The expression was read by the rule and is tidy (see C93). -/
def Fits (isPred : String → Bool) (nt : NT) (e : Ex) : Prop :=
  (∃ k s i r, parse isPred k nt s = some (some ((e, i), r))) ∧ tidy e = true

/-- The names of predicates. -/
def namedIn (l : List (String × Ex)) (x : String) : Bool := l.any fun p => p.1 == x

/-- A constant. -/
def ConstFit (c : ConstD) : Prop :=
  Named c.name ∧
  match c.val with
  | .one e => Fits noPred (.sum true) e
  | .list l => 2 ≤ l.length ∧ ∀ e ∈ l, Fits noPred (.sum true) e

/-- Variables; the number of variables does not begin with `Nat%` or `Int%`. -/
def VarFit (v : VarD) : Prop :=
  Named v.name ∧ Fits noPred (.sum true) v.count ∧ Fits noPred (.sum true) v.dom ∧
  ∀ r, (firstLit [("Int", ()), ("Nat", ())] (exText v.count ++ ']' :: r)).bind (fun v => lit "%" (ows v.2)) = none

/-- Predicates: each is read when those before it are known. -/
def PredsFit (l : List (String × Ex)) : Prop :=
  ∀ l1 p l2, l = l1 ++ p :: l2 → Named p.1 ∧ Fits (namedIn l1) .expr p.2

/-- A reference `x[i]`. -/
def RefFit (isPred : String → Bool) (u : Ex) : Prop :=
  ∃ x i, u = .aref x i ∧ Named x ∧ Fits isPred .expr i

/-- Accesses. -/
def AccFit : AccD → Prop
  | .one _ refs => refs ≠ [] ∧ ∀ u ∈ refs, RefFit noPred u
  | .sym names vals stmts =>
    names ≠ [] ∧ (∀ x ∈ names, Named x) ∧
    vals ≠ [] ∧ (∀ v ∈ vals, v.length = names.length ∧ ∀ e ∈ v, Fits noPred .expr e) ∧
    stmts ≠ [] ∧ ∀ s ∈ stmts, s.2 ≠ [] ∧ ∀ u ∈ s.2, RefFit noPred u

/-- An assignment. -/
def AsgFit (isPred : String → Bool) : Asg → Prop
  | .set v e => RefFit isPred v ∧ Fits isPred .expr e
  | .rand v => RefFit isPred v
  | .wildAll => True
  | .wild => True

/-- An action. -/
def TreeFit (isPred : String → Bool) (T : ActTree) : Prop :=
  Fits isPred .expr T.guard ∧ ∀ a ∈ T.asgs, AsgFit isPred a

/-- The value of a name of a tuple. -/
def valOf (names : List String) (vals : List Ex) (x : String) : Option Ex :=
  ((names.zip vals).reverse.find? fun p => p.1 == x).map Prod.snd

/-- An expression with the names replaced. -/
def substEx (σ : String → Option Ex) : Ex → Ex
  | .name x => (σ x).getD (.name x)
  | .num u => .num u
  | .castB b => .castB (substEx σ b)
  | .castI b => .castI (substEx σ b)
  | .not b => .not (substEx σ b)
  | .neg b => .neg (substEx σ b)
  | .and b c => .and (substEx σ b) (substEx σ c)
  | .or b c => .or (substEx σ b) (substEx σ c)
  | .imp b c => .imp (substEx σ b) (substEx σ c)
  | .iff b c => .iff (substEx σ b) (substEx σ c)
  | .xor b c => .xor (substEx σ b) (substEx σ c)
  | .cmp l e g b c => .cmp l e g (substEx σ b) (substEx σ c)
  | .arith o b c => .arith o (substEx σ b) (substEx σ c)
  | .natDom b => .natDom (substEx σ b)
  | .aref a i => .aref a (substEx σ i)
  | .iif b c d => .iif (substEx σ b) (substEx σ c) (substEx σ d)
  | .quant q x r d => .quant q x (substEx σ r) (substEx σ d)

/-- The variable and index of a reference. -/
def partsOf : Ex → List (String × Ex)
  | .aref x i => [(x, i)]
  | _ => []

/-- The references of the accesses in order; those of `symmetric` once for each tuple. -/
def refsOf : AccD → List (String × Ex)
  | .one _ refs => refs.flatMap partsOf
  | .sym names vals stmts => stmts.flatMap fun s => s.2.flatMap fun u => vals.flatMap fun v =>
      (partsOf u).map fun p => (p.1, substEx (valOf names v) p.2)

/-- The reference of an access. -/
def refAt (l : List AccD) (r : ℕ) : String × Ex := ((l.flatMap refsOf)[r]?).getD ("", .num 0)

/-- Assumptions. -/
def AssumesFit (isPred : String → Bool) (l : List Ex) : Prop := ∀ e ∈ l, Fits isPred .expr e

/-- Invariants; all but the first bind at least as strongly as a conjunction (see C100). -/
def LegitsFit (isPred : String → Bool) (l : List Ex) : Prop :=
  (∀ e ∈ l, Fits isPred .expr e) ∧ ∀ e ∈ l.tail, bindsAnd e = true

/-- A kind of processes; `sysPred` are the predicates of the system. -/
structure PcFit (sysPred : String → Bool) (p : PcMem) : Prop where
  name : Named p.name
  idx : Named p.idx
  map : ∀ x e, p.map = some (x, e) → Named x ∧ Fits sysPred (.sum false) e
  count : Fits noPred (.sum true) p.count
  lets : ∀ l ∈ p.lets, Named l.1 ∧ Fits noPred .expr l.2
  some : p.accs ≠ []
  accs : ∀ d ∈ p.accs, AccFit d
  preds : PredsFit p.preds
  assumes : AssumesFit (namedIn p.preds) p.assumes
  legits : LegitsFit (namedIn p.preds) p.legits
  shadow : ∀ T ∈ p.shadow, TreeFit (namedIn p.preds) T
  permit : ∀ T ∈ p.permit, TreeFit (namedIn p.preds) T
  forbid : ∀ T ∈ p.forbid, TreeFit (namedIn p.preds) T
  /-- the accesses are those of the actions that have been chosen -/
  same : p.pc.access.length = (p.accs.flatMap refsOf).length
  /-- the index of each access, with the names of the tuple replaced, can be written -/
  refs : p.acts ≠ [] → ∀ q ∈ p.accs.flatMap refsOf, Fits (namedIn p.preds) .expr q.2
  /-- the actions that have been chosen have guards -/
  acts : ∀ vals ∈ p.acts, guardEqs p.pc (refAt p.accs) vals ≠ []

/-- A file. -/
structure FileFit (f : FileMem) : Prop where
  consts : ∀ c ∈ f.consts, ConstFit c
  some : f.vars ≠ []
  vars : ∀ v ∈ f.vars, VarFit v
  preds : PredsFit f.preds
  assumes : AssumesFit (namedIn f.preds) f.assumes
  /-- see C99 -/
  mode : f.mode.1 = .closed → f.mode.2 = .direct
  legits : LegitsFit (namedIn f.preds) f.legits
  pcs : ∀ p ∈ f.pcs, PcFit (namedIn f.preds) p

/-! ### Reading back -/

/-- Accesses with one reference in each statement. -/
def splitAcc : AccD → List AccD
  | .one t refs => refs.map fun u => .one t [u]
  | .sym names vals stmts => [.sym names vals (stmts.flatMap fun s => s.2.map fun u => (s.1, [u]))]

/-- Taking in `T` alone gives the same sets of states as taking in all of `es`, in each system. -/
def SameSets (es : List Ex) (T : Ex) : Prop :=
  ∀ (join : List Char → Ex → List Char) (n : ℕ) (dom : Fin n → ℕ) (ctx : List (EvalEnv n dom × IMap)),
    (∀ c ∈ ctx, ∀ e ∈ es, NoCapture c.1 c.2 e) → ∀ (k : ℕ) (a : Finset (FSt n dom))
      (m : List (Finset (FSt n dom))) (st : CollSt n dom), m.length ≤ ctx.length →
      collectAll join ctx k es ⟨[], a, m⟩ = some st →
      ∃ K, ∀ k' ≥ K, ((collect join ctx k' ⟨[], a, m⟩ T).map fun s => (s.all, s.membs)) = some (st.all, st.membs)

/-- No statement if there is nothing to state, otherwise one statement with the same meaning. -/
def Joined {α : Type} (mk : Ex → α) (es : List Ex) (l : List α) : Prop :=
  if es = [] then l = [] else ∃ T, l = [mk T] ∧ SameSets es T

/-- A section with actions. -/
def sect (kd : ActKind) (l : List ActTree) : List PcItem := if l = [] then [] else [.acts kd l]

/-- A kind of processes was read back: the accesses have one reference in each statement, each of the
assumptions and invariants are one statement, and the actions that were chosen are stated. -/
def PcBack (m : Style × Scope) (p : PcMem) (d : PcD) : Prop :=
  d.name = p.name ∧ d.idx = p.idx ∧ d.map = p.map ∧ d.count = p.count ∧ d.lets = p.lets ∧
  d.accs = p.accs.flatMap splitAcc ∧
  ∃ A L Ts, d.items = (p.preds.map fun q => PcItem.pred q.1 q.2) ++ A ++ L ++ sect .shadow p.shadow ++
      sect .permit p.permit ++ sect .forbid p.forbid ++ sect .puppet Ts ∧
    Joined .assume p.assumes A ∧ Joined (.legit m) p.legits L ∧
    List.Forall₂ (IsTree p.pc (refAt p.accs)) p.acts Ts

/-- The text of a file is read as `d`. -/
def FileRead (d : FileD) (t : List Char) : Prop := ∃ K, ∀ k ≥ K, fileP k t = some (some d)

/-- A file was read back. -/
def FileBack (f : FileMem) (d : FileD) : Prop :=
  d.consts = f.consts ∧ d.vars = f.vars ∧
  ∃ A L ds, d.items = (f.preds.map fun q => TopItem.pred q.1 q.2) ++ A ++ L ++
      (if f.behav = .shadow then [] else [.behav f.behav]) ++ ds.map .proc ∧
    Joined .assume f.assumes A ∧ Joined (.legit f.mode) f.legits L ∧
    List.Forall₂ (PcBack f.mode) f.pcs ds

end Verif.Spec
