import Verif.Model.Action
import Verif.Spec.Sync

/-!
Specification notions for written actions.
-/

namespace Verif.Spec

open Verif.Model

/-- The reference to the variable of an access: name and index. -/
def refEx (ref : ℕ → String × Ex) (r : ℕ) : Ex := .aref (ref r).1 (ref r).2

/-- The conditions on the readable variables, in order. -/
def guardEqs (pc : PcSymm) (ref : ℕ → String × Ex) (vals : List ℕ) : List Ex :=
  (List.range pc.access.length).filterMap fun r =>
    (pc.access[r]?).bind fun acc => (vals[r]?).bind fun g =>
      if acc.syntReadCk then some (.cmp false true false (refEx ref r) (.num g)) else none

/-- `e` and all of the list, from the left. -/
def conjEx (e : Ex) (l : List Ex) : Ex := l.foldl .and e

/-- The action changes no readable variable (all of them are assigned the value in the guard) and
assigns no other variable that implements the protocol. -/
def Still (pc : PcSymm) (vals : List ℕ) : Prop :=
  ∀ (j r : ℕ) (acc : Access) (g a : ℕ), pc.wmap[j]? = some r → pc.access[r]? = some acc →
    vals[r]? = some g → vals[pc.access.length + j]? = some a →
    if acc.syntWriteonlyCk then acc.puppetCk = true → a = acc.domsz
    else g = a ∧ acc.randomWriteCk = false

/-- The written variables of an action that its text mentions (position, access number, value): those
with a new value, but only specification variables if the action changes nothing else. -/
def Mentions (pc : PcSymm) (vals : List ℕ) (m : ℕ × ℕ × ℕ) : Prop :=
  ∃ acc, pc.wmap[m.1]? = some m.2.1 ∧ pc.access[m.2.1]? = some acc ∧
    vals[pc.access.length + m.1]? = some m.2.2 ∧ m.2.2 ≠ acc.domsz ∧
    (Still pc vals → acc.pureShadowCk = true)

/-- The assignments of a list of written variables. -/
def asgsOf (pc : PcSymm) (ref : ℕ → String × Ex) (l : List (ℕ × ℕ × ℕ)) : List Asg :=
  l.map fun m =>
    if ((pc.access[m.2.1]?).map Access.randomWriteCk).getD false then .rand (refEx ref m.2.1)
    else .set (refEx ref m.2.1) (.num m.2.2)

/-- The tree of an action: guard and assignments, the assignments ordered by position. -/
def IsTree (pc : PcSymm) (ref : ℕ → String × Ex) (vals : List ℕ) (t : ActTree) : Prop :=
  t.actto = false ∧ (∃ e l, guardEqs pc ref vals = e :: l ∧ t.guard = conjEx e l) ∧
  ∃ l : List (ℕ × ℕ × ℕ), (∀ m, m ∈ l ↔ Mentions pc vals m) ∧ l.Pairwise (fun x y => x.1 < y.1) ∧
    t.asgs = asgsOf pc ref l

variable {n : ℕ} {dom : Fin n → ℕ}

/-- In the scope of the process, the references mean the variables of the accesses; the names are not
those of constants. -/
def Resolves (c : RdPc n dom) (ρ : IMap) (ref : ℕ → String × Ex) : Prop :=
  ∀ (r : ℕ) (v : Fin n), c.pc.rvbls[r]? = some v →
    ∃ f m membs K, (∀ k ≥ K, evalI c.env k ρ (ref r).2 = some (f, ρ)) ∧ single f = some m ∧
      c.env.consts (ref r).1 = none ∧ c.env.vbls (ref r).1 = some membs ∧ umodGet membs m = some v ∧
      readable c.env v = true

end Verif.Spec
