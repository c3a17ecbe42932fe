import Verif.Model.ActRead

/-!
Specification of the actions of a process that belong to a set of transitions.
-/

namespace Verif.Spec

open Verif.Model

variable {V : Type} [Fintype V] [DecidableEq V] {dom : V → ℕ}

/-- A choice of `state` gives something that is there. -/
def Picker.Ok (pk : Picker V dom) : Prop :=
  (∀ X, X ≠ ∅ → ∃ s t, pk.pre X = some s ∧ (s, t) ∈ X) ∧ ∀ P, P ≠ ∅ → ∃ s, pk.img P = some s ∧ s ∈ P

/-- The states agree on the variables that the process can read. -/
def SameRead (pc : SPc V dom) (s s' : VSt V dom) : Prop :=
  ∀ (r : ℕ) (v : V) (acc : Access), pc.rvbls[r]? = some v → pc.spec.access[r]? = some acc →
    acc.syntReadCk = true → s v = s' v

/-- The readable variables have in `s` the values of the guard. -/
def GuardIs (pc : SPc V dom) (vals : List ℕ) (s : VSt V dom) : Prop :=
  ∀ (r : ℕ) (v : V) (acc : Access) (g : ℕ), pc.rvbls[r]? = some v → pc.spec.access[r]? = some acc →
    vals[r]? = some g → acc.syntReadCk = true → (s v).val = g

/-- The written variables have in `t` the values assigned; with the value after the last of the domain
any value will do. -/
def AssignIs (pc : SPc V dom) (vals : List ℕ) (t : VSt V dom) : Prop :=
  ∀ (j r : ℕ) (v : V) (acc : Access) (a : ℕ), pc.spec.wmap[j]? = some r → pc.rvbls[r]? = some v →
    pc.spec.access[r]? = some acc → vals[pc.spec.access.length + j]? = some a →
    a = acc.domsz ∨ (t v).val = a

/-- No assignment can leave a variable as it is other than by assigning its value. -/
def NoKeep (pc : PcSymm) : Prop := ∀ acc ∈ pc.access, acc.wdomsz ≠ acc.domsz + 1

/-- If several accesses of the process mean the same variable, all of them are readable and none can keep the
value. -/
def AliasOk (pc : SPc V dom) : Prop :=
  ∀ (r r' : ℕ) (v : V) (a : Access), pc.rvbls[r]? = some v → pc.rvbls[r']? = some v → r ≠ r' →
    pc.spec.access[r]? = some a → a.syntReadCk = true ∧ a.wdomsz ≠ a.domsz + 1

end Verif.Spec
