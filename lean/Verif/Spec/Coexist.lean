import Verif.Model.Index

/-!
Specification of what the actions of one process do to the variables the process can access.  A local state
gives a value to each access of the process.  Only the types `PcSymm` and `Access` are used.
-/

namespace Verif.Spec

open Verif.Model

/-- The process may use the value in guards. -/
def Readable (x : Access) : Prop :=
  (x.type = .read ∨ x.type = .write ∨ x.type = .randomRead ∨ x.type = .randomWrite) ∧ x.role ≠ .shadow

/-- The process may assign the variable. -/
def Written (x : Access) : Prop :=
  x.type = .write ∨ x.type = .yield ∨ x.type = .effect ∨ x.type = .randomWrite

instance (x : Access) : Decidable (Readable x) := by unfold Readable; infer_instance

instance (x : Access) : Decidable (Written x) := by unfold Written; infer_instance

/-- The position in the table of an action of the value assigned to access `i`: after all guards, the written
accesses in order. -/
def slot (pc : PcSymm) (i : ℕ) : ℕ := pc.access.length + (pc.access.take i).countP fun x => decide (Written x)

/-- Tables of actions: a guard for each access and a value for each written access, which for readable
variables is in the domain. -/
def IsAct (pc : PcSymm) (a : List ℕ) : Prop :=
  a.length = slot pc pc.access.length ∧
    ∀ i x v, pc.access[i]? = some x → Readable x → Written x → a[slot pc i]? = some v → v < x.domsz

/-- The guard holds. -/
def LEnabled (pc : PcSymm) (a : List ℕ) (s : ℕ → ℕ) : Prop :=
  ∀ i x, pc.access[i]? = some x → Readable x → a[i]? = some (s i)

/-- The action is executed in `s`, and `t` is seen afterwards.  Values of random reads and random writes are
arbitrary; a value outside of the domain means that the variable is not assigned. -/
def LStep (pc : PcSymm) (a : List ℕ) (s t : ℕ → ℕ) : Prop :=
  LEnabled pc a s ∧
    ∀ i x, pc.access[i]? = some x →
      (¬ Written x → x.type ≠ .randomRead → t i = s i) ∧
      (Written x → x.type ≠ .randomWrite →
        ∃ v, a[slot pc i]? = some v ∧ t i = if v < x.domsz then v else s i)

/-- The action never changes a variable that it can read. -/
def SelfLoop (pc : PcSymm) (a : List ℕ) : Prop :=
  ∀ s t, LStep pc a s t → ∀ i x, pc.access[i]? = some x → Readable x → Written x → t i = s i

/-- Both actions can be executed in one local state. -/
def BothEnabled (pc : PcSymm) (a b : List ℕ) : Prop := ∃ s, LEnabled pc a s ∧ LEnabled pc b s

/-- After `a`, `b` can be executed. -/
def Enables (pc : PcSymm) (a b : List ℕ) : Prop := ∃ s t, LStep pc a s t ∧ LEnabled pc b t

/-- The guards differ in a variable that the process cannot change. -/
def Apart (pc : PcSymm) (a b : List ℕ) : Prop :=
  ∃ (i : ℕ) (x : Access), pc.access[i]? = some x ∧ Readable x ∧ ¬ Written x ∧ x.type ≠ .randomRead ∧ a[i]? ≠ b[i]?

/-- The process has a variable that it writes and does not read. -/
def HasWriteOnly (pc : PcSymm) : Prop := ∃ x ∈ pc.access, Written x ∧ ¬ Readable x

/-- The process has a variable that is assigned at random. -/
def HasRandomWrite (pc : PcSymm) : Prop := ∃ x ∈ pc.access, x.type = .randomWrite

/-- The guard of `a` with the assignment of `b`. -/
def mixed (pc : PcSymm) (a b : List ℕ) : List ℕ := a.take pc.access.length ++ b.drop pc.access.length

end Verif.Spec
