import Verif.Spec.Sync

/-! Specification of the steps of the processes that have a given action. -/

namespace Verif.Spec

variable {V : Type} {dom : V → ℕ}

/-- The process takes one of its enabled actions; variables outside `p.vbls` keep their values. -/
def LocalProc.Step (p : LocalProc V) (s t : VState V dom) : Prop :=
  (∃ a ∈ p.acts, a.Enabled s ∧ a.Effect s t) ∧ ∀ v, v ∉ p.vbls → t v = s v

/-- Some process takes a step. -/
def SomeStep (procs : List (LocalProc V)) (s t : VState V dom) : Prop := ∃ p ∈ procs, p.Step s t

end Verif.Spec
