import Verif.Model.UdpTab

/-!
Specification of the channels between processes: which process owns a variable and which processes must talk.
-/

namespace Verif.Spec
open Verif.Model

/-- Process `p` has the puppet variable `v`. -/
def HasV (pcs : List (List UAcc)) (p v : ℕ) : Prop :=
  ∃ pc, pcs[p]? = some pc ∧ ∃ a ∈ pc, a.puppet = true ∧ a.vbl = v

/-- Process `p` writes the puppet variable `v`. -/
def WritesV (pcs : List (List UAcc)) (p v : ℕ) : Prop :=
  ∃ pc, pcs[p]? = some pc ∧ ∃ a ∈ pc, a.puppet = true ∧ a.write = true ∧ a.vbl = v

/-- The owner of a variable is the first process that writes it, or the first that reads it if none writes it. -/
def OwnsV (pcs : List (List UAcc)) (p v : ℕ) : Prop :=
  (WritesV pcs p v ∧ ∀ q < p, ¬WritesV pcs q v) ∨
    ((∀ q, ¬WritesV pcs q v) ∧ HasV pcs p v ∧ ∀ q < p, ¬HasV pcs q v)

/-- Two processes are neighbours if one of them reads a variable of the other. -/
def AdjacentV (pcs : List (List UAcc)) (p q : ℕ) : Prop :=
  p ≠ q ∧ ∃ v, (HasV pcs p v ∧ OwnsV pcs q v) ∨ (HasV pcs q v ∧ OwnsV pcs p v)

end Verif.Spec
