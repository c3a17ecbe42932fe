import Mathlib.Data.ZMod.Defs

/-! Specification vocabulary: ring configurations seen through local triples of values. -/

namespace Verif.Spec

variable {n : ℕ}

/-- The values of predecessor, self and successor that process `i` reads. -/
def triple (x : ZMod n → ℕ) (i : ZMod n) : ℕ × ℕ × ℕ := (x (i - 1), x i, x (i + 1))

/-- No process of the ring can act. -/
def Quiet (silent : ℕ × ℕ × ℕ → Prop) (x : ZMod n → ℕ) : Prop := ∀ i, silent (triple x i)

/-- A global deadlock: no process can act and some process is in an illegitimate local state. -/
def DeadRing (silent legit : ℕ × ℕ × ℕ → Prop) (x : ZMod n → ℕ) : Prop :=
  Quiet silent x ∧ ∃ i, ¬ legit (triple x i)

end Verif.Spec
