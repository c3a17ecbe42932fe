import Mathlib.Data.ZMod.Defs
import Mathlib.Data.Finset.Basic

/-!
# Specification vocabulary for unidirectional rings

`n` processes in a ring; process `i` owns variable `x i` and reads `x (i - 1)` and `x i`.  A
protocol `f` allows process `i` with predecessor value `a` and own value `b` to change its value to
any `c` with `f i a b c`.
-/

namespace Verif.Spec

universe u
variable {V : Type u} {n : ℕ}

/-- One process takes a step. -/
def RStep (f : ZMod n → V → V → V → Prop) (x y : ZMod n → V) : Prop :=
  ∃ i c, f i (x (i - 1)) (x i) c ∧ y = Function.update x i c

/-- An infinite execution of the ring. -/
def RExec (f : ZMod n → V → V → V → Prop) (e : ℕ → ZMod n → V) : Prop :=
  ∀ t, RStep f (e t) (e (t + 1))

/-- The protocol has an infinite execution. -/
def HasLivelock (f : ZMod n → V → V → V → Prop) : Prop := ∃ e : ℕ → ZMod n → V, RExec f e

/-- A process that has acted is not enabled until its predecessor acts. -/
def SelfDisabling (f : ZMod n → V → V → V → Prop) : Prop :=
  ∀ i a b c, f i a b c → ∀ d, ¬ f i a c d

/-- An enabled process has one choice. -/
def Deterministic (f : ZMod n → V → V → V → Prop) : Prop :=
  ∀ i a b c d, f i a b c → f i a b d → c = d

/-- `ps` are the processes of the ring protocol `f`, process 0 first. -/
structure IsRing (f : ZMod n → V → V → V → Prop)
    (ps : List (Finset ((ZMod n → V) × (ZMod n → V)))) : Prop where
  length : ps.length = n
  mem : ∀ (k : ℕ) (h : k < ps.length) (x y : ZMod n → V),
    (x, y) ∈ ps[k] ↔ ∃ c, f (k : ZMod n) (x ((k : ZMod n) - 1)) (x (k : ZMod n)) c ∧
      y = Function.update x (k : ZMod n) c

end Verif.Spec
