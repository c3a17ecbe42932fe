import Mathlib.Data.Fintype.Pi

/-! Specification of synchronous and semi-synchronous steps, independent of the model. -/

namespace Verif.Spec

/-- States: a value for each variable. -/
abbrev VState (V : Type) (dom : V → ℕ) : Type := (v : V) → Fin (dom v)

/-- A guarded command: the values demanded of variables, and for each written variable the new value
(`none`: unchanged). -/
structure LocalAct (V : Type) where
  guards : List (V × ℕ)
  writes : List (V × Option ℕ)

variable {V : Type} {dom : V → ℕ}

/-- An action is enabled if its guard holds and it would change something. -/
def LocalAct.Enabled (a : LocalAct V) (s : VState V dom) : Prop :=
  (∀ g ∈ a.guards, (s g.1).val = g.2) ∧ ∃ w ∈ a.writes, ∃ x, w.2 = some x ∧ (s w.1).val ≠ x

/-- The variables written by the action have in `t` the values it assigns in `s`. -/
def LocalAct.Effect (a : LocalAct V) (s t : VState V dom) : Prop :=
  ∀ w ∈ a.writes, match w.2 with
    | some x => (t w.1).val = x
    | none => t w.1 = s w.1

/-- A process: the variables it writes and its actions. -/
structure LocalProc (V : Type) where
  vbls : List V
  acts : List (LocalAct V)

/-- Some processes each take one of their enabled actions at once, the others keep their variables,
at least one process moves.  With `all`, only disabled processes may stay. -/
def SyncStep (all : Bool) (procs : List (LocalProc V)) (s t : VState V dom) : Prop :=
  ∃ sel : ℕ → Option (LocalAct V),
    (∀ (i : ℕ) (p : LocalProc V), procs[i]? = some p →
      match sel i with
      | some a => a ∈ p.acts ∧ a.Enabled s ∧ a.Effect s t
      | none => (∀ v ∈ p.vbls, t v = s v) ∧ (all = true → ∀ a ∈ p.acts, ¬ a.Enabled s)) ∧
    (∀ v, (∀ p ∈ procs, v ∉ p.vbls) → t v = s v) ∧
    ∃ i < procs.length, (sel i).isSome

end Verif.Spec
