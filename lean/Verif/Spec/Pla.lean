import Verif.Model.Index
import Mathlib.Data.List.Forall2

/-!
Specification vocabulary for the minimized actions: cubes of multi-valued logic, as `espresso` has them, the text of
actions that is written for them, and what an action does.
-/

namespace Verif.Spec
open Verif.Model

/-- A cube has a part for each variable, with a place for each value; it covers a point if the places of its values are
set. -/
def PlaCovers (cube : List (List Bool)) (p : List ℕ) : Prop :=
  List.Forall₂ (fun part x => part[x]? = some true) cube p

/-- What `espresso` is assumed to do: the cubes cover the same points (with values below `doms`); each has a part of the
right size for each variable, and no part is empty. -/
structure PlaCover (doms : List ℕ) (rows cubes : List (List (List Bool))) : Prop where
  same : ∀ p : List ℕ, List.Forall₂ (fun x d => x < d) p doms →
    ((∃ c ∈ cubes, PlaCovers c p) ↔ ∃ c ∈ rows, PlaCovers c p)
  shape : ∀ c ∈ cubes, List.Forall₂ (fun part d => part.length = d ∧ ∃ x < d, part[x]? = some true) c doms

/-- The guard that is written for a variable: none, `x!=j`, or a disjunction of `x==j`. -/
inductive PlaGuard
  | any
  | ne (j : ℕ)
  | or (vals : List ℕ)
deriving DecidableEq

/-- When it holds. -/
def PlaGuard.Holds : PlaGuard → ℕ → Prop
  | .any, _ => True
  | .ne j, x => x ≠ j
  | .or vals, x => x ∈ vals

/-- An action in the text: guards and assigned values.  It takes a process that reads `v` to `w`. -/
def PlaText (t : List PlaGuard × List ℕ) (v w : List ℕ) : Prop :=
  List.Forall₂ PlaGuard.Holds t.1 v ∧ w = t.2

/-- What an action of a process does: `v` are the values of all accessed variables before it and `w` those of the
written ones after it.  A guard is for the variables that are read.  A random variable may get any value; the value that
is not in the domain stands for keeping the old one. -/
structure PlaDoes (accs : List Access) (guards assigns v w : List ℕ) : Prop where
  guard : ∀ (i : ℕ) (a : Access), accs[i]? = some a → a.syntReadCk = true → v[i]? = guards[i]?
  assign : ∀ (k : ℕ) (x : Access × ℕ), ((accs.zip v).filter fun x => x.1.writeCk)[k]? = some x →
    x.1.type ≠ .randomWrite → w[k]? = if assigns[k]? = some x.1.domsz then some x.2 else assigns[k]?

/-- The values of the variables that are not pure shadow variables. -/
def plaVisible (accs : List Access) (v : List ℕ) : List ℕ :=
  ((accs.zip v).filter fun x => !x.1.pureShadowCk).map Prod.snd

end Verif.Spec
