/-!
# Loops with explicit fuel

C++ `while (true) { ... break; ... }` loops are modelled by iterating a body that
either breaks with a result or continues with a new loop state.  A run that has not
broken out after `fuel` rounds yields `none`; no result is invented for diverging runs.
This file models no particular line of `/repo`; it is the shared loop combinator.
-/

namespace Verif

universe u v

/-- `loopFuel body fuel a`: iterate `body` from `a` for at most `fuel` rounds.
`Sum.inl b` is `break`/`return` with `b`, `Sum.inr a'` continues with `a'`. -/
def loopFuel {α : Type u} {β : Type v} (body : α → β ⊕ α) : Nat → α → Option β
  | 0, _ => none
  | n + 1, a =>
    match body a with
    | .inl b => some b
    | .inr a' => loopFuel body n a'

end Verif
