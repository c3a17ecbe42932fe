import Verif.Model.Legit
import Verif.Spec.Grammar

/-!
Specification notions for assumptions and invariants in files.
-/

namespace Verif.Spec

open Verif.Model

/-- The tree of an expression in some file. -/
def FromText (isPred : String → Bool) (e : Ex) : Prop :=
  ∃ k s i r, parse isPred k .expr s = some (some ((e, i), r))

/-- The expression binds at least as strongly as a conjunction: it is not a disjunction, implication,
equivalence or choice. -/
def bindsAnd : Ex → Bool
  | .or _ _ => false
  | .imp _ _ => false
  | .iff _ _ => false
  | .iif _ _ _ => false
  | _ => true

/-- The names bound by quantifiers. -/
def boundIn : Ex → List String
  | .name _ => []
  | .num _ => []
  | .castB b => boundIn b
  | .castI b => boundIn b
  | .not b => boundIn b
  | .and b c => boundIn b ++ boundIn c
  | .or b c => boundIn b ++ boundIn c
  | .imp b c => boundIn b ++ boundIn c
  | .iff b c => boundIn b ++ boundIn c
  | .xor b c => boundIn b ++ boundIn c
  | .cmp _ _ _ b c => boundIn b ++ boundIn c
  | .quant _ x r d => x :: (boundIn r ++ boundIn d)
  | .neg b => boundIn b
  | .arith _ b c => boundIn b ++ boundIn c
  | .natDom b => boundIn b
  | .iif b c d => boundIn b ++ boundIn c ++ boundIn d
  | .aref _ i => boundIn i

variable {n : ℕ} {dom : Fin n → ℕ}

/-- No name with a value in the index map (the index of the process) is the variable of a quantifier. -/
def NoCapture (env : EvalEnv n dom) (ρ : IMap) (e : Ex) : Prop :=
  ∀ z, ρ z ≠ none → z ∉ boundIn e ∧ ∀ x e', env.lets x = some e' → z ∉ boundIn e'

/-- A text without its spaces. -/
def strip (s : List Char) : List Char := s.filter (· ≠ ' ')

end Verif.Spec
