import Verif.Model.Eval

/-!
Specification notions for the reading and writing of expressions.
-/

namespace Verif.Spec

open Verif.Model

/-- Not an equivalence of truth values. -/
def notIff : Ex → Bool
  | .iff _ _ => false
  | _ => true

/-- Words that begin an expression of a special form; `(error)` stands for a malformed expression. -/
def reserved : List String := ["if", "forall", "exists", "unique", "(error)"]

/-- The expression has no malformed part, no name that is one of the words above, and no equivalence of
truth values is an operand of a conjunction, disjunction or implication or the right operand of an
equivalence (without parentheses around it). -/
def tidy : Ex → Bool
  | .name x => !reserved.contains x
  | .num _ => true
  | .castB b => tidy b
  | .castI b => tidy b
  | .not b => tidy b
  | .and b c => notIff b && notIff c && tidy b && tidy c
  | .or b c => notIff b && notIff c && tidy b && tidy c
  | .imp b c => notIff b && notIff c && tidy b && tidy c
  | .iff b c => notIff c && tidy b && tidy c
  | .xor b c => tidy b && tidy c
  | .cmp _ _ _ b c => tidy b && tidy c
  | .quant _ _ r d => tidy r && tidy d
  | .neg b => tidy b
  | .arith _ b c => tidy b && tidy c
  | .natDom b => tidy b
  | .iif b c d => tidy b && tidy c && tidy d
  | .aref _ i => tidy i

end Verif.Spec
