import Mathlib.Logic.Equiv.Defs
import Mathlib.Data.Fintype.Basic

/-!
Specification of isomorphism under renaming of values: independent of the code that enumerates
permutations.
-/

namespace Verif.Spec

/-- Table `B` over triples of values is table `A` with every value `v` renamed to `σ v`. -/
def SetRenamed {d : ℕ} (σ : Equiv.Perm (Fin d)) (A B : List Bool) : Prop :=
  ∀ a b c : Fin d, B[((σ a : ℕ) * d + σ b) * d + σ c]? = A[((a : ℕ) * d + b) * d + c]?

/-- Propagation function `Q` is `P` with every value `v` renamed to `σ v`: if `P` maps the pair
`(a,b)` to `c`, then `Q` maps `(σ a, σ b)` to `σ c`; where `P` is undefined (value `d`), so is `Q`. -/
def PpgRenamed {d : ℕ} (σ : Equiv.Perm (Fin d)) (P Q : List ℕ) : Prop :=
  ∀ a b : Fin d,
    (∀ c : Fin d, P[(a : ℕ) * d + b]? = some (c : ℕ) →
      Q[(σ a : ℕ) * d + σ b]? = some (σ c : ℕ)) ∧
    (P[(a : ℕ) * d + b]? = some d → Q[(σ a : ℕ) * d + σ b]? = some d)

/-- A strict total order on tables of `n` bits. -/
structure StrictTotal (n : ℕ) (gt : List Bool → List Bool → Bool) : Prop where
  irrefl : ∀ A, A.length = n → gt A A = false
  trans : ∀ A B C, A.length = n → B.length = n → C.length = n →
    gt A B = true → gt B C = true → gt A C = true
  total : ∀ A B, A.length = n → B.length = n → gt A B = true ∨ A = B ∨ gt B A = true

end Verif.Spec
