import Mathlib.Order.Basic
import Mathlib.Data.Nat.Basic
import Mathlib.Data.Finset.Defs

/-!
Specification vocabulary for invariants of bidirectional rings.
-/

namespace Verif.Spec

/-- A ring of `n` processes whose values `x` (continued periodically) are below `d` and legitimate everywhere: `legit`
is about the values of the left neighbour, of the process and of the right neighbour.  The first process with its
neighbours has the values `c`. -/
def BiRingAt (d : ℕ) (legit : ℕ × ℕ × ℕ → Prop) (n : ℕ) (c : ℕ × ℕ × ℕ) : Prop :=
  0 < n ∧ ∃ x : ℕ → ℕ, (∀ i, x (i + n) = x i) ∧ (∀ i, x i < d) ∧ (∀ i, legit (x i, x (i + 1), x (i + 2))) ∧
    (x 0, x 1, x 2) = c

/-- There is a legitimate ring of `n` processes. -/
def BiRing (d : ℕ) (legit : ℕ × ℕ × ℕ → Prop) (n : ℕ) : Prop := ∃ c, BiRingAt d legit n c

end Verif.Spec

namespace Verif.Spec

/-- The invariants that are looked for, given as sets `T` of numbers of configurations; `dec` and `enc` are the numbering
of the configurations over values below `d`.  `T` has the configurations that occur in the rings of some predicate
`legit` on configurations.  Unless `trivial` is set no configuration with equal values is legitimate, and with `pair` it
depends on the values of the process and its left neighbour only.  There are rings of all sizes from `minsz` (of all
large sizes if it is 0). -/
structure BiInvariant (dec : ℕ → ℕ × ℕ × ℕ) (enc : ℕ × ℕ × ℕ → ℕ) (d : ℕ) (pair trivial : Bool) (minsz : ℕ)
    (T : Finset ℕ) : Prop where
  legit : ∃ legit : ℕ × ℕ × ℕ → Prop,
    (trivial = false → ∀ a b c, legit (a, b, c) → ¬ (a = b ∧ (pair = true ∨ b = c))) ∧
    (pair = true → ∀ a b c c', c < d → c' < d → legit (a, b, c) → legit (a, b, c')) ∧
    ∀ i, i ∈ T ↔ i < d * d * d ∧ ∃ n, BiRingAt d legit n (dec i)
  sizes : (0 < minsz → ∀ n ≥ minsz, BiRing d (fun c => enc c ∈ T) n) ∧
    (minsz = 0 → ∃ m, ∀ n ≥ m, BiRing d (fun c => enc c ∈ T) n)

end Verif.Spec
