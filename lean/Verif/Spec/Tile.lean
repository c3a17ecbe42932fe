import Verif.Spec.Ring

/-!
Specification vocabulary: a propagation function as a ring protocol, and periodic blocks of tiles.
-/

namespace Verif.Spec

variable {n : ℕ}

/-- Propagation function `P` over `{0..d-1}`: next to `a`, value `b` becomes `c`. -/
def PpgStep (P : List ℕ) (d : ℕ) (a b c : ℕ) : Prop :=
  a < d ∧ b < d ∧ c < d ∧ P[a * d + b]? = some c

/-- The ring protocol in which every process follows `P`. -/
def PpgProtocol (P : List ℕ) (d : ℕ) : ZMod n → ℕ → ℕ → ℕ → Prop := fun _ => PpgStep P d

/-- No process is enabled right after its own action. -/
def PpgSelfDisabling (P : List ℕ) (d : ℕ) : Prop :=
  ∀ a b c e, PpgStep P d a b c → ¬ PpgStep P d a c e

/-- A doubly periodic tiling: column `c` is a process, row `r` the number of its actions. -/
structure Torus (P : List ℕ) (d w h : ℕ) (T : ℕ → ℕ → ℕ) : Prop where
  tile : ∀ r c, PpgStep P d (T (r + 1) c) (T r (c + 1)) (T (r + 1) (c + 1))
  rows : ∀ r c, T (r + h) c = T r c
  cols : ∀ r c, T r (c + w) = T r c

/-- A strip of tiles with `m` columns that goes on forever. -/
def Strip (P : List ℕ) (d m : ℕ) (T : ℕ → ℕ → ℕ) : Prop :=
  ∀ r, ∀ c < m, PpgStep P d (T (r + 1) c) (T r (c + 1)) (T (r + 1) (c + 1))

/-- There is a periodic tiling of width `w`. -/
def Periodic (P : List ℕ) (d w : ℕ) : Prop := ∃ h T, 1 ≤ h ∧ Torus P d w h T

end Verif.Spec
