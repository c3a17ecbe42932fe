import Mathlib.Data.Nat.Notation
import Mathlib.Data.List.Defs

/-!
Specification vocabulary: Wang tiles, and tilings of the torus with Wang tiles and with actions.
-/

namespace Verif.Spec

/-- The colours of the west, north, south and east edge. -/
abbrev Wang := ℕ × ℕ × ℕ × ℕ

/-- A tiling of a torus of width `w` and height `h`: `F r c` is the tile in row `r` (counted downwards) and column
`c`, and colours match on common edges. -/
structure WangTorus (W : List Wang) (w h : ℕ) (F : ℕ → ℕ → Wang) : Prop where
  mem : ∀ r c, F r c ∈ W
  horz : ∀ r c, (F r c).2.2.2 = (F r (c + 1)).1
  vert : ∀ r c, (F r c).2.2.1 = (F (r + 1) c).2.1
  rows : ∀ r c, F (r + h) c = F r c
  cols : ∀ r c, F r (c + w) = F r c

/-- There is a tiling of some torus. -/
def WangPeriodic (W : List Wang) : Prop := ∃ w h F, 1 ≤ w ∧ 1 ≤ h ∧ WangTorus W w h F

/-- A rectangle of `m` rows and `n` columns is tiled. -/
structure WangPatch (W : List Wang) (m n : ℕ) (F : ℕ → ℕ → Wang) : Prop where
  mem : ∀ r < m, ∀ c < n, F r c ∈ W
  horz : ∀ r < m, ∀ c, c + 1 < n → (F r c).2.2.2 = (F r (c + 1)).1
  vert : ∀ r, r + 1 < m → ∀ c < n, (F r c).2.2.1 = (F (r + 1) c).2.1

/-- A tile is given by its west and north colour. -/
def NWDeterministic (W : List Wang) : Prop :=
  ∀ a b c d c' d', (a, b, c, d) ∈ W → (a, b, c', d') ∈ W → c = c' ∧ d = d'

/-- A tiling of a torus with actions: an action is a tile whose south and east colour are the same. -/
structure ActTorus (acts : List (ℕ × ℕ × ℕ)) (w h : ℕ) (T : ℕ → ℕ → ℕ) : Prop where
  tile : ∀ r c, (T (r + 1) c, T r (c + 1), T (r + 1) (c + 1)) ∈ acts
  rows : ∀ r c, T (r + h) c = T r c
  cols : ∀ r c, T r (c + w) = T r c

/-- There is a tiling of some torus with actions. -/
def ActPeriodic (acts : List (ℕ × ℕ × ℕ)) : Prop := ∃ w h T, 1 ≤ w ∧ 1 ≤ h ∧ ActTorus acts w h T

end Verif.Spec
