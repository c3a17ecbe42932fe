import Mathlib.Logic.Relation
import Mathlib.Data.Finset.Basic
import Verif.Spec.Tile

/-!
Specification vocabulary for the search for ring protocols: closed walks in a digraph, actions that exclude each
other, and bands of tiles.
-/

namespace Verif.Spec

/-- There is a walk with at least one arc from `x` to itself. -/
def OnClosedWalk (E : ℕ → ℕ → Prop) (x : ℕ) : Prop := Relation.TransGen E x x

/-- The list shows a closed walk: an arc from each entry to the next and from the last to the first. -/
def ClosedWalk (E : ℕ → ℕ → Prop) (l : List ℕ) : Prop :=
  l ≠ [] ∧ (∀ (i : ℕ) (x y : ℕ), l[i]? = some x → l[i + 1]? = some y → E x y) ∧
    ∀ x y, l.getLast? = some x → l.head? = some y → E x y

/-- Two actions, each a triple of the value of the predecessor, the own value and the new own value, exclude each
other: they are enabled together, one enables the other in the same process, or they
give a livelock of two actions. -/
def Exclude (nw : Bool) (x y : ℕ × ℕ × ℕ) : Prop :=
  (y.1 = x.1 ∧ y.2.1 = x.2.1) ∨
  (y.1 = x.1 ∧ y.2.1 = x.2.2) ∨
  (y.1 = x.1 ∧ y.2.2 = x.2.1) ∨
  (x.1 = x.2.1 ∧ y.1 = x.2.2 ∧ y.2.1 = x.2.2 ∧ y.2.2 = x.1) ∨
  (x.1 = x.2.2 ∧ y.1 = x.2.1 ∧ y.2.1 = x.1 ∧ y.2.2 = x.2.1) ∨
  (nw = true ∧ y.2.1 = x.2.1 ∧ (y.1 = x.2.2 ∨ y.2.2 = x.1))

/-- Three rows of tiles that repeat after `n` columns: the tiles of the middle and the lower row are given, the tiles
of the upper row have to exist one by one. -/
structure Band (R : ℕ → ℕ → ℕ → Prop) (n : ℕ) (t m b : ℕ → ℕ) : Prop where
  pos : 1 ≤ n
  top : ∀ i, ∃ x, R (t i) x (t (i + 1))
  mid : ∀ i, R (m i) (t (i + 1)) (m (i + 1))
  bot : ∀ i, R (b i) (m (i + 1)) (b (i + 1))
  pt : ∀ i, t (i + n) = t i
  pm : ∀ i, m (i + n) = m i
  pb : ∀ i, b (i + n) = b i

/-- The pair of values west and north of a tile is in the middle row of a band. -/
def InBand (R : ℕ → ℕ → ℕ → Prop) (a b : ℕ) : Prop := ∃ n t m bot, Band R n t m bot ∧ m 0 = a ∧ t 1 = b

/-- A row of tiles closed to a circle: `acts` gives the west and north values, `top` the values that result. -/
def ClosedRow (P : List ℕ) (d : ℕ) (acts : List (ℕ × ℕ)) (top : List ℕ) : Prop :=
  acts ≠ [] ∧ top.length = acts.length ∧ ∀ i < acts.length,
    PpgStep P d (acts.getD i (0, 0)).1 (acts.getD i (0, 0)).2 (top.getD i 0) ∧
      (acts.getD ((i + 1) % acts.length) (0, 0)).1 = top.getD i 0

/-- Rows 0 and 1 of the tiling `T` are the given closed row. -/
def StartsWith (T : ℕ → ℕ → ℕ) (acts : List (ℕ × ℕ)) (top : List ℕ) : Prop :=
  ∀ i < acts.length, T 0 (i + 1) = (acts.getD i (0, 0)).2 ∧ T 1 (i + 1) = top.getD i 0

/-- The protocols that the search is about: no action leaves the value unchanged, with the option no action copies the
value of the predecessor, and no two actions exclude each other. -/
structure SearchSpace (nw : Bool) (P : List ℕ) (d : ℕ) : Prop where
  len : P.length = d * d
  vals : ∀ v ∈ P, v ≤ d
  moves : ∀ a b c, PpgStep P d a b c → b ≠ c
  noCopy : nw = true → ∀ a b c, PpgStep P d a b c → c ≠ a
  compat : ∀ a b c a' b' c', PpgStep P d a b c → PpgStep P d a' b' c' → (a, b, c) ≠ (a', b', c') →
    ¬ Exclude nw (a, b, c) (a', b', c')

/-- The values of some action are named in the order in which they appear: an action enabled where both values are
equal if there is one, else an action that copies if there is one. -/
def FirstNamed (P : List ℕ) (d : ℕ) : Prop :=
  PpgStep P d 0 0 1 ∨
    (∀ a c, ¬ PpgStep P d a a c) ∧
      (PpgStep P d 0 1 0 ∨ (∀ a b, ¬ PpgStep P d a b a) ∧ PpgStep P d 0 1 2)

/-- Each action is in the middle row of a band. -/
def AllInBands (P : List ℕ) (d : ℕ) : Prop := ∀ a b c, PpgStep P d a b c → InBand (PpgStep P d) a b

end Verif.Spec
