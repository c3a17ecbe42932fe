import Verif.Spec.Wang
import Mathlib.Tactic.Common
import Mathlib.Tactic.Ring

/-!
Tilings with Wang tiles and tilings with the action tiles of the two reductions, with symbols instead of numbers.
-/

namespace Verif.Proofs
open Verif.Spec

variable {W : List Wang}

/-! ### Tilings with a relation of symbols -/

/-- A tiling of a torus with the triples of a relation. -/
structure SymTorus {α : Type} (R : α → α → α → Prop) (w h : ℕ) (T : ℕ → ℕ → α) : Prop where
  tile : ∀ r c, R (T (r + 1) c) (T r (c + 1)) (T (r + 1) (c + 1))
  rows : ∀ r c, T (r + h) c = T r c
  cols : ∀ r c, T r (c + w) = T r c

variable {α : Type} {R : α → α → α → Prop} {w h : ℕ} {T : ℕ → ℕ → α}

theorem SymTorus.shift (ht : SymTorus R w h T) (i j : ℕ) : SymTorus R w h fun r c => T (r + i) (c + j) := by
  refine ⟨fun r c => ?_, fun r c => ?_, fun r c => ?_⟩
  · have := ht.tile (r + i) (c + j)
    rwa [show r + i + 1 = r + 1 + i by omega, show c + j + 1 = c + 1 + j by omega] at this
  · rw [show r + h + i = r + i + h by omega, ht.rows]
  · rw [show c + w + j = c + j + w by omega, ht.cols]

theorem SymTorus.rows_mul (ht : SymTorus R w h T) (k r c : ℕ) : T (r + k * h) c = T r c := by
  induction k with
  | zero => simp
  | succ k ih => rw [Nat.succ_mul, ← Nat.add_assoc, ht.rows, ih]

theorem SymTorus.cols_mul (ht : SymTorus R w h T) (k r c : ℕ) : T r (c + k * w) = T r c := by
  induction k with
  | zero => simp
  | succ k ih => rw [Nat.succ_mul, ← Nat.add_assoc, ht.cols, ih]

/-! ### The reduction to action tiles -/

/-- The symbols of the reduction: `$`, a colour marked for west and east, one marked for north and south, and the pair
of the south and east colour of a tile. -/
inductive Col
  | doll
  | ri (a : ℕ)
  | up (b : ℕ)
  | cd (c d : ℕ)
  deriving DecidableEq

/-- The action tiles of the reduction. -/
inductive ColStep (W : List Wang) : Col → Col → Col → Prop
  | tl {a b c d : ℕ} : (a, b, c, d) ∈ W → ColStep W (.ri a) (.up b) (.cd c d)
  | bl {a b c d : ℕ} : (a, b, c, d) ∈ W → ColStep W .doll (.cd c d) (.up c)
  | tr {a b c d : ℕ} : (a, b, c, d) ∈ W → ColStep W (.cd c d) .doll (.ri d)
  | br {a b c d : ℕ} : (a, b, c, d) ∈ W → ColStep W (.up c) (.ri d) .doll

/-- The symbols of a tiling made from a tiling with Wang tiles. -/
def colOf (F : ℕ → ℕ → Wang) (r c : ℕ) : Col :=
  let t := F (r / 2) (c / 2)
  if r % 2 = 0 then if c % 2 = 0 then .cd t.2.2.1 t.2.2.2 else .ri t.2.2.2
  else if c % 2 = 0 then .up t.2.2.1 else .doll

theorem torus_patch {F : ℕ → ℕ → Wang} (ht : WangTorus W w h F) (m n : ℕ) : WangPatch W m n F :=
  ⟨fun r _ c _ => ht.mem r c, fun r _ c _ => ht.horz r c, fun r _ c _ => ht.vert r c⟩

/-- Wang tiles are replaced by four action tiles. -/
theorem colOf_step {F : ℕ → ℕ → Wang} {m n : ℕ} (hp : WangPatch W m n F) {r c : ℕ} (hr : r + 1 < 2 * m)
    (hc : c + 1 < 2 * n) : ColStep W (colOf F (r + 1) c) (colOf F r (c + 1)) (colOf F (r + 1) (c + 1)) := by
  rcases Nat.even_or_odd' r with ⟨i, rfl | rfl⟩ <;> rcases Nat.even_or_odd' c with ⟨j, rfl | rfl⟩
  · have e1 : colOf F (2 * i + 1) (2 * j) = .up (F i j).2.2.1 := by
      simp [colOf, show (2 * i + 1) / 2 = i by omega, show (2 * i + 1) % 2 = 1 by omega]
    have e2 : colOf F (2 * i) (2 * j + 1) = .ri (F i j).2.2.2 := by
      simp [colOf, show (2 * j + 1) / 2 = j by omega, show (2 * j + 1) % 2 = 1 by omega]
    have e3 : colOf F (2 * i + 1) (2 * j + 1) = .doll := by
      simp [colOf, show (2 * i + 1) % 2 = 1 by omega, show (2 * j + 1) % 2 = 1 by omega]
    rw [e1, e2, e3]
    exact .br (hp.mem i (by omega) j (by omega))
  · have e1 : colOf F (2 * i + 1) (2 * j + 1) = .doll := by
      simp [colOf, show (2 * i + 1) % 2 = 1 by omega, show (2 * j + 1) % 2 = 1 by omega]
    have e2 : colOf F (2 * i) (2 * j + 1 + 1) = .cd (F i (j + 1)).2.2.1 (F i (j + 1)).2.2.2 := by
      simp [colOf, show (2 * j + 1 + 1) / 2 = j + 1 by omega, show (2 * j + 1 + 1) % 2 = 0 by omega]
    have e3 : colOf F (2 * i + 1) (2 * j + 1 + 1) = .up (F i (j + 1)).2.2.1 := by
      simp [colOf, show (2 * j + 1 + 1) / 2 = j + 1 by omega, show (2 * j + 1 + 1) % 2 = 0 by omega,
        show (2 * i + 1) / 2 = i by omega, show (2 * i + 1) % 2 = 1 by omega]
    rw [e1, e2, e3]
    exact .bl (hp.mem i (by omega) (j + 1) (by omega))
  · have e1 : colOf F (2 * i + 1 + 1) (2 * j) = .cd (F (i + 1) j).2.2.1 (F (i + 1) j).2.2.2 := by
      simp [colOf, show (2 * i + 1 + 1) / 2 = i + 1 by omega, show (2 * i + 1 + 1) % 2 = 0 by omega]
    have e2 : colOf F (2 * i + 1) (2 * j + 1) = .doll := by
      simp [colOf, show (2 * i + 1) % 2 = 1 by omega, show (2 * j + 1) % 2 = 1 by omega]
    have e3 : colOf F (2 * i + 1 + 1) (2 * j + 1) = .ri (F (i + 1) j).2.2.2 := by
      simp [colOf, show (2 * i + 1 + 1) / 2 = i + 1 by omega, show (2 * i + 1 + 1) % 2 = 0 by omega,
        show (2 * j + 1) / 2 = j by omega, show (2 * j + 1) % 2 = 1 by omega]
    rw [e1, e2, e3]
    exact .tr (hp.mem (i + 1) (by omega) j (by omega))
  · have e1 : colOf F (2 * i + 1 + 1) (2 * j + 1) = .ri (F (i + 1) j).2.2.2 := by
      simp [colOf, show (2 * i + 1 + 1) / 2 = i + 1 by omega, show (2 * i + 1 + 1) % 2 = 0 by omega,
        show (2 * j + 1) / 2 = j by omega, show (2 * j + 1) % 2 = 1 by omega]
    have e2 : colOf F (2 * i + 1) (2 * j + 1 + 1) = .up (F i (j + 1)).2.2.1 := by
      simp [colOf, show (2 * j + 1 + 1) / 2 = j + 1 by omega, show (2 * j + 1 + 1) % 2 = 0 by omega,
        show (2 * i + 1) / 2 = i by omega, show (2 * i + 1) % 2 = 1 by omega]
    have e3 : colOf F (2 * i + 1 + 1) (2 * j + 1 + 1) =
        .cd (F (i + 1) (j + 1)).2.2.1 (F (i + 1) (j + 1)).2.2.2 := by
      simp [colOf, show (2 * j + 1 + 1) / 2 = j + 1 by omega, show (2 * j + 1 + 1) % 2 = 0 by omega,
        show (2 * i + 1 + 1) / 2 = i + 1 by omega, show (2 * i + 1 + 1) % 2 = 0 by omega]
    rw [e1, e2, e3, hp.horz (i + 1) (by omega) j (by omega), hp.vert i (by omega) (j + 1) (by omega)]
    exact .tl (hp.mem (i + 1) (by omega) (j + 1) (by omega))

/-- A tiling of a torus with Wang tiles is one with action tiles. -/
theorem colOf_torus {F : ℕ → ℕ → Wang} (ht : WangTorus W w h F) :
    SymTorus (ColStep W) (2 * w) (2 * h) (colOf F) := by
  refine ⟨fun r c => colOf_step (torus_patch ht (r + 2) (c + 2)) (by omega) (by omega), fun r c => ?_, fun r c => ?_⟩
  · have e1 : (r + 2 * h) / 2 = r / 2 + h := by omega
    have e2 : (r + 2 * h) % 2 = r % 2 := by omega
    simp only [colOf, e1, e2, ht.rows]
  · have e1 : (c + 2 * w) / 2 = c / 2 + w := by omega
    have e2 : (c + 2 * w) % 2 = c % 2 := by omega
    simp only [colOf, e1, e2, ht.cols]

private theorem right_cd {x y : ℕ} {p q : Col} (h : ColStep W (.cd x y) p q) : q = .ri y := by
  cases h; rfl

private theorem right_ri {a : ℕ} {p q : Col} (h : ColStep W (.ri a) p q) : ∃ x y, q = .cd x y := by
  cases h; exact ⟨_, _, rfl⟩

private theorem right_doll {p q : Col} (h : ColStep W .doll p q) : ∃ x, q = .up x := by
  cases h; exact ⟨_, rfl⟩

private theorem below_cd {x y : ℕ} {p q : Col} (h : ColStep W p (.cd x y) q) : q = .up x := by
  cases h; rfl

private theorem below_up {b : ℕ} {p q : Col} (h : ColStep W p (.up b) q) : ∃ x y, q = .cd x y := by
  cases h; exact ⟨_, _, rfl⟩

private theorem cd_tile {x y : ℕ} {p q : Col} (h : ColStep W p q (.cd x y)) :
    ∃ a b, (a, b, x, y) ∈ W ∧ p = .ri a ∧ q = .up b := by
  cases h with
  | tl hm => exact ⟨_, _, hm, rfl, rfl⟩

private theorem exists_tl {T : ℕ → ℕ → Col} (ht : SymTorus (ColStep W) w h T) :
    ∃ r c x y, T (r + 1) (c + 1) = .cd x y := by
  cases e : T 1 1 with
  | cd x y => exact ⟨0, 0, x, y, e⟩
  | up b =>
    have h1 := ht.tile 1 0
    simp only [Nat.zero_add, Nat.reduceAdd, e] at h1
    obtain ⟨x, y, e'⟩ := below_up h1
    exact ⟨1, 0, x, y, e'⟩
  | ri a =>
    have h1 := ht.tile 0 1
    simp only [Nat.zero_add, Nat.reduceAdd, e] at h1
    obtain ⟨x, y, e'⟩ := right_ri h1
    exact ⟨0, 1, x, y, e'⟩
  | doll =>
    have h1 := ht.tile 0 1
    simp only [Nat.zero_add, Nat.reduceAdd, e] at h1
    obtain ⟨b, e'⟩ := right_doll h1
    have h2 := ht.tile 1 1
    simp only [Nat.reduceAdd, e'] at h2
    obtain ⟨x, y, e''⟩ := below_up h2
    exact ⟨1, 1, x, y, e''⟩

private theorem next_tl {T : ℕ → ℕ → Col} (ht : SymTorus (ColStep W) w h T) {r c x y : ℕ}
    (h0 : T (r + 1) (c + 1) = .cd x y) :
    (T (r + 1) (c + 2) = .ri y ∧ ∃ x' y', T (r + 1) (c + 3) = .cd x' y') ∧
      (T (r + 2) (c + 1) = .up x ∧ ∃ x' y', T (r + 3) (c + 1) = .cd x' y') := by
  constructor
  · have h1 := ht.tile r (c + 1)
    rw [h0] at h1
    have e := right_cd h1
    have h2 := ht.tile r (c + 1 + 1)
    rw [e] at h2
    exact ⟨e, right_ri h2⟩
  · have h1 := ht.tile (r + 1) c
    rw [h0] at h1
    have e := below_cd h1
    have h2 := ht.tile (r + 1 + 1) c
    rw [e] at h2
    exact ⟨e, below_up h2⟩

/-- A tiling with action tiles contains one with Wang tiles. -/
theorem wang_of_col {T : ℕ → ℕ → Col} (hw : 1 ≤ w) (hh : 1 ≤ h) (ht : SymTorus (ColStep W) w h T) :
    WangPeriodic W := by
  obtain ⟨r0, c0, x0, y0, h0⟩ := exists_tl ht
  have all : ∀ i j, ∃ x y, T (r0 + 2 * i + 1) (c0 + 2 * j + 1) = .cd x y := by
    intro i j
    induction i with
    | zero =>
      induction j with
      | zero => exact ⟨_, _, h0⟩
      | succ j ih =>
        obtain ⟨x, y, e⟩ := ih
        exact (next_tl ht e).1.2
    | succ i ih =>
      obtain ⟨x, y, e⟩ := ih
      exact (next_tl ht e).2.2
  -- the Wang tile at a position is determined by the symbols around it
  have tile : ∀ i j, ∃ t : Wang, t ∈ W ∧ T (r0 + 2 * i + 1) (c0 + 2 * j) = .ri t.1 ∧
      T (r0 + 2 * i) (c0 + 2 * j + 1) = .up t.2.1 ∧ T (r0 + 2 * i + 1) (c0 + 2 * j + 1) = .cd t.2.2.1 t.2.2.2 := by
    intro i j
    obtain ⟨x, y, e⟩ := all i j
    have h1 := ht.tile (r0 + 2 * i) (c0 + 2 * j)
    rw [e] at h1
    obtain ⟨a, b, hm, e1, e2⟩ := cd_tile h1
    exact ⟨_, hm, e1, e2, e⟩
  choose F hF hW hN hSE using tile
  have inj : ∀ i j i' j', T (r0 + 2 * i + 1) (c0 + 2 * j) = T (r0 + 2 * i' + 1) (c0 + 2 * j') →
      T (r0 + 2 * i) (c0 + 2 * j + 1) = T (r0 + 2 * i') (c0 + 2 * j' + 1) →
      T (r0 + 2 * i + 1) (c0 + 2 * j + 1) = T (r0 + 2 * i' + 1) (c0 + 2 * j' + 1) → F i j = F i' j' := by
    intro i j i' j' g1 g2 g3
    rw [hW, hW, Col.ri.injEq] at g1
    rw [hN, hN, Col.up.injEq] at g2
    rw [hSE, hSE, Col.cd.injEq] at g3
    exact Prod.ext g1 (Prod.ext g2 (Prod.ext g3.1 g3.2))
  refine ⟨w, h, F, hw, hh, hF, fun i j => ?_, fun i j => ?_, fun i j => ?_, fun i j => ?_⟩
  · have h1 := (next_tl ht (hSE i j)).1.1
    have h2 := hW i (j + 1)
    rw [show c0 + 2 * (j + 1) = c0 + 2 * j + 2 by omega, h1, Col.ri.injEq] at h2
    exact h2
  · have h1 := (next_tl ht (hSE i j)).2.1
    have h2 := hN (i + 1) j
    rw [show r0 + 2 * (i + 1) = r0 + 2 * i + 2 by omega, h1, Col.up.injEq] at h2
    exact h2
  · have key : ∀ k c, T (r0 + 2 * (i + h) + k) c = T (r0 + 2 * i + k) c := fun k c => by
      rw [show r0 + 2 * (i + h) + k = r0 + 2 * i + k + 2 * h by ring, ht.rows_mul]
    exact inj _ _ _ _ (key 1 _) (key 0 _) (key 1 _)
  · have key : ∀ k r, T r (c0 + 2 * (j + w) + k) = T r (c0 + 2 * j + k) := fun k r => by
      rw [show c0 + 2 * (j + w) + k = c0 + 2 * j + k + 2 * w by ring, ht.cols_mul]
    exact inj _ _ _ _ (key 0 _) (key 1 _) (key 1 _)

end Verif.Proofs
