import Verif.Proofs.WangActs

/-!
The reduction to commutative action tiles, with symbols instead of numbers.
-/

namespace Verif.Proofs
open Verif.Spec

variable {W : List Wang} {w h : ℕ}

/-- The symbols of the commutative reduction: `00`, `11`, `#`, `$`, pairs of south and east colours, and colours marked
once or twice for west and east or for north and south. -/
inductive Cm
  | z00
  | z11
  | hash
  | doll
  | cd (c d : ℕ)
  | ri (a : ℕ)
  | rri (d : ℕ)
  | up (b : ℕ)
  | uup (c : ℕ)
  deriving DecidableEq

/-- The tiles in the order of the picture at src/uni/aperiodic.cc:152-167. -/
inductive CmBase (W : List Wang) : Cm → Cm → Cm → Prop
  | t0 {a b c d : ℕ} : (a, b, c, d) ∈ W → CmBase W (.ri a) (.up b) (.cd c d)
  | t1 {a b c d : ℕ} : (a, b, c, d) ∈ W → CmBase W (.cd c d) .z00 (.rri d)
  | t2 {a b c d : ℕ} : (a, b, c, d) ∈ W → CmBase W (.rri d) .doll (.ri d)
  | m0 {a b c d : ℕ} : (a, b, c, d) ∈ W → CmBase W .z11 (.cd c d) (.uup c)
  | m1 {a b c d : ℕ} : (a, b, c, d) ∈ W → CmBase W (.uup c) (.rri d) .hash
  | m2 {a b c d : ℕ} : (a, b, c, d) ∈ W → CmBase W .hash (.ri d) .z11
  | b0 {a b c d : ℕ} : (a, b, c, d) ∈ W → CmBase W .doll (.uup c) (.up c)
  | b1 {a b c d : ℕ} : (a, b, c, d) ∈ W → CmBase W (.up c) .hash .z00
  | b2 {a b c d : ℕ} : (a, b, c, d) ∈ W → CmBase W .z00 .z11 .doll

/-- The tiles and their reflections. -/
def CmStep (W : List Wang) (x y z : Cm) : Prop := CmBase W x y z ∨ CmBase W y x z

/-- The symbols of a tiling made from a tiling with Wang tiles. -/
def cmOf (F : ℕ → ℕ → Wang) (r c : ℕ) : Cm :=
  let t := F (r / 3) (c / 3)
  match r % 3, c % 3 with
  | 0, 0 => .cd t.2.2.1 t.2.2.2
  | 0, 1 => .rri t.2.2.2
  | 0, _ => .ri t.2.2.2
  | 1, 0 => .uup t.2.2.1
  | 1, 1 => .hash
  | 1, _ => .z11
  | _, 0 => .up t.2.2.1
  | _, 1 => .z00
  | _, _ => .doll

private theorem cmOf_at (F : ℕ → ℕ → Wang) (i j : ℕ) :
    cmOf F (3 * i) (3 * j) = .cd (F i j).2.2.1 (F i j).2.2.2 ∧ cmOf F (3 * i) (3 * j + 1) = .rri (F i j).2.2.2 ∧
    cmOf F (3 * i) (3 * j + 2) = .ri (F i j).2.2.2 ∧ cmOf F (3 * i + 1) (3 * j) = .uup (F i j).2.2.1 ∧
    cmOf F (3 * i + 1) (3 * j + 1) = .hash ∧ cmOf F (3 * i + 1) (3 * j + 2) = .z11 ∧
    cmOf F (3 * i + 2) (3 * j) = .up (F i j).2.2.1 ∧ cmOf F (3 * i + 2) (3 * j + 1) = .z00 ∧
    cmOf F (3 * i + 2) (3 * j + 2) = .doll := by
  have d0 : ∀ k, (3 * k) / 3 = k := by omega
  have d1 : ∀ k, (3 * k + 1) / 3 = k := by omega
  have d2 : ∀ k, (3 * k + 2) / 3 = k := by omega
  have m0 : ∀ k, (3 * k) % 3 = 0 := by omega
  have m1 : ∀ k, (3 * k + 1) % 3 = 1 := by omega
  have m2 : ∀ k, (3 * k + 2) % 3 = 2 := by omega
  simp only [cmOf, d0, d1, d2, m0, m1, m2, and_self]

private theorem three (r : ℕ) : ∃ i, r = 3 * i ∨ r = 3 * i + 1 ∨ r = 3 * i + 2 := ⟨r / 3, by omega⟩

/-- Wang tiles are replaced by nine action tiles. -/
theorem cmOf_step {F : ℕ → ℕ → Wang} {m n : ℕ} (hp : WangPatch W m n F) {r c : ℕ} (hr : r + 1 < 3 * m)
    (hc : c + 1 < 3 * n) : CmBase W (cmOf F (r + 1) c) (cmOf F r (c + 1)) (cmOf F (r + 1) (c + 1)) := by
  have e : ∀ k, 3 * k + 2 + 1 = 3 * (k + 1) := fun k => by ring
  obtain ⟨i, hi⟩ := three r
  obtain ⟨j, hj⟩ := three c
  obtain ⟨a1, a2, a3, a4, a5, a6, a7, a8, a9⟩ := cmOf_at F i j
  obtain ⟨b1, b2, b3, b4, b5, b6, b7, b8, b9⟩ := cmOf_at F (i + 1) j
  obtain ⟨c1, c2, c3, c4, c5, c6, c7, c8, c9⟩ := cmOf_at F i (j + 1)
  obtain ⟨d1, -⟩ := cmOf_at F (i + 1) (j + 1)
  rcases hi with rfl | rfl | rfl <;> rcases hj with rfl | rfl | rfl
  · rw [a4, a2, a5]; exact .m1 (hp.mem i (by omega) j (by omega))
  · rw [a5, a3, a6]; exact .m2 (hp.mem i (by omega) j (by omega))
  · rw [e, a6, c1, c4]; exact .m0 (hp.mem i (by omega) (j + 1) (by omega))
  · rw [a7, a5, a8]; exact .b1 (hp.mem i (by omega) j (by omega))
  · rw [a8, a6, a9]; exact .b2 (hp.mem i (by omega) j (by omega))
  · rw [e, a9, c4, c7]; exact .b0 (hp.mem i (by omega) (j + 1) (by omega))
  · rw [e, b1, a8, b2]; exact .t1 (hp.mem (i + 1) (by omega) j (by omega))
  · rw [e, b2, a9, b3]; exact .t2 (hp.mem (i + 1) (by omega) j (by omega))
  · rw [e, e, b3, c7, d1, hp.horz (i + 1) (by omega) j (by omega), hp.vert i (by omega) (j + 1) (by omega)]; exact .t0 (hp.mem (i + 1) (by omega) (j + 1) (by omega))

/-- A tiling of a torus with Wang tiles is one with action tiles. -/
theorem cmOf_torus {F : ℕ → ℕ → Wang} (ht : WangTorus W w h F) :
    SymTorus (CmBase W) (3 * w) (3 * h) (cmOf F) := by
  refine ⟨fun r c => cmOf_step (torus_patch ht (r + 2) (c + 2)) (by omega) (by omega), fun r c => ?_, fun r c => ?_⟩
  · have e1 : (r + 3 * h) / 3 = r / 3 + h := by omega
    have e2 : (r + 3 * h) % 3 = r % 3 := by omega
    simp only [cmOf, e1, e2, ht.rows]
  · have e1 : (c + 3 * w) / 3 = c / 3 + w := by omega
    have e2 : (c + 3 * w) % 3 = c % 3 := by omega
    simp only [cmOf, e1, e2, ht.cols]

/-! ### No tiling mixes tiles and their reflections -/

private theorem base_right {x y z n z' u : Cm} (h : CmBase W x y z) (h1 : CmStep W z n z') (h2 : CmStep W y u n) :
    CmBase W z n z' := by
  rcases h1 with h1 | h1
  · exact h1
  · exfalso
    cases h <;> cases h1 <;> rcases h2 with h2 | h2 <;> cases h2

private theorem base_below {x y z n z' u : Cm} (h : CmBase W x y z) (h1 : CmStep W n z z') (h2 : CmStep W u x n) :
    CmBase W n z z' := by
  rcases h1 with h1 | h1
  · exact h1
  · exfalso
    cases h <;> cases h1 <;> rcases h2 with h2 | h2 <;> cases h2

private theorem all_base {T : ℕ → ℕ → Cm} (ht : SymTorus (CmStep W) w h T)
    (h0 : CmBase W (T 2 1) (T 1 2) (T 2 2)) : SymTorus (CmBase W) w h fun r c => T (r + 1) (c + 1) := by
  refine ⟨fun r c => ?_, (ht.shift 1 1).rows, (ht.shift 1 1).cols⟩
  show CmBase W (T (r + 2) (c + 1)) (T (r + 1) (c + 2)) (T (r + 2) (c + 2))
  induction r with
  | zero =>
    induction c with
    | zero => exact h0
    | succ c ih => exact base_right ih (ht.tile 1 (c + 2)) (ht.tile 0 (c + 2))
  | succ r ih => exact base_below ih (ht.tile (r + 2) (c + 1)) (ht.tile (r + 2) c)

private theorem base_torus {T : ℕ → ℕ → Cm} (ht : SymTorus (CmStep W) w h T) :
    (∃ T', SymTorus (CmBase W) w h T') ∨ ∃ T', SymTorus (CmBase W) h w T' := by
  rcases ht.tile 1 1 with h0 | h0
  · exact .inl ⟨_, all_base ht h0⟩
  · have ht' : SymTorus (CmStep W) h w fun r c => T c r :=
      ⟨fun r c => (ht.tile c r).symm, fun r c => ht.cols c r, fun r c => ht.rows c r⟩
    exact .inr ⟨_, all_base ht' h0⟩

/-! ### A tiling contains a tiling with Wang tiles -/

private theorem right_cd {x y : ℕ} {p q : Cm} (h : CmBase W (.cd x y) p q) : q = .rri y := by cases h; rfl

private theorem right_rri {y : ℕ} {p q : Cm} (h : CmBase W (.rri y) p q) : q = .ri y := by cases h; rfl

private theorem right_ri {y : ℕ} {p q : Cm} (h : CmBase W (.ri y) p q) : ∃ x y, q = .cd x y := by
  cases h; exact ⟨_, _, rfl⟩

private theorem below_cd {x y : ℕ} {p q : Cm} (h : CmBase W p (.cd x y) q) : q = .uup x := by cases h; rfl

private theorem below_uup {x : ℕ} {p q : Cm} (h : CmBase W p (.uup x) q) : q = .up x := by cases h; rfl

private theorem below_up {x : ℕ} {p q : Cm} (h : CmBase W p (.up x) q) : ∃ x y, q = .cd x y := by
  cases h; exact ⟨_, _, rfl⟩

private theorem right_hash {p q : Cm} (h : CmBase W .hash p q) : q = .z11 := by cases h; rfl

private theorem right_z11 {p q : Cm} (h : CmBase W .z11 p q) : ∃ x, q = .uup x := by cases h; exact ⟨_, rfl⟩

private theorem right_z00 {p q : Cm} (h : CmBase W .z00 p q) : q = .doll := by cases h; rfl

private theorem right_doll {p q : Cm} (h : CmBase W .doll p q) : ∃ x, q = .up x := by cases h; exact ⟨_, rfl⟩

private theorem cd_tile {x y : ℕ} {p q : Cm} (h : CmBase W p q (.cd x y)) :
    ∃ a b, (a, b, x, y) ∈ W ∧ p = .ri a ∧ q = .up b := by
  cases h with
  | t0 hm => exact ⟨_, _, hm, rfl, rfl⟩

private theorem exists_t0 {T : ℕ → ℕ → Cm} (ht : SymTorus (CmBase W) w h T) :
    ∃ r c x y, T (r + 1) (c + 1) = .cd x y := by
  have key : ∀ c, (∃ x y, T 1 (c + 1) = .cd x y) ∨ (∃ x, T 1 (c + 1) = .uup x) ∨ (∃ x, T 1 (c + 1) = .up x) →
      ∃ r c x y, T (r + 1) (c + 1) = .cd x y := by
    rintro c (⟨x, y, e⟩ | ⟨x, e⟩ | ⟨x, e⟩)
    · exact ⟨0, c, x, y, e⟩
    · have e1 := below_uup (e ▸ ht.tile 1 c)
      obtain ⟨x', y', e2⟩ := below_up (e1 ▸ ht.tile 2 c)
      exact ⟨2, c, x', y', e2⟩
    · obtain ⟨x', y', e2⟩ := below_up (e ▸ ht.tile 1 c)
      exact ⟨1, c, x', y', e2⟩
  have h1 := fun c => ht.tile 0 c
  simp only [Nat.zero_add] at h1
  have z11 : ∀ c, T 1 c = .z11 → ∃ r c x y, T (r + 1) (c + 1) = .cd x y := fun c e =>
    key c (.inr (.inl (right_z11 (e ▸ h1 c))))
  have doll : ∀ c, T 1 c = .doll → ∃ r c x y, T (r + 1) (c + 1) = .cd x y := fun c e =>
    key c (.inr (.inr (right_doll (e ▸ h1 c))))
  have ri : ∀ c a, T 1 c = .ri a → ∃ r c x y, T (r + 1) (c + 1) = .cd x y := fun c a e =>
    key c (.inl (right_ri (e ▸ h1 c)))
  cases e : T 1 1 with
  | cd x y => exact key 0 (.inl ⟨x, y, e⟩)
  | up b => exact key 0 (.inr (.inr ⟨b, e⟩))
  | uup b => exact key 0 (.inr (.inl ⟨b, e⟩))
  | ri a => exact ri 1 a e
  | rri a => exact ri 2 a (right_rri (e ▸ h1 1))
  | z11 => exact z11 1 e
  | doll => exact doll 1 e
  | hash => exact z11 2 (right_hash (e ▸ h1 1))
  | z00 => exact doll 2 (right_z00 (e ▸ h1 1))

private theorem next_t0 {T : ℕ → ℕ → Cm} (ht : SymTorus (CmBase W) w h T) {r c x y : ℕ}
    (h0 : T (r + 1) (c + 1) = .cd x y) :
    (T (r + 1) (c + 3) = .ri y ∧ ∃ x' y', T (r + 1) (c + 4) = .cd x' y') ∧
      (T (r + 3) (c + 1) = .up x ∧ ∃ x' y', T (r + 4) (c + 1) = .cd x' y') := by
  constructor
  · have e1 := right_cd (h0 ▸ ht.tile r (c + 1))
    have e2 := right_rri (e1 ▸ ht.tile r (c + 2))
    exact ⟨e2, right_ri (e2 ▸ ht.tile r (c + 3))⟩
  · have e1 := below_cd (h0 ▸ ht.tile (r + 1) c)
    have e2 := below_uup (e1 ▸ ht.tile (r + 2) c)
    exact ⟨e2, below_up (e2 ▸ ht.tile (r + 3) c)⟩

private theorem wang_of_base {T : ℕ → ℕ → Cm} (hw : 1 ≤ w) (hh : 1 ≤ h) (ht : SymTorus (CmBase W) w h T) :
    WangPeriodic W := by
  obtain ⟨r0, c0, x0, y0, h0⟩ := exists_t0 ht
  have all : ∀ i j, ∃ x y, T (r0 + 3 * i + 1) (c0 + 3 * j + 1) = .cd x y := by
    intro i j
    induction i with
    | zero =>
      induction j with
      | zero => exact ⟨_, _, h0⟩
      | succ j ih =>
        obtain ⟨x, y, e⟩ := ih
        exact (next_t0 ht e).1.2
    | succ i ih =>
      obtain ⟨x, y, e⟩ := ih
      exact (next_t0 ht e).2.2
  have tile : ∀ i j, ∃ t : Wang, t ∈ W ∧ T (r0 + 3 * i + 1) (c0 + 3 * j) = .ri t.1 ∧
      T (r0 + 3 * i) (c0 + 3 * j + 1) = .up t.2.1 ∧ T (r0 + 3 * i + 1) (c0 + 3 * j + 1) = .cd t.2.2.1 t.2.2.2 := by
    intro i j
    obtain ⟨x, y, e⟩ := all i j
    have h1 := ht.tile (r0 + 3 * i) (c0 + 3 * j)
    rw [e] at h1
    obtain ⟨a, b, hm, e1, e2⟩ := cd_tile h1
    exact ⟨_, hm, e1, e2, e⟩
  choose F hF hW hN hSE using tile
  have inj : ∀ i j i' j', T (r0 + 3 * i + 1) (c0 + 3 * j) = T (r0 + 3 * i' + 1) (c0 + 3 * j') →
      T (r0 + 3 * i) (c0 + 3 * j + 1) = T (r0 + 3 * i') (c0 + 3 * j' + 1) →
      T (r0 + 3 * i + 1) (c0 + 3 * j + 1) = T (r0 + 3 * i' + 1) (c0 + 3 * j' + 1) → F i j = F i' j' := by
    intro i j i' j' g1 g2 g3
    rw [hW, hW, Cm.ri.injEq] at g1
    rw [hN, hN, Cm.up.injEq] at g2
    rw [hSE, hSE, Cm.cd.injEq] at g3
    exact Prod.ext g1 (Prod.ext g2 (Prod.ext g3.1 g3.2))
  refine ⟨w, h, F, hw, hh, hF, fun i j => ?_, fun i j => ?_, fun i j => ?_, fun i j => ?_⟩
  · have h1 := (next_t0 ht (hSE i j)).1.1
    have h2 := hW i (j + 1)
    rw [show c0 + 3 * (j + 1) = c0 + 3 * j + 3 by omega, h1, Cm.ri.injEq] at h2
    exact h2
  · have h1 := (next_t0 ht (hSE i j)).2.1
    have h2 := hN (i + 1) j
    rw [show r0 + 3 * (i + 1) = r0 + 3 * i + 3 by omega, h1, Cm.up.injEq] at h2
    exact h2
  · have key : ∀ k c, T (r0 + 3 * (i + h) + k) c = T (r0 + 3 * i + k) c := fun k c => by
      rw [show r0 + 3 * (i + h) + k = r0 + 3 * i + k + 3 * h by ring, ht.rows_mul]
    exact inj _ _ _ _ (key 1 _) (key 0 _) (key 1 _)
  · have key : ∀ k r, T r (c0 + 3 * (j + w) + k) = T r (c0 + 3 * j + k) := fun k r => by
      rw [show c0 + 3 * (j + w) + k = c0 + 3 * j + k + 3 * w by ring, ht.cols_mul]
    exact inj _ _ _ _ (key 0 _) (key 1 _) (key 1 _)

/-- A tiling with commutative action tiles contains one with Wang tiles. -/
theorem wang_of_cm {T : ℕ → ℕ → Cm} (hw : 1 ≤ w) (hh : 1 ≤ h) (ht : SymTorus (CmStep W) w h T) :
    WangPeriodic W := by
  rcases base_torus ht with ⟨T', h'⟩ | ⟨T', h'⟩
  · exact wang_of_base hw hh h'
  · exact wang_of_base hh hw h'

end Verif.Proofs
