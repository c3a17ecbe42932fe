import Verif.Proofs.AperiodicCheck
import Verif.Proofs.AperiodicDescent
import Verif.Proofs.AperiodicPatch
import Verif.Proofs.LivelockTorus
import Verif.Props.Livelock

/-!
Squares of Wang tiles are triangles of actions, so the check for livelocks answers `May`.
-/

namespace Verif.Proofs
open Verif.Model Verif.Spec Verif.Props

variable {P : List ℕ} {d : ℕ}

theorem tri_of_grid {T : ℕ → ℕ → ℕ} {limit s c : ℕ}
    (tile : ∀ r < s + limit + 1, ∀ k < c + limit + 1, PpgStep P d (T (r + 1) k) (T r (k + 1)) (T (r + 1) (k + 1)))
    (zero : T (s + limit) (c + 1) = 0) : ∃ tri, Tri P d limit tri := by
  refine ⟨fun k i => T (s + (limit - k) + i) (c + 1 + k), fun k hk i hi => ?_, fun k _ i _ => ?_, fun k hk i hi => ?_⟩
  · have := (tile (s + (limit - k) + i) (by omega) (c + k) (by omega)).2.1
    rwa [show c + k + 1 = c + 1 + k by omega] at this
  · show T (s + (limit - 0) + 0) (c + 1 + 0) ≤ _
    rw [show s + (limit - 0) + 0 = s + limit by omega, Nat.add_zero, zero]
    exact Nat.zero_le _
  · have := tile (s + (limit - (k + 1)) + i) (by omega) (c + 1 + k) (by omega)
    show PpgStep P d (T (s + (limit - k) + i) (c + 1 + k)) (T (s + (limit - (k + 1)) + i) (c + 1 + k + 1))
      (T (s + (limit - (k + 1)) + (i + 1)) (c + 1 + k + 1))
    rw [show s + (limit - k) + i = s + (limit - (k + 1)) + i + 1 by omega,
      show s + (limit - (k + 1)) + (i + 1) = s + (limit - (k + 1)) + i + 1 by omega]
    exact this

/-- The check is undecided when there are triangles but no periodic tilings. -/
theorem may_of_tri {limit fuel : ℕ} (hP : PpgTable P d) (hl : 1 ≤ limit) (hf : limit ≤ fuel)
    (htri : ∃ tri, Tri P d limit tri) (hno : ¬ ∃ w h T, 1 ≤ w ∧ 1 ≤ h ∧ Torus P d w h T) :
    livelockSemick fuel limit P d = some .may := by
  obtain ⟨r, hr⟩ := C29_terminates (fuel := fuel) hP hl hf
  cases r with
  | yes row col =>
    obtain ⟨w, h, T, h1, -, h2, -, h3⟩ := (C59_yes_exact hP hl hf).1 ⟨row, col, hr⟩
    exact absurd ⟨w, h, T, h1, h2, h3⟩ hno
  | may => exact hr
  | nil =>
    obtain ⟨tri, ht⟩ := htri
    unfold livelockSemick at hr
    rw [List.range_eq_range'] at hr
    exact absurd hr (semickLoop_tri ht hl d 0 P false hP.good (by omega)
      (by have := ht.lt 0 (by omega) 0 le_rfl; omega))

/-- The number of the first symbol is 0. -/
theorem reduce_tri {W : List Wang} (hW : NoMax W) (hs : (reduceActs W).2 ≤ 256) (hp : ∀ n, ∃ F, WangPatch W n n F)
    (h : ∀ a b c, PpgStep P d a b c ↔ (a, b, c) ∈ (reduceActs W).1) (limit : ℕ) : ∃ tri, Tri P d limit tri := by
  obtain ⟨num, sym, hc, -, hz⟩ := reduce_coded hW hs
  obtain ⟨F, hF⟩ := hp (limit + 3)
  obtain ⟨s, k, hk, hs1⟩ : ∃ s k, s + limit = 2 * k + 1 ∧ s ≤ 1 := by
    rcases Nat.even_or_odd' limit with ⟨k, e | e⟩
    · exact ⟨1, k, by omega, by omega⟩
    · exact ⟨0, k, by omega, by omega⟩
  refine tri_of_grid (T := fun r c => num (colOf F r c)) (s := s) (c := 0) (fun r hr c hc' => ?_) ?_
  · exact (h _ _ _).2 ((hc.mem _).2 ⟨_, _, _, colOf_step hF (by omega) (by omega), rfl⟩)
  · have : colOf F (s + limit) (0 + 1) = .doll := by
      rw [hk]; simp [colOf, show (2 * k + 1) % 2 = 1 by omega]
    simp only [this, hz]

theorem commute_tri {W : List Wang} (hs : (commuteActs W).2 ≤ 256) (hp : ∀ n, ∃ F, WangPatch W n n F)
    (h : ∀ a b c, PpgStep P d a b c ↔ (a, b, c) ∈ (commuteActs W).1) (limit : ℕ) : ∃ tri, Tri P d limit tri := by
  obtain ⟨num, sym, hc, -, hz⟩ := commute_coded hs
  obtain ⟨F, hF⟩ := hp (limit + 3)
  obtain ⟨s, k, hk, hs1⟩ : ∃ s k, s + limit = 3 * k + 2 ∧ s ≤ 2 := by
    exact ⟨2 - limit % 3, limit / 3, by omega, by omega⟩
  refine tri_of_grid (T := fun r c => num (cmOf F r c)) (s := s) (c := 0) (fun r hr c hc' => ?_) ?_
  · exact (h _ _ _).2 ((hc.mem _).2 ⟨_, _, _, .inl (cmOf_step hF (by omega) (by omega)), rfl⟩)
  · have : cmOf F (s + limit) (0 + 1) = .z00 := by
      rw [hk]; simp [cmOf, show (3 * k + 2) % 3 = 2 by omega]
    simp only [this, hz]

end Verif.Proofs
