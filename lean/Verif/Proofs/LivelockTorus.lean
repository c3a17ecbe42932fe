import Verif.Proofs.Livelock
import Verif.Proofs.Torus

/-!
A livelock of a self-disabling ring protocol contains a periodic tiling.
-/

namespace Verif.Proofs
open Verif.Model Verif.Spec

variable {P : List ℕ} {d n : ℕ}

/-- The values that the processes of a livelock assume, one after the other. -/
theorem tiling_of_livelock [NeZero n] (hsd : PpgSelfDisabling P d)
    (hll : HasLivelock (PpgProtocol P d : ZMod n → ℕ → ℕ → ℕ → Prop)) :
    ∃ (δ : ZMod n → ℕ) (v : ZMod n → ℕ → ℕ),
      ∀ i a b, a + δ i = b + 1 → PpgStep P d (v (i - 1) a) (v i b) (v i (b + 1)) := by
  have hn : 1 ≤ n := Nat.one_le_iff_ne_zero.2 (NeZero.ne n)
  rcases Nat.lt_or_ge n 2 with h1 | h2
  · have : n = 1 := by omega
    subst this
    obtain ⟨e, he⟩ := hll
    refine ⟨fun _ => 1, fun _ t => e t 0, fun i a b hab => ?_⟩
    have : a = b := Nat.succ.inj hab
    subst this
    obtain ⟨i, c, hs, he⟩ := he a
    have hz : ∀ x y : ZMod 1, x = y := fun x y => Subsingleton.elim (α := Fin 1) x y
    rw [hz i 0, hz (0 - 1) 0] at hs
    simp only [he, hz i 0, Function.update_self]
    exact hs
  · obtain ⟨δ, v, hv⟩ := (livelock_iff_tiling h2 (f := PpgProtocol P d)
      (fun _ a b c h e => hsd a b c e h)).1 hll
    exact ⟨δ, v, hv.en⟩

/-- A tiling that repeats after `n` columns `D` rows further down contains a periodic one. -/
theorem torus_of_skew {T : ℕ → ℕ → ℕ} {D : ℕ} (hn : 1 ≤ n)
    (tile : ∀ r c, PpgStep P d (T (r + 1) c) (T r (c + 1)) (T (r + 1) (c + 1)))
    (skew : ∀ r c, T r (c + n) = T (r + D) c) :
    ∃ (w h : ℕ) (T : ℕ → ℕ → ℕ), 1 ≤ w ∧ 1 ≤ h ∧ Torus P d w h T := by
  have hlt : ∀ r c, T (r + 1) c < d := fun r c => (tile r c).1
  let F : ℕ → Fin (D + 1) → Fin n → Fin d := fun k j c => ⟨T (k + j + 1) c, hlt _ _⟩
  obtain ⟨k, k', hne, hF⟩ : ∃ k k', k < k' ∧ F k = F k' := by
    obtain ⟨x, y, hne, h⟩ := Finite.exists_ne_map_eq_of_infinite F
    rcases Nat.lt_or_gt_of_ne hne with hl | hl
    · exact ⟨x, y, hl, h⟩
    · exact ⟨y, x, hl, h.symm⟩
  obtain ⟨p, rfl⟩ : ∃ p, k' = k + p := ⟨k' - k, by omega⟩
  have hp : 1 ≤ p := by omega
  let S : ℕ → ℕ → ℕ := fun r c => T (k + 1 + r) c
  have stile : ∀ r c, PpgStep P d (S (r + 1) c) (S r (c + 1)) (S (r + 1) (c + 1)) := fun r c => by
    have := tile (k + 1 + r) c
    simpa only [S, Nat.add_assoc] using this
  have sskew : ∀ r c, S r (c + n) = S (r + D) c := fun r c => by
    simp only [S, skew, Nat.add_assoc]
  have srow : ∀ j ≤ D, ∀ c < n, S (p + j) c = S j c := fun j hj c hc => by
    have := congrFun (congrFun hF ⟨j, by omega⟩) ⟨c, hc⟩
    simp only [F, Fin.mk.injEq] at this
    simp only [S]
    rw [show k + 1 + (p + j) = k + p + j + 1 by omega, show k + 1 + j = k + j + 1 by omega, this]
  have smod : ∀ y, y ≤ p + D → ∀ c < n, S y c = S (y % p) c := by
    intro y
    induction y using Nat.strong_induction_on with
    | _ y ih =>
      intro hy c hc
      rcases Nat.lt_or_ge y p with h | h
      · rw [Nat.mod_eq_of_lt h]
      · obtain ⟨j, rfl⟩ : ∃ j, y = p + j := ⟨y - p, by omega⟩
        rw [srow j (by omega) c hc, Nat.add_mod_left]
        exact ih j (by omega) (by omega) c hc
  let T' : ℕ → ℕ → ℕ := fun r c => S ((r + D * (c / n)) % p) (c % n)
  refine ⟨n * p, p, T', Nat.mul_pos hn hp, hp, ⟨fun r c => ?_, fun r c => ?_, fun r c => ?_⟩⟩
  · set q := c / n with hq
    set x := c % n with hx
    have hxn : x < n := Nat.mod_lt _ hn
    have hc : c = n * q + x := (Nat.div_add_mod c n).symm
    set ρ := (r + D * q) % p with hρ
    have hρp : ρ < p := Nat.mod_lt _ hp
    have h1 : T' (r + 1) c = S (ρ + 1) x := by
      simp only [T']
      rw [← hq, ← hx, smod (ρ + 1) (by omega) x hxn, hρ, Nat.mod_add_mod]
      congr 2; ring
    rcases Nat.lt_or_ge (x + 1) n with h | h
    · have e1 : (c + 1) / n = q := by
        rw [hc, Nat.add_assoc, Nat.mul_add_div hn, Nat.div_eq_of_lt h]; rfl
      have e2 : (c + 1) % n = x + 1 := by
        rw [hc, Nat.add_assoc, Nat.mul_add_mod, Nat.mod_eq_of_lt h]
      have h2 : T' r (c + 1) = S ρ (x + 1) := by simp only [T', e1, e2, hρ]
      have h3 : T' (r + 1) (c + 1) = S (ρ + 1) (x + 1) := by
        simp only [T', e1, e2]
        rw [smod (ρ + 1) (by omega) (x + 1) h, hρ, Nat.mod_add_mod]
        congr 2; ring
      rw [h1, h2, h3]
      exact stile ρ x
    · have hx1 : x + 1 = n := by omega
      have e0 : c + 1 = n * (q + 1) := by rw [hc, Nat.add_assoc, hx1]; ring
      have e1 : (c + 1) / n = q + 1 := by rw [e0, Nat.mul_div_cancel_left _ hn]
      have e2 : (c + 1) % n = 0 := by rw [e0, Nat.mul_mod_right]
      have key := stile ρ x
      rw [hx1, ← Nat.zero_add n, sskew, sskew] at key
      have h2 : T' r (c + 1) = S (ρ + D) 0 := by
        simp only [T', e1, e2]
        rw [smod (ρ + D) (by omega) 0 hn, hρ, Nat.mod_add_mod]
        congr 2; ring
      have h3 : T' (r + 1) (c + 1) = S (ρ + 1 + D) 0 := by
        simp only [T', e1, e2]
        rw [smod (ρ + 1 + D) (by omega) 0 hn, hρ, show (r + D * q) % p + 1 + D = (r + D * q) % p + (1 + D) by omega,
          Nat.mod_add_mod]
        congr 2; ring
      rw [h1, h2, h3]
      simpa using key
  · simp only [T']
    rw [show r + p + D * (c / n) = r + D * (c / n) + p by ring, Nat.add_mod_right]
  · simp only [T']
    rw [Nat.add_mul_div_left _ _ hn, Nat.add_mul_mod_self_left, Nat.mul_add, ← Nat.add_assoc,
      Nat.add_mul_mod_self_right]

/-- A self-disabling protocol with a livelock has a periodic tiling. -/
theorem torus_of_livelock (hsd : PpgSelfDisabling P d) (hn : 1 ≤ n)
    (hll : HasLivelock (PpgProtocol P d : ZMod n → ℕ → ℕ → ℕ → Prop)) :
    ∃ (w h : ℕ) (T : ℕ → ℕ → ℕ), 1 ≤ w ∧ 1 ≤ h ∧ Torus P d w h T := by
  have : NeZero n := ⟨by omega⟩
  obtain ⟨δ, v, hv⟩ := tiling_of_livelock hsd hll
  let off : ℕ → ℕ := fun c => ((List.range c).map fun j => δ ((j + 1 : ℕ) : ZMod n)).sum
  have off_succ : ∀ c, off (c + 1) = off c + δ ((c + 1 : ℕ) : ZMod n) := fun c => by
    simp [off, List.range_succ]
  have off_skew : ∀ c, off (c + n) = off c + off n := by
    intro c
    induction c with
    | zero => simp [off]
    | succ c ih =>
      rw [show c + 1 + n = c + n + 1 by omega, off_succ, off_succ, ih]
      have : ((c + n + 1 : ℕ) : ZMod n) = ((c + 1 : ℕ) : ZMod n) := by push_cast; simp
      rw [this]; omega
  refine torus_of_skew (T := fun r c => v ((c : ℕ) : ZMod n) (r + off c)) (D := off n) hn (fun r c => ?_) fun r c => ?_
  · have := hv ((c + 1 : ℕ) : ZMod n) (r + 1 + off c) (r + off (c + 1)) (by rw [off_succ]; omega)
    have e : ((c + 1 : ℕ) : ZMod n) - 1 = ((c : ℕ) : ZMod n) := by push_cast; ring
    rw [e] at this
    rw [show r + 1 + off (c + 1) = r + off (c + 1) + 1 by omega]
    exact this
  · have : ((c + n : ℕ) : ZMod n) = ((c : ℕ) : ZMod n) := by push_cast; simp
    simp only [this, off_skew]
    congr 1; omega

end Verif.Proofs
