import Verif.Spec.Tile
import Verif.Proofs.Ring

/-! A periodic block of tiles gives a livelock of a ring. -/

set_option linter.unusedSectionVars false

namespace Verif.Proofs
open Verif.Model Verif.Spec

theorem selfDisabling_of {P : List ℕ} {d n : ℕ} (h : PpgSelfDisabling P d) :
    SelfDisabling (PpgProtocol P d : ZMod n → ℕ → ℕ → ℕ → Prop) :=
  fun _ a b c hf e => h a b c e hf

theorem Torus_cols_mul {P : List ℕ} {d w h : ℕ} {T : ℕ → ℕ → ℕ} (ht : Torus P d w h T) (k r c : ℕ) :
    T r (c + k * w) = T r c := by
  induction k with
  | zero => simp
  | succ k ih => rw [Nat.succ_mul, ← Nat.add_assoc, ht.cols, ih]

theorem zmod_val_pred {m : ℕ} (i : ZMod (m + 1)) (hi : i ≠ 0) : (i - 1).val + 1 = i.val := by
  have h1 : i.val ≠ 0 := by simpa using hi
  cases m with
  | zero => exact absurd (Subsingleton.elim (α := Fin 1) i 0) hi
  | succ m =>
    have : Fact (1 < m + 1 + 1) := ⟨by omega⟩
    have h : (1 : ZMod (m + 1 + 1)).val ≤ i.val := by rw [ZMod.val_one]; omega
    rw [ZMod.val_sub h, ZMod.val_one]
    omega

/-- The tiles of a periodic block as moves of a ring of `m + 1` processes. -/
theorem torus_moves {P : List ℕ} {d w h : ℕ} {T : ℕ → ℕ → ℕ} (hw : 1 ≤ w) (hh : 1 ≤ h)
    (ht : Torus P d w h T) (m : ℕ) (hm : m + 1 = (h + 1) * w) :
    ∃ (δ : ZMod (m + 1) → ℕ) (v : ZMod (m + 1) → ℕ → ℕ), (∀ i, δ i ≤ 1) ∧
      (∀ i a b, a + δ i = b + 1 → PpgStep P d (v (i - 1) a) (v i b) (v i (b + 1))) ∧
      (∃ i, δ i = 1) ∧ ∃ i, δ i = 0 := by
  have hmh : h ≤ m := by
    have : h + 1 ≤ (h + 1) * w := Nat.le_mul_of_pos_right _ hw
    omega
  let δ : ZMod (m + 1) → ℕ := fun i => if 1 ≤ i.val ∧ i.val ≤ h then 1 else 0
  let v : ZMod (m + 1) → ℕ → ℕ := fun i b => T (h - min i.val h + b) i.val
  -- the value to the west, in terms of the tiling
  have west : ∀ (i : ZMod (m + 1)) (a s : ℕ), a + δ i = s → ∃ c, 
      v (i - 1) a = T (h - min i.val h + s) c ∧ ∀ r, T r (c + 1) = T r i.val := by
    intro i a s has
    by_cases hi : i = 0
    · subst hi
      refine ⟨m, ?_, fun r => ?_⟩
      · have hneg : ((0 : ZMod (m + 1)) - 1).val = m := by rw [zero_sub, ZMod.val_neg_one]
        have hδ : δ 0 = 0 := by simp [δ]
        simp only [v, hneg, ZMod.val_zero]
        rw [show min m h = h by omega, show min 0 h = 0 by omega, Nat.sub_self, Nat.sub_zero,
          Nat.zero_add, Nat.add_comm h s, ht.rows]
        rw [hδ, Nat.add_zero] at has
        rw [has]
      · rw [hm, ZMod.val_zero]
        have := Torus_cols_mul ht (h + 1) r 0
        rwa [Nat.zero_add] at this
    · have hv := zmod_val_pred i hi
      refine ⟨(i - 1).val, ?_, fun r => by rw [hv]⟩
      simp only [v]
      congr 1
      simp only [δ] at has
      split at has <;> omega
  refine ⟨δ, v, ?_, ?_, ?_, ?_⟩
  · intro i; simp only [δ]; split <;> omega
  · intro i a b hab
    obtain ⟨c, e1, e2⟩ := west i a (b + 1) hab
    have := ht.tile (h - min i.val h + b) c
    rw [e2, e2] at this
    rw [e1]
    exact this
  · refine ⟨1, ?_⟩
    have hm1 : 1 ≤ m := by omega
    have : Fact (1 < m + 1) := ⟨by omega⟩
    simp [δ, ZMod.val_one, hh]
  · exact ⟨0, by simp [δ]⟩

/-- A periodic block of width `w` and height `h` gives a livelock of the ring of `(h+1)*w`
processes. -/
theorem torus_livelock {P : List ℕ} {d w h : ℕ} {T : ℕ → ℕ → ℕ} (hw : 1 ≤ w) (hh : 1 ≤ h)
    (ht : Torus P d w h T) : HasLivelock (PpgProtocol P d : ZMod ((h + 1) * w) → ℕ → ℕ → ℕ → Prop) := by
  obtain ⟨m, hm⟩ : ∃ m, (h + 1) * w = m + 1 := by
    have : h + 1 ≤ (h + 1) * w := Nat.le_mul_of_pos_right _ hw
    exact ⟨(h + 1) * w - 1, by omega⟩
  rw [hm]
  have hn : 2 ≤ m + 1 := by
    have : h + 1 ≤ (h + 1) * w := Nat.le_mul_of_pos_right _ hw
    omega
  obtain ⟨δ, v, k1, k2, k3, k4⟩ := torus_moves hw hh ht m hm.symm
  -- values together with the number of actions of the process
  let f : ZMod (m + 1) → ℕ × ℕ → ℕ × ℕ → ℕ × ℕ → Prop := fun i a b c =>
    PpgStep P d a.1 b.1 c.1 ∧ a.2 + δ i = b.2 + 1
  have htl : Tiling f δ (fun i b => (v i b, b)) := by
    refine ⟨k1, fun i a b hab => ⟨k2 i a b hab, hab⟩, fun i a b hab c hc => ?_, k3, k4⟩
    have := hc.2
    simp only at this
    omega
  obtain ⟨e, he, _⟩ := htl.rexec hn
  refine ⟨fun t i => (e t i).1, fun t => ?_⟩
  obtain ⟨i, c, hs, hu⟩ := he t
  refine ⟨i, c.1, hs.1, ?_⟩
  funext j
  simp only [hu]
  by_cases hj : j = i
  · subst hj; simp
  · simp [hj]

/-- Extending a block that closes up in both directions to a periodic tiling. -/
theorem torus_of_block {P : List ℕ} {d w h : ℕ} {G : ℕ → ℕ → ℕ} (hw : 1 ≤ w) (hh : 1 ≤ h)
    (tile : ∀ r < h, ∀ c < w, P[G (r + 1) c * d + G r (c + 1)]? = some (G (r + 1) (c + 1)) ∧
      G (r + 1) c < d ∧ G r (c + 1) < d)
    (rows : ∀ c ≤ w, G h c = G 0 c) (cols : ∀ r ≤ h, G r w = G r 0) :
    Torus P d w h fun r c => G (r % h) (c % w) := by
  have step : ∀ r m, 1 ≤ m → (r % m + 1 < m ∧ (r + 1) % m = r % m + 1) ∨
      (r % m + 1 = m ∧ (r + 1) % m = 0) := by
    intro r m hm
    have hlt := Nat.mod_lt r hm
    have e : (r + 1) % m = (r % m + 1) % m := by
      conv_lhs => rw [← Nat.div_add_mod r m, Nat.add_assoc, Nat.mul_add_mod]
    rcases Nat.lt_or_ge (r % m + 1) m with h | h
    · exact Or.inl ⟨h, by rw [e, Nat.mod_eq_of_lt h]⟩
    · have : r % m + 1 = m := by omega
      exact Or.inr ⟨this, by rw [e, this, Nat.mod_self]⟩
  have hr : ∀ r c, c ≤ w → G ((r + 1) % h) c = G (r % h + 1) c := by
    intro r c hc
    rcases step r h hh with ⟨_, e⟩ | ⟨e1, e2⟩
    · rw [e]
    · rw [e1, e2, rows c hc]
  have hc : ∀ r c, r ≤ h → G r ((c + 1) % w) = G r (c % w + 1) := by
    intro r c hr
    rcases step c w hw with ⟨_, e⟩ | ⟨e1, e2⟩
    · rw [e]
    · rw [e1, e2, cols r hr]
  have lt : ∀ r c, G (r % h) (c % w) < d := by
    intro r c
    have h1 := Nat.mod_lt r hh
    have h2 := Nat.mod_lt c hw
    by_cases h0 : c % w = 0
    · rw [h0, ← cols _ h1.le]
      have := (tile _ h1 (w - 1) (by omega)).2.2
      rwa [show w - 1 + 1 = w by omega] at this
    · have := (tile _ h1 (c % w - 1) (by omega)).2.2
      rwa [show c % w - 1 + 1 = c % w by omega] at this
  refine ⟨fun r c => ?_, fun r c => by simp, fun r c => by simp⟩
  have h1 := Nat.mod_lt r hh
  have h2 := Nat.mod_lt c hw
  have t := tile _ h1 _ h2
  refine ⟨lt _ _, lt _ _, lt _ _, ?_⟩
  rw [hr r _ h2.le, hc _ c h1.le, hc _ c (Nat.mod_lt _ hh).le, hr r _ h2]
  exact t.1

end Verif.Proofs
