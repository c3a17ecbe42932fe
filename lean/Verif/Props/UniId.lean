import Verif.Model.Uni
import Mathlib.Tactic.Ring
import Mathlib.Tactic.Linarith

/-! Property C23: action and step identifiers of unidirectional rings. -/

namespace Verif.Props
open Verif.Model

theorem toByte_of_lt {n d : ℕ} (h : n < d) (hd : d ≤ 256) : toByte n = n :=
  Nat.mod_eq_of_lt (lt_of_lt_of_le h hd)

/-- **C23, actions.** For a domain of size `0 < d ≤ 256`: every triple in range has an identifier
below `d ^ 3` that converts back to it, and every identifier below `d ^ 3` converts to a triple in
range whose identifier it is.  So `id_of3` and `UniAct::of_id` are mutually inverse bijections. -/
theorem C23_action_ids (d : ℕ) (hd : 0 < d) (hd' : d ≤ 256) :
    (∀ a b c, a < d → b < d → c < d →
      ∃ id, idOf3 a b c d = some id ∧ id < d ^ 3 ∧ actOfId id d = (a, b, c)) ∧
    (∀ id, id < d ^ 3 →
      (actOfId id d).1 < d ∧ (actOfId id d).2.1 < d ∧ (actOfId id d).2.2 < d ∧
      idOf3 (actOfId id d).1 (actOfId id d).2.1 (actOfId id d).2.2 d = some id) := by
  constructor
  · intro a b c ha hb hc
    refine ⟨(a * d + b) * d + c, by simp [idOf3, ha, hb, hc], ?_, ?_⟩
    · have h1 : a * d + b < d * d := by
        calc a * d + b < a * d + d := by omega
          _ = (a + 1) * d := by ring
          _ ≤ d * d := Nat.mul_le_mul_right d ha
      calc (a * d + b) * d + c < (a * d + b) * d + d := by omega
        _ = (a * d + b + 1) * d := by ring
        _ ≤ (d * d) * d := Nat.mul_le_mul_right d h1
        _ = d ^ 3 := by ring
    · have q1 : ((a * d + b) * d + c) / d = a * d + b := by
        rw [Nat.add_comm, Nat.add_mul_div_right _ _ hd, Nat.div_eq_of_lt hc, zero_add]
      have r1 : ((a * d + b) * d + c) % d = c := by
        rw [Nat.add_comm, Nat.add_mul_mod_self_right, Nat.mod_eq_of_lt hc]
      have q2 : (a * d + b) / d = a := by
        rw [Nat.add_comm, Nat.add_mul_div_right _ _ hd, Nat.div_eq_of_lt hb, zero_add]
      have r2 : (a * d + b) % d = b := by
        rw [Nat.add_comm, Nat.add_mul_mod_self_right, Nat.mod_eq_of_lt hb]
      simp only [actOfId, q1, r1, q2, r2, toByte_of_lt ha hd', toByte_of_lt hb hd',
        toByte_of_lt hc hd']
  · intro id hid
    have h1 : id / d / d < d := by
      rw [Nat.div_div_eq_div_mul]
      apply Nat.div_lt_of_lt_mul
      calc id < d ^ 3 := hid
        _ = d * d * d := by ring
    have h2 : id / d % d < d := Nat.mod_lt _ hd
    have h3 : id % d < d := Nat.mod_lt _ hd
    simp only [actOfId, toByte_of_lt h1 hd', toByte_of_lt h2 hd', toByte_of_lt h3 hd']
    refine ⟨h1, h2, h3, ?_⟩
    rw [idOf3, if_pos ⟨h1, h2, h3⟩]
    congr 1
    rw [Nat.div_add_mod', Nat.div_add_mod']

/-- **C23, steps.** The same for pairs: `id_of2` and `UniStep::of_id` are mutually inverse. -/
theorem C23_step_ids (d : ℕ) (hd : 0 < d) (hd' : d ≤ 256) :
    (∀ a b, a < d → b < d →
      ∃ id, idOf2 a b d = some id ∧ id < d ^ 2 ∧ stepOfId id d = (a, b)) ∧
    (∀ id, id < d ^ 2 →
      (stepOfId id d).1 < d ∧ (stepOfId id d).2 < d ∧
      idOf2 (stepOfId id d).1 (stepOfId id d).2 d = some id) := by
  constructor
  · intro a b ha hb
    refine ⟨a * d + b, by simp [idOf2, ha, hb], ?_, ?_⟩
    · calc a * d + b < a * d + d := by omega
        _ = (a + 1) * d := by ring
        _ ≤ d * d := Nat.mul_le_mul_right d ha
        _ = d ^ 2 := by ring
    · have q2 : (a * d + b) / d = a := by
        rw [Nat.add_comm, Nat.add_mul_div_right _ _ hd, Nat.div_eq_of_lt hb, zero_add]
      have r2 : (a * d + b) % d = b := by
        rw [Nat.add_comm, Nat.add_mul_mod_self_right, Nat.mod_eq_of_lt hb]
      simp only [stepOfId, q2, r2, toByte_of_lt ha hd', toByte_of_lt hb hd']
  · intro id hid
    have h1 : id / d < d := by
      apply Nat.div_lt_of_lt_mul
      calc id < d ^ 2 := hid
        _ = d * d := by ring
    have h2 : id % d < d := Nat.mod_lt _ hd
    simp only [stepOfId, toByte_of_lt h1 hd', toByte_of_lt h2 hd']
    refine ⟨h1, h2, ?_⟩
    rw [idOf2, if_pos ⟨h1, h2⟩, Nat.div_add_mod']

/-- Values outside the domain are refused (a `Claim` fails) rather than given an identifier. -/
theorem C23_out_of_range (d a b c : ℕ) :
    (idOf3 a b c d = none ↔ ¬ (a < d ∧ b < d ∧ c < d)) ∧
    (idOf2 a b d = none ↔ ¬ (a < d ∧ b < d)) := by
  constructor
  · unfold idOf3; split <;> simp_all
  · unfold idOf2; split <;> simp_all

example : idOf3 1 0 2 3 = some 11 ∧ actOfId 11 3 = (1, 0, 2) := by decide

/-- The bound 256 is needed: `PcState` is a byte, so with 257 values an identifier is converted to
the wrong action. -/
theorem C23_large_domain_limit :
    ∃ id, idOf3 256 0 0 257 = some id ∧ actOfId id 257 = (0, 0, 0) := ⟨256 * 257 * 257, by decide⟩

end Verif.Props
