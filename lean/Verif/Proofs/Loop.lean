import Verif.Model.Loop

/-! Helper lemmas about `loopFuel`. -/

namespace Verif

universe u v
variable {α : Type u} {β : Type v} {body : α → β ⊕ α}

/-- Total correctness with an invariant and a measure. -/
theorem loopFuel_total (P : α → Prop) (Q : β → Prop) (m : α → Nat)
    (hb : ∀ a b, P a → body a = .inl b → Q b)
    (hc : ∀ a a', P a → body a = .inr a' → P a' ∧ m a' < m a) :
    ∀ fuel a, P a → m a < fuel → ∃ b, loopFuel body fuel a = some b ∧ Q b := by
  intro fuel
  induction fuel with
  | zero => intro a _ h; omega
  | succ n ih =>
    intro a hP hm
    cases hba : body a with
    | inl b => exact ⟨b, by simp [loopFuel, hba], hb a b hP hba⟩
    | inr a' =>
      obtain ⟨h1, h2⟩ := hc a a' hP hba
      obtain ⟨b, hb1, hb2⟩ := ih a' h1 (by omega)
      exact ⟨b, by simp [loopFuel, hba, hb1], hb2⟩

/-- Total correctness with a ghost variable that the program state does not hold. -/
theorem loopFuel_ghost {γ : Type} (P : γ → α → Prop) (Q : β → Prop) (m : γ → α → Nat)
    (hb : ∀ g a b, P g a → body a = .inl b → Q b)
    (hc : ∀ g a a', P g a → body a = .inr a' → ∃ g', P g' a' ∧ m g' a' < m g a) :
    ∀ fuel g a, P g a → m g a < fuel → ∃ b, loopFuel body fuel a = some b ∧ Q b := by
  intro fuel
  induction fuel with
  | zero => intro g a _ h; omega
  | succ n ih =>
    intro g a hP hm
    cases hba : body a with
    | inl b => exact ⟨b, by simp [loopFuel, hba], hb g a b hP hba⟩
    | inr a' =>
      obtain ⟨g', h1, h2⟩ := hc g a a' hP hba
      obtain ⟨b, hb1, hb2⟩ := ih g' a' h1 (by omega)
      exact ⟨b, by simp [loopFuel, hba, hb1], hb2⟩

/-- Partial correctness: whatever is returned satisfies `Q`. -/
theorem loopFuel_partial (P : α → Prop) (Q : β → Prop)
    (hb : ∀ a b, P a → body a = .inl b → Q b)
    (hc : ∀ a a', P a → body a = .inr a' → P a') :
    ∀ fuel a b, P a → loopFuel body fuel a = some b → Q b := by
  intro fuel
  induction fuel with
  | zero => intro a b _ h; simp [loopFuel] at h
  | succ n ih =>
    intro a b hP h
    cases hba : body a with
    | inl b' =>
      simp [loopFuel, hba] at h
      subst h; exact hb a b' hP hba
    | inr a' =>
      simp [loopFuel, hba] at h
      exact ih a' b (hc a a' hP hba) h

/-- Divergence: if the body never breaks from states satisfying `P`, no fuel suffices. -/
theorem loopFuel_diverges (P : α → Prop)
    (hc : ∀ a, P a → ∃ a', body a = .inr a' ∧ P a') :
    ∀ fuel a, P a → loopFuel body fuel a = none := by
  intro fuel
  induction fuel with
  | zero => intro a _; rfl
  | succ n ih =>
    intro a hP
    obtain ⟨a', h1, h2⟩ := hc a hP
    simp [loopFuel, h1, ih a' h2]

/-- More fuel does not change a result. -/
theorem loopFuel_mono {fuel fuel' : Nat} (hle : fuel ≤ fuel') :
    ∀ a b, loopFuel body fuel a = some b → loopFuel body fuel' a = some b := by
  induction fuel generalizing fuel' with
  | zero => intro a b h; simp [loopFuel] at h
  | succ n ih =>
    intro a b h
    obtain ⟨k, rfl⟩ : ∃ k, fuel' = k + 1 := ⟨fuel' - 1, by omega⟩
    cases hba : body a with
    | inl b' => simp [loopFuel, hba] at h ⊢; exact h
    | inr a' => simp [loopFuel, hba] at h ⊢; exact ih (by omega) a' b h

theorem loopFuel_det {f1 f2 : Nat} {a : α} {b1 b2 : β}
    (h1 : loopFuel body f1 a = some b1) (h2 : loopFuel body f2 a = some b2) : b1 = b2 := by
  have h1' := loopFuel_mono (Nat.le_max_left f1 f2) a b1 h1
  have h2' := loopFuel_mono (Nat.le_max_right f1 f2) a b2 h2
  rw [h1'] at h2'; exact Option.some.inj h2'

end Verif
