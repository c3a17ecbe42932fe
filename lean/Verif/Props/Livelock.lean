import Verif.Proofs.Livelock

/-! Properties C29, C30 and C59: the livelock check for unidirectional rings. -/

namespace Verif.Props
open Verif.Model Verif.Spec Verif.Proofs

/-- The table of a propagation function over `{0..d-1}`, where `d` means disabled. -/
def PpgTable (P : List ℕ) (d : ℕ) : Prop := P.length = d * d ∧ ∀ v ∈ P, v ≤ d

instance {P : List ℕ} {d : ℕ} : Decidable (PpgTable P d) := by unfold PpgTable; infer_instance

theorem PpgTable.good {P : List ℕ} {d : ℕ} (h : PpgTable P d) : Good P d 0 P :=
  ⟨h.1, h.2, fun _ _ h _ => h, fun _ _ _ _ _ _ h => h.2.2.2⟩

/-- The check always gives a verdict: no claim fails and no access leaves a table. -/
theorem C29_terminates {P : List ℕ} {d limit fuel : ℕ} (hP : PpgTable P d) (hl : 1 ≤ limit)
    (hf : limit ≤ fuel) : ∃ r, livelockSemick fuel limit P d = some r := by
  unfold livelockSemick
  rw [List.range_eq_range']
  exact semickLoop_total (P := P) hl hf d 0 P false hP.good (by omega)

/-- C29: verdict `Yes` comes with the first row and column of a periodic block of tiles. -/
theorem C29_periodic_block {P : List ℕ} {d limit fuel : ℕ} (hP : PpgTable P d) (hl : 1 ≤ limit)
    {row col : List ℕ} (h : livelockSemick fuel limit P d = some (.yes row col)) :
    (2 ≤ row.length ∧ row.length ≤ limit + 1) ∧ (2 ≤ col.length ∧ col.length ≤ limit + 1) ∧
    ∃ T, Torus P d (row.length - 1) (col.length - 1) T ∧
      (∀ j < row.length, T 0 j = row.getD j 0) ∧ ∀ i < col.length, T i 0 = col.getD i 0 := by
  unfold livelockSemick at h
  rw [List.range_eq_range'] at h
  obtain ⟨s, Q, hg, h1, h2, hf⟩ := semickLoop_yes hl d 0 P false hP.good h
  obtain ⟨-, T, ht, hr, hc⟩ := fill_torus h1.1 h2.1 hf
  refine ⟨h1, h2, T, ⟨fun r c => ?_, ht.rows, ht.cols⟩, hr, hc⟩
  obtain ⟨t1, t2, t3, t4⟩ := ht.tile r c
  exact ⟨t1, t2, t3, hg.2.2.1 _ _ t4 t3⟩

/-- C29: verdict `Yes` means that some ring has an infinite execution. -/
theorem C29_livelock {P : List ℕ} {d limit fuel : ℕ} (hP : PpgTable P d) (hl : 1 ≤ limit)
    {row col : List ℕ} (h : livelockSemick fuel limit P d = some (.yes row col)) :
    HasLivelock (PpgProtocol P d :
      ZMod (col.length * (row.length - 1)) → ℕ → ℕ → ℕ → Prop) := by
  obtain ⟨h1, h2, T, ht, -, -⟩ := C29_periodic_block hP hl h
  have := torus_livelock (show 1 ≤ row.length - 1 by omega) (show 1 ≤ col.length - 1 by omega) ht
  rwa [show col.length - 1 + 1 = col.length by omega] at this

/-- C30: verdict `Nil` means that no ring, of any size, has an infinite execution. -/
theorem C30_no_livelock {P : List ℕ} {d limit fuel : ℕ} (hP : PpgTable P d) (hl : 1 ≤ limit)
    (hsd : PpgSelfDisabling P d) (h : livelockSemick fuel limit P d = some .nil) {n : ℕ} (hn : 1 ≤ n) :
    ¬ HasLivelock (PpgProtocol P d : ZMod n → ℕ → ℕ → ℕ → Prop) := by
  have : NeZero n := ⟨by omega⟩
  intro hll
  obtain ⟨tri, ht⟩ : ∃ tri, Tri P d limit tri := by
    rcases Nat.lt_or_ge n 2 with h1 | h2
    · have : n = 1 := by omega
      subst this
      obtain ⟨e, he⟩ := hll
      refine tiling_tri (n := 1) (δ := fun _ => 1) (v := fun _ t => e t 0) (fun _ => le_rfl)
        (fun i a b hab => ?_) limit
      have : a = b := by omega
      subst this
      obtain ⟨i, c, hs, he⟩ := he a
      have hz : ∀ x y : ZMod 1, x = y := fun x y => Subsingleton.elim (α := Fin 1) x y
      rw [hz i 0, hz (0 - 1) 0] at hs
      simp only [he, hz i 0, Function.update_self]
      exact hs
    · obtain ⟨δ, v, hv⟩ := (livelock_iff_tiling h2 (f := PpgProtocol P d)
        (fun _ a b c h e => hsd a b c e h)).1 hll
      exact tiling_tri hv.le hv.en limit
  unfold livelockSemick at h
  rw [List.range_eq_range'] at h
  exact semickLoop_tri ht hl d 0 P false hP.good (by omega)
    (by have := ht.lt 0 (by omega) 0 le_rfl; omega) h

/-- C59: verdict `Yes` is given exactly when some periodic block of tiles is at most `limit` wide and
at most `limit` high. -/
theorem C59_yes_exact {P : List ℕ} {d limit fuel : ℕ} (hP : PpgTable P d) (hl : 1 ≤ limit)
    (hf : limit ≤ fuel) :
    (∃ row col, livelockSemick fuel limit P d = some (.yes row col)) ↔
      ∃ w h T, 1 ≤ w ∧ w ≤ limit ∧ 1 ≤ h ∧ h ≤ limit ∧ Torus P d w h T := by
  constructor
  · rintro ⟨row, col, h⟩
    obtain ⟨h1, h2, T, ht, -, -⟩ := C29_periodic_block hP hl h
    exact ⟨_, _, T, by omega, by omega, by omega, by omega, ht⟩
  rintro ⟨w, h, T, hw, hwl, hh, hhl, ht⟩
  obtain ⟨R, q, hR, hmin⟩ := torus_min ht hh limit
  obtain ⟨r, hr⟩ := C29_terminates (fuel := fuel) hP hl hf
  have hd : T R q < d := by
    have := (ht.tile R q).2.2.1
    have := hmin (R + 1) (q + 1)
    omega
  have hn := semickLoop_torus (fuel := fuel) ht hw hh hwl hhl hR hmin d 0 P false hP.good
    (by omega) (by omega)
  rw [← List.range_eq_range'] at hn
  cases r with
  | yes row col => exact ⟨row, col, hr⟩
  | may => exact absurd (.inl hr) hn
  | nil => exact absurd (.inr hr) hn

/-! Examples -/

/-- Two-colouring: a process that agrees with its predecessor changes its value. -/
def sampleLive : List ℕ := [1, 2, 2, 0]

/-- A process holding 1 next to 0 changes to 0. -/
def sampleNil : List ℕ := [2, 0, 2, 2]

/-- Next to 0 a process changes its value again and again. -/
def sampleSelf : List ℕ := [1, 0, 2, 2]

theorem ppgSelfDisabling_iff {P : List ℕ} {d : ℕ} : PpgSelfDisabling P d ↔
    ∀ a b c e : Fin d, ¬ (P[(a : ℕ) * d + b]? = some (c : ℕ) ∧ P[(a : ℕ) * d + c]? = some (e : ℕ)) :=
  ⟨fun h a b c e hp => h a b c e ⟨a.2, b.2, c.2, hp.1⟩ ⟨a.2, c.2, e.2, hp.2⟩,
    fun h a b c e h1 h2 => h ⟨a, h1.1⟩ ⟨b, h1.2.1⟩ ⟨c, h1.2.2.1⟩ ⟨e, h2.2.2.1⟩
      ⟨h1.2.2.2, h2.2.2.2⟩⟩

theorem sampleLive_table : PpgTable sampleLive 2 := by decide
theorem sampleLive_self : PpgSelfDisabling sampleLive 2 := by
  rw [ppgSelfDisabling_iff]; decide
theorem sampleLive_yes : livelockSemick 2 2 sampleLive 2 = some (.yes [0, 1, 0] [0, 1, 0]) := by
  decide

/-- Terminates: meets the hypotheses, and the verdict is `May` when the limit is too small. -/
example : PpgTable sampleLive 2 ∧ livelockSemick 1 1 sampleLive 2 = some .may := by decide

/-- The two-colouring protocol has a livelock on six processes. -/
example : HasLivelock (PpgProtocol sampleLive 2 : ZMod 6 → ℕ → ℕ → ℕ → Prop) :=
  C29_livelock sampleLive_table (by omega) sampleLive_yes

example : ∃ T, Torus sampleLive 2 2 2 T ∧ T 0 1 = 1 := by
  obtain ⟨-, -, T, h, hr, -⟩ := C29_periodic_block sampleLive_table (by omega) sampleLive_yes
  exact ⟨T, h, hr 1 (by decide)⟩

example (n : ℕ) (hn : 1 ≤ n) :
    ¬ HasLivelock (PpgProtocol sampleNil 2 : ZMod n → ℕ → ℕ → ℕ → Prop) :=
  C30_no_livelock (limit := 2) (fuel := 2) (by decide) (by omega)
    (by rw [ppgSelfDisabling_iff]; decide) (by decide) hn

/-- The hypothesis of C30 is needed: a protocol that is not self-disabling gets verdict `Nil` though
it has an infinite execution. -/
theorem C30_needs_self_disabling : livelockSemick 2 2 sampleSelf 2 = some .nil ∧
    HasLivelock (PpgProtocol sampleSelf 2 : ZMod 2 → ℕ → ℕ → ℕ → Prop) := by
  refine ⟨by decide, fun t i => if i = 1 then t % 2 else 0, fun t => ⟨1, (t + 1) % 2, ?_, ?_⟩⟩
  · simp only [show (1 : ZMod 2) - 1 ≠ 1 by decide, if_false, if_true]
    rcases Nat.mod_two_eq_zero_or_one t with h | h
    · rw [h, show (t + 1) % 2 = 1 by omega]; exact ⟨by omega, by omega, by omega, rfl⟩
    · rw [h, show (t + 1) % 2 = 0 by omega]; exact ⟨by omega, by omega, by omega, rfl⟩
  · funext i
    by_cases hi : i = 1
    · subst hi; simp
    · simp [hi]

example : ∃ w h T, 1 ≤ w ∧ w ≤ 2 ∧ 1 ≤ h ∧ h ≤ 2 ∧ Torus sampleLive 2 w h T :=
  (C59_yes_exact (fuel := 2) sampleLive_table (by omega) le_rfl).1 ⟨_, _, sampleLive_yes⟩

/-- With limit 1 the livelock of the two-colouring protocol is out of reach. -/
example : ¬ ∃ w h T, 1 ≤ w ∧ w ≤ 1 ∧ 1 ≤ h ∧ h ≤ 1 ∧ Torus sampleLive 2 w h T := fun h => by
  obtain ⟨row, col, h⟩ := (C59_yes_exact (fuel := 1) sampleLive_table le_rfl le_rfl).2 h
  rw [show livelockSemick 1 1 sampleLive 2 = some .may by decide] at h
  cases h

end Verif.Props
