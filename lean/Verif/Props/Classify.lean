import Verif.Proofs.Classify
import Verif.Props.Livelock

/-!
C48: the classification of ring protocols by `src/uni/classify.cc`.
-/

namespace Verif.Props
open Verif.Model Verif.Spec Verif.Proofs

/-- An infinite execution of some ring contains triangles of tiles of every size. -/
theorem tri_of_livelock {P : List ℕ} {d n : ℕ} (hsd : PpgSelfDisabling P d) (hn : 1 ≤ n)
    (hll : HasLivelock (PpgProtocol P d : ZMod n → ℕ → ℕ → ℕ → Prop)) (limit : ℕ) : ∃ tri, Tri P d limit tri := by
  have : NeZero n := ⟨by omega⟩
  rcases Nat.lt_or_ge n 2 with h1 | h2
  · have : n = 1 := by omega
    subst this
    obtain ⟨e, he⟩ := hll
    refine tiling_tri (n := 1) (δ := fun _ => 1) (v := fun _ t => e t 0) (fun _ => le_rfl)
      (fun i a b hab => ?_) limit
    have : a = b := by omega
    subst this
    obtain ⟨i, c, hs, he⟩ := he a
    have hz : ∀ x y : ZMod 1, x = y := fun x y => Subsingleton.elim (α := Fin 1) x y
    rw [hz i 0, hz (0 - 1) 0] at hs
    simp only [he, hz i 0, Function.update_self]
    exact hs
  · obtain ⟨δ, v, hv⟩ := (livelock_iff_tiling h2 (f := PpgProtocol P d)
      (fun _ a b c h e => hsd a b c e h)).1 hll
    exact tiling_tri hv.le hv.en limit

variable {P : List ℕ} {d m fuel minP : ℕ}

/-- The tiling search does not exclude periodic tilings. -/
theorem nil_no_torus (hP : PpgTable P d) (hm : 1 ≤ m) {w h : ℕ} {T : ℕ → ℕ → ℕ} (hw : 1 ≤ w) (hh : 1 ≤ h)
    (ht : Torus P d w h T) (hr : livelockSemick fuel m P d = some .nil) : False := by
  obtain ⟨n, hn⟩ : ∃ n, (h + 1) * w = n + 1 := by
    have : h + 1 ≤ (h + 1) * w := Nat.le_mul_of_pos_right _ hw
    exact ⟨(h + 1) * w - 1, by omega⟩
  obtain ⟨δ, v, k1, k2, _, _⟩ := torus_moves hw hh ht n hn.symm
  obtain ⟨tri, ht⟩ := tiling_tri k1 k2 m
  unfold livelockSemick at hr
  rw [List.range_eq_range'] at hr
  exact semickLoop_tri ht hm d 0 P false hP.good (by omega)
    (by have := ht.lt 0 (by omega) 0 le_rfl; omega) hr

/-- The classification always ends with a verdict between 0 and `max_period + 1`. -/
theorem C48_terminates (hd : 0 < d) (hd' : d ≤ 256) (hl : P.length = d * d) (hm : 1 ≤ m)
    (hf : Fintype.card (CState m d) < fuel) : ∃ r ≤ m + 1, bddClassify fuel P minP m d = some r := by
  rcases bddClassify_spec hd hd' hl (minP := minP) hm hf with ⟨j, _, h, _, _, _, e⟩ | ⟨_, ⟨_, e⟩ | ⟨_, e⟩⟩
  · exact ⟨j, by omega, e⟩
  · exact ⟨m + 1, le_rfl, e⟩
  · exact ⟨0, by omega, e⟩

/-- C48: a reported period is the least one, not below `min_period`, for which there is a periodic tiling of
that width. -/
theorem C48_period_exact (hd : 0 < d) (hd' : d ≤ 256) (hl : P.length = d * d) (hm : 1 ≤ m)
    (hf : Fintype.card (CState m d) < fuel) (j : ℕ) (hj : 1 ≤ j) (hjm : j ≤ m) :
    bddClassify fuel P minP m d = some j ↔
      minP ≤ j ∧ Periodic P d j ∧ ∀ i, 1 ≤ i → i < j → minP ≤ i → ¬ Periodic P d i := by
  rcases bddClassify_spec hd hd' hl (minP := minP) hm hf with
    ⟨k, h1, h2, h3, h4, h5, e⟩ | ⟨h1, ⟨_, e⟩ | ⟨_, e⟩⟩
  · rw [e, Option.some.injEq]
    constructor
    · rintro rfl
      exact ⟨h3, h4, h5⟩
    · rintro ⟨q1, q2, q3⟩
      rcases Nat.lt_trichotomy k j with h | h | h
      · exact absurd h4 (q3 k h1 h h3)
      · exact h
      · exact absurd q2 (h5 j hj h q1)
  · rw [e, Option.some.injEq]
    exact ⟨fun h => by omega, fun h => absurd h.2.1 (h1 j hj hjm h.1)⟩
  · rw [e, Option.some.injEq]
    exact ⟨fun h => by omega, fun h => absurd h.2.1 (h1 j hj hjm h.1)⟩

/-- C48: if a period is reported, then there is a ring, whose size is a multiple of the period, with an infinite
execution. -/
theorem C48_livelock (hd : 0 < d) (hd' : d ≤ 256) (hl : P.length = d * d)
    (hf : Fintype.card (CState m d) < fuel) {j : ℕ} (hj : 1 ≤ j) (hjm : j ≤ m)
    (h : bddClassify fuel P minP m d = some j) :
    ∃ k, 2 ≤ k ∧ HasLivelock (PpgProtocol P d : ZMod (k * j) → ℕ → ℕ → ℕ → Prop) := by
  obtain ⟨_, ⟨h, T, hh, ht⟩, _⟩ := (C48_period_exact hd hd' hl (by omega) hf j hj hjm).1 h
  exact ⟨h + 1, by omega, torus_livelock hj hh ht⟩

/-- C48 for self-disabling protocols (missing: the others, for which it fails, `C48_needs_self_disabling`): if
silence is reported, then no ring, of any size, has an infinite execution. -/
theorem C48_silent_partial (hd : 0 < d) (hd' : d ≤ 256) (hl : P.length = d * d) (hm : 1 ≤ m)
    (hf : Fintype.card (CState m d) < fuel) (hsd : PpgSelfDisabling P d)
    (h : bddClassify fuel P minP m d = some 0) {n : ℕ} (hn : 1 ≤ n) :
    ¬ HasLivelock (PpgProtocol P d : ZMod n → ℕ → ℕ → ℕ → Prop) := by
  intro hll
  have hs := strip_of_tri hm (tri_of_livelock hsd hn hll)
  rcases bddClassify_spec hd hd' hl (minP := minP) hm hf with
    ⟨k, h1, _, _, _, _, e⟩ | ⟨_, ⟨_, e⟩ | ⟨h2, _⟩⟩
  · rw [h, Option.some.injEq] at e; omega
  · rw [h, Option.some.injEq] at e; omega
  · exact h2 hs

/-- C48: silence is reported exactly if there is no strip of `max_period` columns that goes on forever. -/
theorem C48_silent_exact (hd : 0 < d) (hd' : d ≤ 256) (hl : P.length = d * d) (hm : 1 ≤ m)
    (hf : Fintype.card (CState m d) < fuel) :
    bddClassify fuel P minP m d = some 0 ↔ ¬ ∃ T, Strip P d m T := by
  rcases bddClassify_spec hd hd' hl (minP := minP) hm hf with
    ⟨k, h1, h2, _, ⟨h, T, _, ht⟩, _, e⟩ | ⟨_, ⟨hs, e⟩ | ⟨hs, e⟩⟩
  · rw [e, Option.some.injEq]
    exact ⟨fun h => by omega, fun h => absurd ⟨T, fun r c _ => ht.tile r c⟩ h⟩
  · rw [e, Option.some.injEq]
    exact ⟨fun h => by omega, fun h => absurd hs h⟩
  · exact ⟨fun _ => hs, fun _ => e⟩

/-- The same for `tile_classify`. -/
theorem C48_tile_livelock (hP : PpgTable P d) (hm : 1 ≤ m) {j : ℕ} (hj : 1 ≤ j) (hjm : j ≤ m)
    (h : tileClassify fuel P m d = some j) : Periodic P d j ∧
    ∃ k, 2 ≤ k ∧ HasLivelock (PpgProtocol P d : ZMod (k * j) → ℕ → ℕ → ℕ → Prop) := by
  unfold tileClassify at h
  obtain ⟨r, hr, he⟩ := Option.map_eq_some_iff.1 h
  cases r with
  | nil => simp only at he; omega
  | may => simp only at he; omega
  | yes row col =>
    simp only at he
    subst he
    obtain ⟨h1, h2, T, ht, -, -⟩ := C29_periodic_block hP hm hr
    exact ⟨⟨_, T, by omega, ht⟩, col.length, by omega, C29_livelock hP hm hr⟩

/-- The same for `tile_classify`. -/
theorem C48_tile_silent (hP : PpgTable P d) (hm : 1 ≤ m) (hsd : PpgSelfDisabling P d)
    (h : tileClassify fuel P m d = some 0) {n : ℕ} (hn : 1 ≤ n) :
    ¬ HasLivelock (PpgProtocol P d : ZMod n → ℕ → ℕ → ℕ → Prop) := by
  unfold tileClassify at h
  obtain ⟨r, hr, he⟩ := Option.map_eq_some_iff.1 h
  cases r with
  | nil => exact C30_no_livelock hP hm hsd hr hn
  | may => simp only at he; omega
  | yes row col =>
    simp only at he
    have := (C29_periodic_block hP hm hr).1.1
    omega

/-- The two classifications never contradict each other: a period found by one is not silence for the
other. -/
theorem C48_classifiers_agree (hd : 0 < d) (hd' : d ≤ 256) (hP : PpgTable P d) (hm : 1 ≤ m)
    (hf : Fintype.card (CState m d) < fuel) {fuel' j : ℕ} (hj : 1 ≤ j) (hjm : j ≤ m) :
    (tileClassify fuel' P m d = some j → ∃ i, 1 ≤ i ∧ i ≤ j ∧ bddClassify fuel P 1 m d = some i) ∧
    (bddClassify fuel P minP m d = some j → tileClassify fuel' P m d ≠ some 0) := by
  refine ⟨fun h => ?_, fun h h0 => ?_⟩
  · have hp := (C48_tile_livelock hP hm hj hjm h).1
    rcases bddClassify_spec hd hd' hP.1 (minP := 1) hm hf with
      ⟨k, h1, h2, _, _, h5, e⟩ | ⟨h1, _⟩
    · refine ⟨k, h1, ?_, e⟩
      by_contra hc
      exact h5 j hj (by omega) hj hp
    · exact absurd hp (h1 j hj hjm hj)
  · obtain ⟨_, ⟨h, T, hh, ht⟩, _⟩ := (C48_period_exact hd hd' hP.1 hm hf j hj hjm).1 h
    unfold tileClassify at h0
    obtain ⟨r, hr, he⟩ := Option.map_eq_some_iff.1 h0
    cases r with
    | nil => exact nil_no_torus hP hm hj hh ht hr
    | may => simp only at he; omega
    | yes row col =>
      simp only at he
      have := (C29_periodic_block hP hm hr).1.1
      omega

/-! Cases meeting the hypotheses. -/

theorem sampleLive_classified : bddClassify 9 sampleLive 1 2 2 = some 2 := by decide +kernel

example : ∃ k, 2 ≤ k ∧ HasLivelock (PpgProtocol sampleLive 2 : ZMod (k * 2) → ℕ → ℕ → ℕ → Prop) :=
  C48_livelock (by omega) (by omega) rfl (by decide) (by omega) (by omega) sampleLive_classified

/-- The period is reported, silence and other periods are not. -/
example : Periodic sampleLive 2 2 ∧ ¬ Periodic sampleLive 2 1 ∧ ∃ T, Strip sampleLive 2 2 T := by
  obtain ⟨_, h1, h2⟩ := (C48_period_exact (fuel := 9) (m := 2) (minP := 1) (by omega) (by omega) rfl (by omega)
    (by decide) 2 (by omega) (by omega)).1 sampleLive_classified
  refine ⟨h1, h2 1 le_rfl (by omega) le_rfl, ?_⟩
  by_contra hc
  have := (C48_silent_exact (fuel := 9) (m := 2) (minP := 1) (by omega) (by omega) rfl (by omega)
    (by decide)).2 hc
  rw [sampleLive_classified] at this
  simp at this

/-- With `max_period` 1 the verdict is unknown. -/
example : bddClassify 9 sampleLive 1 1 2 = some 2 := by decide +kernel

theorem sampleNil_classified : bddClassify 9 sampleNil 1 2 2 = some 0 := by decide +kernel

example (n : ℕ) (hn : 1 ≤ n) : ¬ HasLivelock (PpgProtocol sampleNil 2 : ZMod n → ℕ → ℕ → ℕ → Prop) :=
  C48_silent_partial (by omega) (by omega) rfl (by omega) (by decide) (by rw [ppgSelfDisabling_iff]; decide)
    sampleNil_classified hn

/-- C48 for protocols that are not self-disabling: silence is reported though the ring of two processes has an
infinite execution. -/
theorem C48_needs_self_disabling : bddClassify 9 sampleSelf 1 2 2 = some 0 ∧
    HasLivelock (PpgProtocol sampleSelf 2 : ZMod 2 → ℕ → ℕ → ℕ → Prop) :=
  ⟨by decide +kernel, C30_needs_self_disabling.2⟩

example : tileClassify 2 sampleLive 2 2 = some 2 ∧ tileClassify 2 sampleNil 2 2 = some 0 ∧
    tileClassify 1 sampleLive 1 2 = some 2 := by decide

end Verif.Props
