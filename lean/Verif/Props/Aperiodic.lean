import Verif.Proofs.AperiodicTri

/-!
Properties C73, C74 and C75: livelocks are periodic tilings, the reductions from Wang tiles to ring protocols, and the
aperiodic protocol.
-/

namespace Verif.Props
open Verif.Model Verif.Spec Verif.Proofs

variable {P : List ℕ} {d : ℕ}

/-! ### C73 -/

/-- C73: a self-disabling protocol has an infinite execution on some ring exactly when its actions tile a torus. -/
theorem C73_livelock_iff_torus (hsd : PpgSelfDisabling P d) :
    (∃ n, 1 ≤ n ∧ HasLivelock (PpgProtocol P d : ZMod n → ℕ → ℕ → ℕ → Prop)) ↔
      ∃ w h T, 1 ≤ w ∧ 1 ≤ h ∧ Torus P d w h T := by
  constructor
  · rintro ⟨n, hn, hl⟩
    exact torus_of_livelock hsd hn hl
  · rintro ⟨w, h, T, hw, hh, ht⟩
    exact ⟨(h + 1) * w, Nat.mul_pos (by omega) (by omega), torus_livelock hw hh ht⟩

/-- C73: so the verdict `Yes` of the check for livelocks is complete: it is given for some limit exactly when some ring
has an infinite execution. -/
theorem C73_yes_complete (hP : PpgTable P d) (hsd : PpgSelfDisabling P d) :
    (∃ n, 1 ≤ n ∧ HasLivelock (PpgProtocol P d : ZMod n → ℕ → ℕ → ℕ → Prop)) ↔
      ∃ limit, 1 ≤ limit ∧ ∃ row col, livelockSemick limit limit P d = some (.yes row col) := by
  rw [C73_livelock_iff_torus hsd]
  constructor
  · rintro ⟨w, h, T, hw, hh, ht⟩
    exact ⟨w + h, by omega, (C59_yes_exact hP (by omega) le_rfl).2 ⟨w, h, T, hw, by omega, hh, by omega, ht⟩⟩
  · rintro ⟨limit, hl, hy⟩
    obtain ⟨w, h, T, hw, -, hh, -, ht⟩ := (C59_yes_exact hP hl le_rfl).1 hy
    exact ⟨w, h, T, hw, hh, ht⟩

/-- The protocol in which 1 becomes 0 next to 0, 0 becomes 2 next to 2 and 2 becomes 1 next to 1 is self-disabling
and has an infinite execution. -/
example : PpgSelfDisabling [3, 0, 3, 3, 3, 1, 2, 3, 3] 3 ∧
    ∃ row col, livelockSemick 3 3 [3, 0, 3, 3, 3, 1, 2, 3, 3] 3 = some (.yes row col) := by
  refine ⟨?_, [0, 0], [0, 2, 1, 0], by decide +kernel⟩
  have key : ∀ a b c e : Fin 3, ([3, 0, 3, 3, 3, 1, 2, 3, 3] : List ℕ)[a.val * 3 + b.val]? = some c.val →
      ¬ ([3, 0, 3, 3, 3, 1, 2, 3, 3] : List ℕ)[a.val * 3 + c.val]? = some e.val := by decide +kernel
  intro a b c e h1 h2
  exact key ⟨a, h1.1⟩ ⟨b, h1.2.1⟩ ⟨c, h1.2.2.1⟩ ⟨e, h2.2.2.1⟩ h1.2.2.2 h2.2.2.2

/-! ### C74 -/

/-- The four constraints: an action is given by the values that enable it, neither a process nor its successor would
act again, and (when asked for) the two values can be exchanged. -/
structure Constraints (acts : List UniAct) (commutative : Bool) : Prop where
  det : ∀ a b c c', (a, b, c) ∈ acts → (a, b, c') ∈ acts → c = c'
  west : ∀ a b c e, (a, b, c) ∈ acts → (a, c, e) ∉ acts
  north : ∀ a b c e, (a, b, c) ∈ acts → (c, b, e) ∉ acts
  comm : commutative = true → ∀ a b c, (a, b, c) ∈ acts → (b, a, c) ∈ acts

/-- C74: `check_constraints` is exact on lists without repetition. -/
theorem C74_check_exact {acts : List UniAct} {commutative : Bool} (hn : acts.Nodup) :
    checkConstraints acts commutative = true ↔ Constraints acts commutative := by
  rw [checkConstraints_iff hn]
  exact ⟨fun h => ⟨h.1, h.2.1, h.2.2.1, h.2.2.2⟩, fun h => ⟨h.1, h.2, h.3, h.4⟩⟩

/-- The tile colours south and east are not both `UINT_MAX`. -/
def ColorsFit (W : List Wang) : Prop := ∀ t ∈ W, t.2.2.1 < 4294967295 ∨ t.2.2.2 < 4294967295

private theorem noMax {W : List Wang} (h : ColorsFit W) : NoMax W := by
  intro t ht he
  simp only [Prod.mk.injEq, symMax] at he
  rcases h t ht with h | h <;> omega

/-- C74: the constraints hold after either reduction exactly when a tile is given by its west and north colour. -/
theorem C74_constraints_iff {W : List Wang} (hW : ColorsFit W) (h1 : (reduceActs W).2 ≤ 256)
    (h2 : (commuteActs W).2 ≤ 256) :
    (checkConstraints (reduceActs W).1 false = true ↔ NWDeterministic W) ∧
      (checkConstraints (commuteActs W).1 true = true ↔ NWDeterministic W) :=
  ⟨reduce_check (noMax hW) h1, commute_check h2⟩

/-- C74: either reduction keeps the existence of tilings of the torus. -/
theorem C74_periodic_iff {W : List Wang} (hW : ColorsFit W) (h1 : (reduceActs W).2 ≤ 256)
    (h2 : (commuteActs W).2 ≤ 256) :
    (ActPeriodic (reduceActs W).1 ↔ WangPeriodic W) ∧ (ActPeriodic (commuteActs W).1 ↔ WangPeriodic W) :=
  ⟨reduce_periodic (noMax hW) h1, commute_periodic h2⟩

private theorem protocol_of {acts : List UniAct} {W : List Wang} {b : Bool} (hd : 0 < d) (hd' : d ≤ 255)
    (hr : ∀ t ∈ acts, t.1 < d ∧ t.2.1 < d ∧ t.2.2 < d) (hc : Constraints acts b) (hp : ActPeriodic acts ↔ WangPeriodic W) :
    ∃ P, ppgfunOfActs acts d = some P ∧ PpgTable P d ∧ (∀ a b c, PpgStep P d a b c ↔ (a, b, c) ∈ acts) ∧
      PpgSelfDisabling P d ∧
      ((∃ n, 1 ≤ n ∧ HasLivelock (PpgProtocol P d : ZMod n → ℕ → ℕ → ℕ → Prop)) ↔ WangPeriodic W) := by
  obtain ⟨P, e, hl, hv, hst⟩ := ppg_of_acts hd hd' hr hc.det
  have hsd : PpgSelfDisabling P d := fun a b c e h1 h2 => hc.west a b c e ((hst _ _ _).1 h1) ((hst _ _ _).1 h2)
  exact ⟨P, e, ⟨hl, hv⟩, hst, hsd, by rw [C73_livelock_iff_torus hsd, torus_iff_acts hst, hp]⟩

/-- C74: for tiles given by their west and north colour, the protocol made by the first reduction has an infinite
execution on some ring exactly when the tiles tile a torus. -/
theorem C74_reduction_exact {W : List Wang} (hW : ColorsFit W) (hdet : NWDeterministic W) (hs : (reduceActs W).2 ≤ 255) :
    ∃ P, ppgfunOfActs (reduceActs W).1 (reduceActs W).2 = some P ∧ PpgTable P (reduceActs W).2 ∧
      (∀ a b c, PpgStep P (reduceActs W).2 a b c ↔ (a, b, c) ∈ (reduceActs W).1) ∧
      PpgSelfDisabling P (reduceActs W).2 ∧
      ((∃ n, 1 ≤ n ∧ HasLivelock (PpgProtocol P (reduceActs W).2 : ZMod n → ℕ → ℕ → ℕ → Prop)) ↔ WangPeriodic W) :=
  protocol_of (reduce_pos W) hs (reduce_range (noMax hW) (by omega))
    ((C74_check_exact (reduceActs_ascending W).nodup).1 ((reduce_check (noMax hW) (by omega)).2 hdet))
    (reduce_periodic (noMax hW) (by omega))

/-- C74: the same for the second reduction, whose actions allow to exchange the two values. -/
theorem C74_commutative_exact {W : List Wang} (hdet : NWDeterministic W) (hs : (commuteActs W).2 ≤ 255) :
    ∃ P, ppgfunOfActs (commuteActs W).1 (commuteActs W).2 = some P ∧ PpgTable P (commuteActs W).2 ∧
      (∀ a b c, PpgStep P (commuteActs W).2 a b c ↔ (a, b, c) ∈ (commuteActs W).1) ∧
      PpgSelfDisabling P (commuteActs W).2 ∧
      ((∃ n, 1 ≤ n ∧ HasLivelock (PpgProtocol P (commuteActs W).2 : ZMod n → ℕ → ℕ → ℕ → Prop)) ↔ WangPeriodic W) :=
  protocol_of (commute_pos W) hs (commute_range (by omega))
    ((C74_check_exact (commuteActs_ascending W).nodup).1 ((commute_check (by omega)).2 hdet)) (commute_periodic (by omega))

/-- One tile that fits to itself, one that does not, and two that are not given by west and north. -/
example : (reduceActs [(1, 1, 1, 1)]) = ([(0, 3, 2), (1, 2, 3), (2, 1, 0), (3, 0, 1)], 4) ∧
    checkConstraints (reduceActs [(1, 1, 1, 1)]).1 false = true ∧
    checkConstraints (reduceActs [(1, 1, 1, 1), (1, 1, 1, 2)]).1 false = false ∧
    (commuteActs [(1, 1, 1, 1)]).2 = 9 ∧ checkConstraints (commuteActs [(1, 1, 1, 1)]).1 true = true ∧
    checkConstraints (reduceActs [(1, 1, 1, 1)]).1 true = false ∧
    checkConstraints (commuteActs [(1, 1, 1, 1), (1, 1, 1, 2)]).1 true = false := by decide +kernel

example : ColorsFit [(1, 1, 1, 1)] ∧ NWDeterministic [(1, 1, 1, 1)] ∧ WangPeriodic [(1, 1, 1, 1)] := by
  refine ⟨by simp [ColorsFit], ?_, 1, 1, fun _ _ => (1, 1, 1, 1), by omega, by omega, ?_⟩
  · intro a b c d c' d' h1 h2
    simp only [List.mem_singleton, Prod.mk.injEq] at h1 h2
    omega
  · exact ⟨by simp, by simp, by simp, by simp, by simp⟩

/-- The bound on colours is needed: the pair of the colours `UINT_MAX` is taken for the symbol `$`. -/
theorem C74_color_clash : NWDeterministic [(1, 1, 4294967295, 4294967295)] ∧
    checkConstraints (reduceActs [(1, 1, 4294967295, 4294967295)]).1 false = false := by
  refine ⟨?_, by decide +kernel⟩
  intro a b c d c' d' h1 h2
  simp only [List.mem_singleton, Prod.mk.injEq] at h1 h2
  omega

/-! ### C75 -/

/-- C75: the tile set has no tiling of a torus. -/
theorem C75_no_torus : ¬ WangPeriodic tileSet := tileSet_aperiodic

/-- C75: the tile set has tilings of squares of every size. -/
theorem C75_all_squares (n : ℕ) : ∃ F, WangPatch tileSet n n F := tileSet_patch n

private theorem tile_fit : ColorsFit tileSet := by unfold ColorsFit; decide

private theorem tile_det : NWDeterministic tileSet := by
  have key : ∀ t ∈ tileSet, ∀ u ∈ tileSet, t.1 = u.1 → t.2.1 = u.2.1 → t = u := by decide
  intro a b c d c' d' h1 h2
  have := key _ h1 _ h2 rfl rfl
  simpa using this

set_option maxRecDepth 10000 in
/-- C75: the first reduction of the tile set is the table of the test `TestKnownAperiodic`. -/
theorem C75_known_table : reduceActs tileSet = (knownAperiodic, 29) := by decide +kernel

set_option maxRecDepth 10000 in
private theorem commute_size : (commuteActs tileSet).2 = 44 := by decide +kernel

/-- What is claimed of the aperiodic protocol: it terminates from every state on rings of every size, and the check for
livelocks does not find out. -/
structure Aperiodic (P : List ℕ) (d : ℕ) : Prop where
  table : PpgTable P d
  disabling : PpgSelfDisabling P d
  terminates : ∀ n, 1 ≤ n → ¬ HasLivelock (PpgProtocol P d : ZMod n → ℕ → ℕ → ℕ → Prop)
  undecided : ∀ limit fuel, 1 ≤ limit → limit ≤ fuel → livelockSemick fuel limit P d = some .may

private theorem aperiodic_of {acts : List UniAct} (hP : PpgTable P d) (hst : ∀ a b c, PpgStep P d a b c ↔ (a, b, c) ∈ acts)
    (hw : ∀ a b c e, (a, b, c) ∈ acts → (a, c, e) ∉ acts) (hno : ¬ ActPeriodic acts)
    (htri : ∀ limit, ∃ tri, Tri P d limit tri) : Aperiodic P d := by
  have hsd : PpgSelfDisabling P d := fun a b c e h1 h2 => hw a b c e ((hst _ _ _).1 h1) ((hst _ _ _).1 h2)
  have hnt : ¬ ∃ w h T, 1 ≤ w ∧ 1 ≤ h ∧ Torus P d w h T := fun h => hno ((torus_iff_acts hst).1 h)
  exact ⟨hP, hsd, fun n hn hl => hnt ((C73_livelock_iff_torus hsd).1 ⟨n, hn, hl⟩),
    fun limit fuel hl hf => may_of_tri hP hl hf (htri limit) hnt⟩

/-- C75: every table with the actions of the test terminates on all rings, which the check for livelocks never finds
out: the first part of `TestKnownAperiodic` passes for every limit, not only 15. -/
theorem C75_known_aperiodic (hP : PpgTable P 29) (hst : ∀ a b c, PpgStep P 29 a b c ↔ (a, b, c) ∈ knownAperiodic) :
    Aperiodic P 29 := by
  have e := C75_known_table
  have e1 : (reduceActs tileSet).1 = knownAperiodic := by rw [e]
  have e2 : (reduceActs tileSet).2 = 29 := by rw [e]
  have hs : (reduceActs tileSet).2 ≤ 256 := by omega
  have hc := (C74_check_exact (reduceActs_ascending tileSet).nodup).1
    ((reduce_check (noMax tile_fit) hs).2 tile_det)
  refine aperiodic_of (acts := (reduceActs tileSet).1) hP (by rw [e1]; exact hst) hc.west ?_
    (reduce_tri (noMax tile_fit) hs tileSet_patch (by rw [e1]; exact hst))
  rw [reduce_periodic (noMax tile_fit) hs]
  exact tileSet_aperiodic

/-- C75: `main` prints a protocol that terminates from every state on rings of every size, with and without the option
`-commutative`, and the check for livelocks answers `May` for it, whatever the limit. -/
theorem C75_main_aperiodic (commutative : Bool) :
    ∃ P d, aperiodicMain commutative = some (P, d) ∧ d = (if commutative then 44 else 29) ∧ Aperiodic P d ∧
      (commutative = true → ∀ a b c, PpgStep P d a b c → PpgStep P d b a c) := by
  cases commutative with
  | false =>
    have e2 : (reduceActs tileSet).2 = 29 := by rw [C75_known_table]
    have e1 : (reduceActs tileSet).1 = knownAperiodic := by rw [C75_known_table]
    obtain ⟨P, h1, h2, h3, -⟩ := C74_reduction_exact tile_fit tile_det (by omega)
    have hck := (reduce_check (noMax tile_fit) (by omega)).2 tile_det
    rw [e2] at h1
    refine ⟨P, 29, ?_, rfl, ?_, by simp⟩
    · unfold aperiodicMain
      simp only [Bool.false_eq_true, if_false, hck, Bool.not_true, h1, Option.map_some, e2]
    · rw [e2] at h2
      rw [e2, e1] at h3
      exact C75_known_aperiodic h2 h3
  | true =>
    have e2 := commute_size
    obtain ⟨P, h1, h2, h3, -⟩ := C74_commutative_exact tile_det (by omega)
    have hck := (commute_check (W := tileSet) (by omega)).2 tile_det
    have hc := (C74_check_exact (commuteActs_ascending tileSet).nodup).1 hck
    rw [e2] at h1 h2 h3
    refine ⟨P, 44, ?_, rfl, ?_, fun _ a b c h => (h3 _ _ _).2 (hc.comm rfl _ _ _ ((h3 _ _ _).1 h))⟩
    · unfold aperiodicMain
      simp only [if_true, hck, Bool.not_true, h1, Option.map_some, e2, Bool.false_eq_true, if_false]
    · refine aperiodic_of h2 h3 hc.west ?_ (commute_tri (by omega) tileSet_patch h3)
      rw [commute_periodic (by omega)]
      exact tileSet_aperiodic

/-- A square of the tile set with four tiles, and its first block. -/
example : WangPatch tileSet 2 2 (fun r c =>
    if r = 0 then (if c = 0 then (4, 4, 5, 5) else (5, 2, 1, 3)) else (if c = 0 then (2, 5, 3, 1) else (1, 1, 2, 2))) := by
  refine ⟨?_, ?_, ?_⟩
  · intro r hr c hc
    have : r = 0 ∨ r = 1 := by omega
    have : c = 0 ∨ c = 1 := by omega
    rcases ‹r = 0 ∨ _› with rfl | rfl <;> rcases ‹c = 0 ∨ _› with rfl | rfl <;> decide
  · intro r hr c hc
    have : r = 0 ∨ r = 1 := by omega
    have : c = 0 := by omega
    subst this
    rcases ‹r = 0 ∨ _› with rfl | rfl <;> rfl
  · intro r hr c hc
    have : r = 0 := by omega
    subst this
    have : c = 0 ∨ c = 1 := by omega
    rcases this with rfl | rfl <;> rfl

end Verif.Props
