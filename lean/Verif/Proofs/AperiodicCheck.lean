import Verif.Proofs.Aperiodic
import Verif.Props.Ppg
import Verif.Spec.Tile

/-!
`check_constraints` of `src/uni/aperiodic.cc`, and the table of actions as a propagation function.
-/

namespace Verif.Proofs
open Verif.Model Verif.Spec

/-! ### Sets are lists without repetition -/

/-- The members of a set are ascending. -/
def Ascending (l : List UniAct) : Prop := l.Pairwise fun x y => tripleLt x y = true

theorem tripleLt_iff {x y : UniAct} : tripleLt x y = true ↔
    x.1 < y.1 ∨ (x.1 = y.1 ∧ (x.2.1 < y.2.1 ∨ (x.2.1 = y.2.1 ∧ x.2.2 < y.2.2))) := by simp [tripleLt]

theorem tripleLt_trans {x y z : UniAct} (h : tripleLt x y = true) (h' : tripleLt y z = true) : tripleLt x z = true := by
  rw [tripleLt_iff] at *; omega

theorem tripleLt_total {x y : UniAct} (h : x ≠ y) (h' : ¬ tripleLt x y = true) : tripleLt y x = true := by
  obtain ⟨a, b, c⟩ := x
  obtain ⟨a', b', c'⟩ := y
  rw [tripleLt_iff] at *
  simp only [ne_eq, Prod.mk.injEq] at *
  omega

theorem ascInsert_ascending {x : UniAct} {l : List UniAct} (h : Ascending l) : Ascending (ascInsert tripleLt x l) := by
  induction l with
  | nil => simp [ascInsert, Ascending]
  | cons y l ih =>
    obtain ⟨h1, h2⟩ := List.pairwise_cons.1 h
    unfold ascInsert
    split
    · exact h
    · split
      case isFalse.isTrue hxy =>
        refine List.pairwise_cons.2 ⟨fun z hz => ?_, h⟩
        rcases List.mem_cons.1 hz with rfl | hz
        · exact hxy
        · exact tripleLt_trans hxy (h1 z hz)
      case isFalse.isFalse hne hxy =>
        refine List.pairwise_cons.2 ⟨fun z hz => ?_, ih h2⟩
        rcases mem_ascInsert.1 hz with rfl | hz
        · exact tripleLt_total hne hxy
        · exact h1 z hz

theorem putActs_ascending {l : List (ℕ × ℕ × ℕ)} {acts : List UniAct} (h : Ascending acts) :
    Ascending (l.foldl putAct acts) := by
  induction l generalizing acts with
  | nil => exact h
  | cons t l ih => exact ih (ascInsert_ascending h)

theorem Ascending.nodup {l : List UniAct} (h : Ascending l) : l.Nodup := by
  refine List.Pairwise.imp ?_ h
  rintro x y hxy rfl
  rw [tripleLt_iff] at hxy
  omega

theorem reduceActs_ascending (W : List Wang) : Ascending (reduceActs W).1 := by
  have : ∀ (l : List Wang) (st : List Sym × List UniAct), Ascending st.2 → Ascending (l.foldl (reduceTile 0) st).2 := by
    intro l
    induction l with
    | nil => exact fun st h => h
    | cons t l ih => exact fun st h => ih _ (putActs_ascending h)
  exact this W _ List.Pairwise.nil

theorem commuteActs_ascending (W : List Wang) : Ascending (commuteActs W).1 := by
  have : ∀ (l : List Wang) (st : List Sym × List UniAct), Ascending st.2 → Ascending (l.foldl commuteTile st).2 := by
    intro l
    induction l with
    | nil => exact fun st h => h
    | cons t l ih =>
      intro st h
      refine ih _ ?_
      simp only [commuteTile]
      generalize (_ ++ _ ++ _ : List (ℕ × ℕ × ℕ)) = L
      exact putActs_ascending h
  exact this W _ List.Pairwise.nil

/-! ### The check -/

theorem guardLoop_spec (acts : List UniAct) (gs : List (ℕ × ℕ)) (hn : acts.Nodup) :
    (∀ gs', guardLoop acts gs = some gs' → (∀ g, g ∈ gs' ↔ g ∈ gs ∨ ∃ c, (g.1, g.2, c) ∈ acts) ∧ Determ acts ∧
      ∀ t ∈ acts, (t.1, t.2.1) ∉ gs) ∧
    (guardLoop acts gs = none → ¬ (Determ acts ∧ ∀ t ∈ acts, (t.1, t.2.1) ∉ gs)) := by
  induction acts generalizing gs with
  | nil =>
    refine ⟨fun gs' h => ?_, fun h => ?_⟩
    · cases h
      refine ⟨by simp, fun a b c c' h => ?_, by simp⟩
      simp at h
    · cases h
  | cons t l ih =>
    obtain ⟨ht, hl⟩ := List.nodup_cons.1 hn
    by_cases hm : (t.1, t.2.1) ∈ gs
    · rw [guardLoop, if_pos hm]
      refine ⟨fun gs' h => (by cases h), fun _ h => h.2 t (by simp) hm⟩
    · rw [guardLoop, if_neg hm]
      obtain ⟨i1, i2⟩ := ih ((t.1, t.2.1) :: gs) hl
      constructor
      · intro gs' h
        obtain ⟨j1, j2, j3⟩ := i1 gs' h
        refine ⟨fun g => ?_, ?_, ?_⟩
        · obtain ⟨a, b, c⟩ := t
          obtain ⟨g1, g2⟩ := g
          rw [j1]
          simp only [List.mem_cons, Prod.mk.injEq]
          constructor
          · rintro ((⟨rfl, rfl⟩ | h) | ⟨c', h⟩)
            · exact .inr ⟨c, .inl ⟨rfl, rfl, rfl⟩⟩
            · exact .inl h
            · exact .inr ⟨c', .inr h⟩
          · rintro (h | ⟨c', ⟨rfl, rfl, -⟩ | h⟩)
            · exact .inl (.inr h)
            · exact .inl (.inl ⟨rfl, rfl⟩)
            · exact .inr ⟨c', h⟩
        · intro a b c c' h h'
          rcases List.mem_cons.1 h with k | k <;> rcases List.mem_cons.1 h' with k' | k'
          · rw [← k'] at k; simp only [Prod.mk.injEq, true_and] at k; exact k
          · exact absurd (by simp [← k]) (j3 _ k')
          · exact absurd (by simp [← k']) (j3 _ k)
          · exact j2 a b c c' k k'
        · intro s hs
          rcases List.mem_cons.1 hs with rfl | hs
          · exact hm
          · exact fun h => j3 s hs (by simp [h])
      · intro h hd
        refine i2 h ⟨fun a b c c' h h' => hd.1 a b c c' (by simp [h]) (by simp [h']), fun s hs hc => ?_⟩
        rcases List.mem_cons.1 hc with hc | hc
        · obtain ⟨a, b, c⟩ := t
          obtain ⟨a', b', c'⟩ := s
          simp only [Prod.mk.injEq] at hc
          obtain ⟨rfl, rfl⟩ := hc
          have := hd.1 a' b' c c' (by simp) (by simp [hs])
          subst this
          exact ht hs
        · exact hd.2 s (by simp [hs]) hc

theorem checkConstraints_iff {acts : List UniAct} {comm : Bool} (hn : acts.Nodup) : checkConstraints acts comm = true ↔
    (∀ a b c c', (a, b, c) ∈ acts → (a, b, c') ∈ acts → c = c') ∧
    (∀ a b c e, (a, b, c) ∈ acts → (a, c, e) ∉ acts) ∧ (∀ a b c e, (a, b, c) ∈ acts → (c, b, e) ∉ acts) ∧
    (comm = true → ∀ a b c, (a, b, c) ∈ acts → (b, a, c) ∈ acts) := by
  obtain ⟨h1, h2⟩ := guardLoop_spec acts [] hn
  unfold checkConstraints
  cases hg : guardLoop acts [] with
  | none =>
    have := h2 hg
    simp only [Bool.false_eq_true, false_iff]
    exact fun hd => this ⟨hd.1, by simp⟩
  | some gs =>
    obtain ⟨j1, j2, -⟩ := h1 gs hg
    simp only [List.not_mem_nil, false_or] at j1
    simp only [List.all_eq_true, Bool.and_eq_true, Bool.not_eq_true', decide_eq_false_iff_not, Bool.and_eq_false_iff,
      Bool.not_eq_false', decide_eq_true_eq, j1, not_exists]
    constructor
    · intro h
      refine ⟨j2, fun a b c e ht => (h _ ht).1.1 e, fun a b c e ht => (h _ ht).1.2 e, fun hc a b c ht => ?_⟩
      rcases (h _ ht).2 with h3 | h3
      · rw [hc] at h3; cases h3
      · exact h3
    · rintro ⟨-, k1, k2, k3⟩ ⟨a, b, c⟩ ht
      refine ⟨⟨fun e => k1 a b c e ht, fun e => k2 a b c e ht⟩, ?_⟩
      cases comm with
      | false => exact .inl rfl
      | true => exact .inr (k3 rfl a b c ht)

/-! ### The check on the reductions -/

section
variable {α : Type} {R : α → α → α → Prop} {acts : List UniAct} {num : α → ℕ} {sym : ℕ → α} {W : List Wang}

theorem Coded.rel (hc : Coded R acts num sym) {a b c : ℕ} (h : (a, b, c) ∈ acts) :
    R (sym a) (sym b) (sym c) ∧ a = num (sym a) ∧ b = num (sym b) ∧ c = num (sym c) := by
  obtain ⟨x, y, z, hR, e⟩ := (hc.mem _).1 h
  obtain ⟨i1, i2, i3⟩ := hc.inv x y z hR
  simp only [Prod.mk.injEq] at e
  obtain ⟨rfl, rfl, rfl⟩ := e
  rw [i1, i2, i3]
  exact ⟨hR, rfl, rfl, rfl⟩

theorem Coded.det (hc : Coded R acts num sym) : (∀ a b c c', (a, b, c) ∈ acts → (a, b, c') ∈ acts → c = c') ↔
    ∀ x y z z', R x y z → R x y z' → z = z' := by
  constructor
  · intro h x y z z' h1 h2
    have := h _ _ _ _ ((hc.mem _).2 ⟨x, y, z, h1, rfl⟩) ((hc.mem _).2 ⟨x, y, z', h2, rfl⟩)
    rw [← (hc.inv _ _ _ h1).2.2, ← (hc.inv _ _ _ h2).2.2, this]
  · intro h a b c c' h1 h2
    obtain ⟨r1, -, -, e1⟩ := hc.rel h1
    obtain ⟨r2, -, -, e2⟩ := hc.rel h2
    rw [e1, e2, h _ _ _ _ r1 r2]

theorem colStep_det : (∀ x y z z', ColStep W x y z → ColStep W x y z' → z = z') ↔ NWDeterministic W := by
  constructor
  · intro h a b c d c' d' h1 h2
    have := h _ _ _ _ (.tl h1) (.tl h2)
    simpa only [Col.cd.injEq] using this
  · intro h x y z z' h1 h2
    cases h1 with
    | tl m1 => cases h2 with
      | tl m2 => obtain ⟨rfl, rfl⟩ := h _ _ _ _ _ _ m1 m2; rfl
    | bl m1 => cases h2; rfl
    | tr m1 => cases h2; rfl
    | br m1 => cases h2; rfl

theorem colStep_west {x y z u : Col} (h : ColStep W x y z) : ¬ ColStep W x z u := by
  intro h'; cases h <;> cases h'

theorem colStep_north {x y z u : Col} (h : ColStep W x y z) : ¬ ColStep W z y u := by
  intro h'; cases h <;> cases h'

theorem cmStep_det : (∀ x y z z', CmStep W x y z → CmStep W x y z' → z = z') ↔ NWDeterministic W := by
  constructor
  · intro h a b c d c' d' h1 h2
    have := h _ _ _ _ (.inl (.t0 h1)) (.inl (.t0 h2))
    simpa only [Cm.cd.injEq] using this
  · intro h
    have key : ∀ x y z z', CmBase W x y z → CmBase W x y z' → z = z' := by
      intro x y z z' h1 h2
      cases h1 with
      | t0 m1 => cases h2 with
        | t0 m2 => obtain ⟨rfl, rfl⟩ := h _ _ _ _ _ _ m1 m2; rfl
      | _ => cases h2; rfl
    have flip : ∀ x y z z', CmBase W x y z → ¬ CmBase W y x z' := by
      intro x y z z' h1 h2; cases h1 <;> cases h2
    rintro x y z z' (h1 | h1) (h2 | h2)
    · exact key _ _ _ _ h1 h2
    · exact absurd h2 (flip _ _ _ _ h1)
    · exact absurd h2 (flip _ _ _ _ h1)
    · exact key _ _ _ _ h1 h2

theorem cmStep_west {x y z u : Cm} (h : CmStep W x y z) : ¬ CmStep W x z u := by
  rintro (h' | h') <;> rcases h with h | h <;> cases h <;> cases h'

theorem cmStep_comm {x y z : Cm} (h : CmStep W x y z) : CmStep W y x z := h.symm

theorem cmStep_north {x y z u : Cm} (h : CmStep W x y z) : ¬ CmStep W z y u :=
  fun h' => cmStep_west (cmStep_comm h) (cmStep_comm h')

theorem reduce_check (hW : NoMax W) (hs : (reduceActs W).2 ≤ 256) :
    checkConstraints (reduceActs W).1 false = true ↔ NWDeterministic W := by
  obtain ⟨num, sym, hc, -⟩ := reduce_coded hW hs
  rw [checkConstraints_iff (reduceActs_ascending W).nodup, hc.det, colStep_det]
  refine ⟨fun h => h.1, fun h => ⟨h, fun a b c e h1 h2 => ?_, fun a b c e h1 h2 => ?_, by simp⟩⟩
  · exact colStep_west (hc.rel h1).1 (hc.rel h2).1
  · exact colStep_north (hc.rel h1).1 (hc.rel h2).1

theorem commute_check (hs : (commuteActs W).2 ≤ 256) :
    checkConstraints (commuteActs W).1 true = true ↔ NWDeterministic W := by
  obtain ⟨num, sym, hc, -⟩ := commute_coded hs
  rw [checkConstraints_iff (commuteActs_ascending W).nodup, hc.det, cmStep_det]
  refine ⟨fun h => h.1, fun h => ⟨h, fun a b c e h1 h2 => ?_, fun a b c e h1 h2 => ?_, fun _ a b c h1 => ?_⟩⟩
  · exact cmStep_west (hc.rel h1).1 (hc.rel h2).1
  · exact cmStep_north (hc.rel h1).1 (hc.rel h2).1
  · obtain ⟨r, e1, e2, e3⟩ := hc.rel h1
    rw [e1, e2, e3]
    exact (hc.mem _).2 ⟨_, _, _, cmStep_comm r, rfl⟩

end

/-! ### The table of actions as a propagation function -/

theorem ppg_of_acts {acts : List UniAct} {d : ℕ} (hd : 0 < d) (hd' : d ≤ 255)
    (hr : ∀ t ∈ acts, t.1 < d ∧ t.2.1 < d ∧ t.2.2 < d)
    (hdet : ∀ a b c c', (a, b, c) ∈ acts → (a, b, c') ∈ acts → c = c') :
    ∃ P, ppgfunOfActs acts d = some P ∧ P.length = d * d ∧ (∀ v ∈ P, v ≤ d) ∧
      ∀ a b c, PpgStep P d a b c ↔ (a, b, c) ∈ acts := by
  obtain ⟨P, acts', h1, h2, h3, h4, h5, -⟩ := Props.C27_actions_round_trip d hd hd' acts hr hdet
  refine ⟨P, h1, h2, h3, fun a b c => ?_⟩
  rw [actionsOfPpg_eq hd (by omega) h2, Option.some.injEq] at h4
  rw [← h5, ← h4, mem_actions]
  unfold PpgStep
  refine and_congr_right fun ha => and_congr_right fun hb => and_congr_right fun hc => ?_
  have := pair_lt ha hb
  rw [List.getD_eq_getElem?_getD, List.getElem?_eq_getElem (by omega)]
  simp

theorem torus_iff_acts {acts : List UniAct} {P : List ℕ} {d : ℕ} (h : ∀ a b c, PpgStep P d a b c ↔ (a, b, c) ∈ acts) :
    (∃ w h T, 1 ≤ w ∧ 1 ≤ h ∧ Torus P d w h T) ↔ ActPeriodic acts := by
  unfold ActPeriodic
  constructor
  · rintro ⟨w, k, T, hw, hh, ht⟩
    exact ⟨w, k, T, hw, hh, fun r c => (h _ _ _).1 (ht.tile r c), ht.rows, ht.cols⟩
  · rintro ⟨w, k, T, hw, hh, ht⟩
    exact ⟨w, k, T, hw, hh, fun r c => (h _ _ _).2 (ht.tile r c), ht.rows, ht.cols⟩

theorem reduce_periodic {W : List Wang} (hW : NoMax W) (hs : (reduceActs W).2 ≤ 256) :
    ActPeriodic (reduceActs W).1 ↔ WangPeriodic W := by
  obtain ⟨num, sym, hc, -⟩ := reduce_coded hW hs
  constructor
  · rintro ⟨w, h, T, hw, hh, ht⟩
    exact wang_of_col hw hh (hc.sym_of_acts ht)
  · rintro ⟨w, h, F, hw, hh, ht⟩
    exact ⟨_, _, _, by omega, by omega, hc.acts_of_sym (colOf_torus ht)⟩

theorem commute_periodic {W : List Wang} (hs : (commuteActs W).2 ≤ 256) :
    ActPeriodic (commuteActs W).1 ↔ WangPeriodic W := by
  obtain ⟨num, sym, hc, -⟩ := commute_coded hs
  constructor
  · rintro ⟨w, h, T, hw, hh, ht⟩
    exact wang_of_cm hw hh (hc.sym_of_acts ht)
  · rintro ⟨w, h, F, hw, hh, ht⟩
    have hb := cmOf_torus ht
    have : SymTorus (CmStep W) (3 * w) (3 * h) (cmOf F) := ⟨fun r c => .inl (hb.tile r c), hb.rows, hb.cols⟩
    exact ⟨_, _, _, by omega, by omega, hc.acts_of_sym this⟩

theorem reduce_range {W : List Wang} (hW : NoMax W) (hs : (reduceActs W).2 ≤ 256) :
    ∀ t ∈ (reduceActs W).1, t.1 < (reduceActs W).2 ∧ t.2.1 < (reduceActs W).2 ∧ t.2.2 < (reduceActs W).2 := by
  obtain ⟨num, sym, hc, hr, -⟩ := reduce_coded hW hs
  intro t ht
  obtain ⟨x, y, z, hR, rfl⟩ := (hc.mem t).1 ht
  exact hr x y z hR

theorem commute_range {W : List Wang} (hs : (commuteActs W).2 ≤ 256) :
    ∀ t ∈ (commuteActs W).1, t.1 < (commuteActs W).2 ∧ t.2.1 < (commuteActs W).2 ∧ t.2.2 < (commuteActs W).2 := by
  obtain ⟨num, sym, hc, hr, -⟩ := commute_coded hs
  intro t ht
  obtain ⟨x, y, z, hR, rfl⟩ := (hc.mem t).1 ht
  exact hr x y z hR

theorem reduce_pos (W : List Wang) : 0 < (reduceActs W).2 := by
  obtain ⟨p0, n0⟩ := reserveSyms_spec W
  obtain ⟨h1, -⟩ := fold_spec reduceTile_spec W (reserveSyms W) [] p0 n0
  have := (p0.trans h1).length_le
  exact this

theorem commute_pos (W : List Wang) : 0 < (commuteActs W).2 := by
  obtain ⟨h1, -⟩ := fold_spec commuteTile_spec W specialSyms [] List.prefix_rfl (by decide)
  have := h1.length_le
  have h4 : specialSyms.length = 4 := by decide
  show 0 < (W.foldl commuteTile (specialSyms, [])).1.length
  omega

end Verif.Proofs
