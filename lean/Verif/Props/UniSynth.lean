import Verif.Proofs.UniSynth

/-!
C31, C32, C33: protocols made by `unidirectionalRingProtocolGenerator`.
-/

set_option linter.unusedSectionVars false

namespace Verif.Props
open Verif.Model Verif.Spec Verif.Proofs

/-- All values of the legitimacy relation are values of the domain. -/
def LegitsOk (legits : List (ℕ × ℕ)) (M : ℕ) : Prop := ∀ p ∈ legits, p.1 < M ∧ p.2 < M

private theorem byte {v : ℕ} {M : ℕ} (hM : M ≤ 256) (h : v < M) : toByte v = v := by
  unfold toByte; omega

private theorem gen_spec (legits : List (ℕ × ℕ)) (M fuel : ℕ) (hl : LegitsOk legits M)
    (hM : M ≤ 256) (hf : M * M + M + 1 ≤ fuel) :
    ∃ acts, uniRingGenerator fuel legits M = some acts ∧
      ((acts = [] ∧ ∀ i < M, (i, i) ∉ legits.toFinset) ∨
       ∃ g tau L', g < M ∧ (g, g) ∈ legits.toFinset ∧ (∀ i < g, (i, i) ∉ legits.toFinset) ∧
        (∀ u v, (u, v) ∈ L' ↔ (u, v) ∈ legits.toFinset ∧ Live legits.toFinset v) ∧
        TauOk M g L' tau ∧
        ∀ a b c, (a, b, c) ∈ acts ↔ a < M ∧ b < M ∧ (a, b) ∉ L' ∧ tau a ≠ b ∧ c = tau a) := by
  have hL : legitMatrix legits M = some legits.toFinset := if_pos hl
  have hr : ∀ p ∈ legits.toFinset, p.1 < M ∧ p.2 < M := fun p hp => hl p (by simpa using hp)
  unfold uniRingGenerator
  rw [hL, Option.bind_some]
  cases hg : findGamma legits.toFinset M with
  | none =>
    refine ⟨[], rfl, Or.inl ⟨rfl, ?_⟩⟩
    simp only [findGamma, List.find?_eq_none, List.mem_range, decide_eq_true_eq] at hg
    exact hg
  | some g =>
    rw [findGamma, List.find?_range_eq_some] at hg
    simp only [decide_eq_true_eq, List.mem_range, Bool.not_eq_true', decide_eq_false_iff_not] at hg
    obtain ⟨g1, g2, g3⟩ := hg
    have hfM : M * M + 1 ≤ fuel := by omega
    obtain ⟨L', e1, hL'⟩ := prune_spec hr fuel hfM
    have hr' : ∀ p ∈ L', p.1 < M ∧ p.2 < M := fun p hp => hr p ((hL' p.1 p.2).1 hp).1
    obtain ⟨tau, e2, order, ho, hc⟩ := bfs_spec (L := L') g2 fuel (by
      have : M ≤ M * M + M := Nat.le_add_left _ _
      omega)
    have hτ := tauOk hr' g2 order tau ho hc
    simp only [e1, Option.bind_some, e2, Option.map_some]
    refine ⟨_, rfl, Or.inr ⟨g, _, L', g2, g1, g3, hL', hτ, fun a b c => ?_⟩⟩
    simp only [tauActions, List.mem_filterMap, Prod.exists, mem_pairsUpTo]
    constructor
    · rintro ⟨a', b', ⟨ha, hb⟩, h⟩
      split at h
      · rename_i hcond
        simp only [Option.some.injEq, Prod.mk.injEq] at h
        obtain ⟨rfl, rfl, rfl⟩ := h
        rw [byte hM ha, byte hM hb, byte hM (hτ.range a' ha)]
        exact ⟨ha, hb, hcond.1, hcond.2, rfl⟩
      · cases h
    · rintro ⟨ha, hb, h1, h2, rfl⟩
      refine ⟨a, b, ⟨ha, hb⟩, ?_⟩
      rw [if_pos ⟨h1, h2⟩, byte hM ha, byte hM hb, byte hM (hτ.range a ha)]

/-- C31: the generator finishes, and on a ring of any size every execution of its protocol has at
most `n * (M - 1)` steps. -/
theorem C31_terminates (legits : List (ℕ × ℕ)) (M fuel : ℕ) (hl : LegitsOk legits M)
    (hM : M ≤ 256) (hf : M * M + M + 1 ≤ fuel) :
    ∃ acts, uniRingGenerator fuel legits M = some acts ∧
      ∀ (n : ℕ) [NeZero n] (e : ℕ → ZMod n → ℕ), (∀ i, e 0 i < M) →
        ∀ k, (∀ t < k, RStep (ActProtocol acts) (e t) (e (t + 1))) → k ≤ n * (M - 1) := by
  obtain ⟨acts, e, h⟩ := gen_spec legits M fuel hl hM hf
  refine ⟨acts, e, fun n _ x h0 k hk => ?_⟩
  rcases h with ⟨rfl, -⟩ | ⟨g, tau, L', g1, g2, -, hL', hτ, hact⟩
  · cases k with
    | zero => omega
    | succ k =>
      obtain ⟨i, c, hc, -⟩ := hk 0 (by omega)
      simp [ActProtocol] at hc
  · have hgg : (g, g) ∈ L' := (hL' g g).2 ⟨g2, fun _ => g, rfl, fun _ => g2⟩
    obtain ⟨cnt, hs, hc⟩ := exec_count (M := M) (gamma := g) (Lp := fun a b => (a, b) ∈ L')
      (tau := tau) (f := ActProtocol acts)
      (fun i a b c h => ⟨((hact a b c).1 h).2.2.1, ((hact a b c).1 h).2.2.2.1,
        ((hact a b c).1 h).2.2.2.2⟩) hgg hτ.fix hτ.range hτ.iter x h0 k hk
    rw [← hs]
    calc ∑ i, cnt i ≤ ∑ _i : ZMod n, (M - 1) := Finset.sum_le_sum fun i _ => (hc i).1
      _ = n * (M - 1) := by
        rw [Finset.sum_const, Finset.card_univ, ZMod.card, smul_eq_mul]

/-- C31: there is no livelock. -/
theorem C31_no_livelock (legits : List (ℕ × ℕ)) (M fuel : ℕ) (hl : LegitsOk legits M)
    (hM : M ≤ 256) (hf : M * M + M + 1 ≤ fuel) :
    ∃ acts, uniRingGenerator fuel legits M = some acts ∧
      ∀ (n : ℕ) [NeZero n] (e : ℕ → ZMod n → ℕ), (∀ i, e 0 i < M) →
        ¬ RExec (ActProtocol acts) e := by
  obtain ⟨acts, e, h⟩ := C31_terminates legits M fuel hl hM hf
  refine ⟨acts, e, fun n _ x h0 hx => ?_⟩
  have := h n x h0 (n * (M - 1) + 1) fun t _ => hx t
  omega

/-- Legitimacy relation of a ring of three values: coloring-like, with a dead end and a value that is
never reached. -/
def sampleLegits : List (ℕ × ℕ) := [(0, 1), (1, 1), (1, 2), (2, 1), (0, 3)]

/-- A case of C31, C32 and C33: `gamma` is 1; the edge into 3 is pruned. -/
example : uniRingGenerator 30 sampleLegits 4 =
    some [(0, 0, 1), (0, 2, 1), (0, 3, 1), (1, 0, 1), (1, 3, 1), (2, 0, 1), (2, 2, 1), (2, 3, 1),
      (3, 0, 1), (3, 2, 1), (3, 3, 1)] := by decide +kernel

example : LegitsOk sampleLegits 4 := by unfold LegitsOk; decide

/-- C32: in legitimate configurations no process can act. -/
theorem C32_silent (legits : List (ℕ × ℕ)) (M fuel : ℕ) (hl : LegitsOk legits M)
    (hM : M ≤ 256) (hf : M * M + M + 1 ≤ fuel) :
    ∃ acts, uniRingGenerator fuel legits M = some acts ∧
      ∀ (n : ℕ) (x : ZMod n → ℕ), LegitRing legits x → SilentRing (ActProtocol acts) x := by
  obtain ⟨acts, e, h⟩ := gen_spec legits M fuel hl hM hf
  refine ⟨acts, e, fun n x hx y hy => ?_⟩
  obtain ⟨i, c, hc, -⟩ := hy
  rcases h with ⟨rfl, -⟩ | ⟨g, tau, L', -, -, -, hL', -, hact⟩
  · simp [ActProtocol] at hc
  · refine ((hact _ _ _).1 hc).2.2.1 ((hL' _ _).2 ⟨by simpa using hx i, ?_⟩)
    refine ⟨fun t => x (i + t), by simp, fun t => ?_⟩
    have := hx (i + (t + 1 : ℕ))
    have e : i + ((t + 1 : ℕ) : ZMod n) - 1 = i + t := by push_cast; ring
    rw [e] at this
    simpa using this

/-- A case of C32: a legitimate ring of four processes. -/
example : LegitRing sampleLegits (n := 4) (fun i => if i = 1 then 2 else 1) := by
  unfold LegitRing; decide

private theorem reach_path {L : Finset (ℕ × ℕ)} {a b : ℕ} (h : Reach L a b) :
    ∃ (m : ℕ) (p : ℕ → ℕ), p 0 = a ∧ p m = b ∧ ∀ k < m, (p k, p (k + 1)) ∈ L := by
  induction h with
  | refl => exact ⟨0, fun _ => a, rfl, rfl, by simp⟩
  | @tail b c _ hbc ih =>
    obtain ⟨m, p, h0, hm, hk⟩ := ih
    refine ⟨m + 1, fun k => if k ≤ m then p k else c, by simp [h0], by simp, fun k hk' => ?_⟩
    by_cases h : k < m
    · have h1 : k ≤ m := by omega
      have h2 : k + 1 ≤ m := by omega
      simp only [h1, h2, if_true]
      exact hk k h
    · have : k = m := by omega
      subst this
      simp only [le_refl, if_true, hm, show ¬ k + 1 ≤ k by omega, if_false]
      exact hbc

private theorem live_reach {L : Finset (ℕ × ℕ)} {a b : ℕ} (h : Reach L a b) (hb : Live L b) :
    Live L a := by
  induction h using Relation.ReflTransGen.head_induction_on with
  | refl => exact hb
  | head hst _ ih => exact live_cons hst ih

private theorem reach_prune {L L' : Finset (ℕ × ℕ)}
    (hL' : ∀ u v, (u, v) ∈ L' ↔ (u, v) ∈ L ∧ Live L v) {a b : ℕ} (h : Reach L a b)
    (hb : Live L b) : Reach L' a b := by
  induction h using Relation.ReflTransGen.head_induction_on with
  | refl => exact Relation.ReflTransGen.refl
  | head hst hrest ih =>
    exact Relation.ReflTransGen.head ((hL' _ _).2 ⟨hst, live_reach hrest hb⟩) ih

private theorem reach_of_prune {L L' : Finset (ℕ × ℕ)}
    (hL' : ∀ u v, (u, v) ∈ L' ↔ (u, v) ∈ L ∧ Live L v) {a b : ℕ} (h : Reach L' a b) :
    Reach L a b ∧ (Live L a → Live L b) := by
  induction h with
  | refl => exact ⟨Relation.ReflTransGen.refl, id⟩
  | tail _ hbc ih =>
    exact ⟨ih.1.tail ((hL' _ _).1 hbc).1, fun _ => ((hL' _ _).1 hbc).2⟩

private theorem val_pred (m : ℕ) (i : ZMod (m + 1)) (hi : i ≠ 0) :
    (i - 1).val + 1 = i.val := by
  have h1 : i.val ≠ 0 := by simpa using hi
  cases m with
  | zero => exact absurd (Subsingleton.elim (α := Fin 1) i 0) hi
  | succ m =>
    have : Fact (1 < m + 1 + 1) := ⟨by omega⟩
    have h : (1 : ZMod (m + 1 + 1)).val ≤ i.val := by rw [ZMod.val_one]; omega
    rw [ZMod.val_sub h, ZMod.val_one]
    omega

/-- C33, with the exact condition under which it holds: on rings of every size every configuration
without enabled action is legitimate, precisely when each value that lies on an endless walk from
`gamma` leads back to `gamma`.  Missing for the full claim: the condition may fail
(`C33_counterexample`). -/
theorem C33_deadlock_free_partial (legits : List (ℕ × ℕ)) (M fuel : ℕ) (hM0 : 0 < M)
    (hl : LegitsOk legits M) (hM : M ≤ 256) (hf : M * M + M + 1 ≤ fuel) :
    ∃ acts, uniRingGenerator fuel legits M = some acts ∧
      ((∀ (n : ℕ) [NeZero n] (x : ZMod n → ℕ), (∀ i, x i < M) → SilentRing (ActProtocol acts) x →
        LegitRing legits x) ↔ GenCondition legits.toFinset M) := by
  obtain ⟨acts, e, h⟩ := gen_spec legits M fuel hl hM hf
  refine ⟨acts, e, ?_⟩
  rcases h with ⟨rfl, hno⟩ | ⟨g, tau, L', g1, g2, g3, hL', hτ, hact⟩
  · constructor
    · intro h
      have := h 1 (fun _ => 0) (fun _ => hM0) (by
        rintro y ⟨i, c, hc, -⟩
        simp [ActProtocol] at hc) 0
      exact absurd (by simpa using this) (hno 0 hM0)
    · rintro ⟨g, hg, hgg, -⟩
      exact absurd hgg (hno g hg)
  have hgL : Live legits.toFinset g := ⟨fun _ => g, rfl, fun _ => g2⟩
  have hgg : (g, g) ∈ L' := (hL' g g).2 ⟨g2, hgL⟩
  have back : ∀ v, Reach legits.toFinset v g → Reach L' v g := fun v h => reach_prune hL' h hgL
  have hr : ∀ u v, (u, v) ∈ legits.toFinset → u < M ∧ v < M := fun u v h => hl _ (by simpa using h)
  have silent : ∀ (n : ℕ) (x : ZMod n → ℕ), (∀ i, x i < M) →
      (SilentRing (ActProtocol acts) x ↔ ∀ i, (x (i - 1), x i) ∈ L' ∨ tau (x (i - 1)) = x i) := by
    intro n x hx
    constructor
    · intro hs i
      by_contra hc
      push Not at hc
      exact hs _ ⟨i, _, (hact _ _ _).2 ⟨hx _, hx _, hc.1, hc.2, rfl⟩, rfl⟩
    · rintro h y ⟨i, c, hc, -⟩
      obtain ⟨-, -, h1, h2, -⟩ := (hact _ _ _).1 hc
      rcases h i with h | h
      · exact h1 h
      · exact h2 h
  constructor
  · intro hdf
    refine ⟨g, g1, g2, g3, fun v hv hlv => ?_⟩
    by_contra hnr
    obtain ⟨m, p, h0, hm, hp⟩ := reach_path (reach_prune hL' hv hlv)
    have hpM : ∀ k ≤ m, p k < M := by
      intro k hk
      cases k with
      | zero => rw [h0]; exact g1
      | succ k => exact (hr _ _ ((hL' _ _).1 (hp k (by omega))).1).2
    have hτv : tau v = g := by
      refine hτ.unreached v (by rw [← hm]; exact hpM m le_rfl) fun h => hnr (reach_of_prune hL' h).1
    have hval : ∀ i : ZMod (m + 1), i.val ≤ m := fun i => by
      have := ZMod.val_lt i; omega
    have hneg : ((0 : ZMod (m + 1)) - 1).val = m := by rw [zero_sub, ZMod.val_neg_one]
    have hs : SilentRing (ActProtocol acts) (fun i : ZMod (m + 1) => p i.val) := by
      rw [silent _ _ fun i => hpM _ (hval i)]
      intro i
      by_cases hi : i = 0
      · subst hi
        right
        simp only [hneg, hm, hτv, ZMod.val_zero, h0]
      · left
        have := val_pred m i hi
        have := hp (i - 1).val (by have := hval i; omega)
        rwa [val_pred m i hi] at this
    have := hdf (m + 1) _ (fun i => hpM _ (hval i)) hs 0
    simp only [hneg, hm, ZMod.val_zero, h0] at this
    exact hnr (Relation.ReflTransGen.single (by simpa [Step] using this))
  · rintro ⟨g', hg', hgg', hleast, hcond⟩ n _ x hx hs i
    have hgeq : g' = g := by
      rcases lt_trichotomy g' g with h | h | h
      · exact absurd hgg' (g3 g' h)
      · exact h
      · exact absurd g2 (hleast g h)
    subst hgeq
    rw [silent n x hx] at hs
    have edge : ∀ j, Reach legits.toFinset (x (j - 1)) g' → (x (j - 1), x j) ∈ L' := by
      intro j hj
      rcases hs j with h | h
      · exact h
      · rw [← h]
        by_cases hg : x (j - 1) = g'
        · rw [hg, hτ.fix]; exact hgg
        · exact hτ.reached _ (hx _) hg (back _ hj)
    have good : Reach legits.toFinset (x (i - 1)) g' ∨ (x (i - 1), x i) ∈ L' := by
      rcases hs i with h | h
      · exact Or.inr h
      · left
        by_contra hn
        have hxi : x i = g' := by
          rw [← h]
          exact hτ.unreached _ (hx _) fun h' => hn (reach_of_prune hL' h').1
        have walk : ∀ k : ℕ, Reach L' g' (x (i + k)) := by
          intro k
          induction k with
          | zero => simp only [Nat.cast_zero, add_zero, hxi]; exact Relation.ReflTransGen.refl
          | succ k ih =>
            have hb := reach_of_prune hL' ih
            have hc := hcond _ hb.1 (hb.2 hgL)
            have e1 : i + ((k + 1 : ℕ) : ZMod n) - 1 = i + k := by push_cast; ring
            have := edge (i + ((k + 1 : ℕ) : ZMod n)) (by rw [e1]; exact hc)
            rw [e1] at this
            exact ih.tail this
        have hw := walk (n - 1)
        have hn1 : 1 ≤ n := NeZero.one_le
        rw [Nat.cast_sub hn1, ZMod.natCast_self, Nat.cast_one, zero_sub, ← sub_eq_add_neg] at hw
        have hb := reach_of_prune hL' hw
        exact hn (hcond _ hb.1 (hb.2 hgL))
    have : (x (i - 1), x i) ∈ L' := by
      rcases good with h | h
      · exact edge i h
      · exact h
    simpa using ((hL' _ _).1 this).1

/-- C33: under the condition, every maximal execution is legitimate from step `n * (M - 1)` on. -/
theorem C33_converges_partial (legits : List (ℕ × ℕ)) (M fuel : ℕ) (hM0 : 0 < M)
    (hl : LegitsOk legits M) (hM : M ≤ 256) (hf : M * M + M + 1 ≤ fuel)
    (hc : GenCondition legits.toFinset M) :
    ∃ acts, uniRingGenerator fuel legits M = some acts ∧
      ∀ (n : ℕ) [NeZero n] (e : ℕ → ZMod n → ℕ), (∀ t i, e t i < M) →
        (∀ t, RStep (ActProtocol acts) (e t) (e (t + 1)) ∨
          (SilentRing (ActProtocol acts) (e t) ∧ e (t + 1) = e t)) →
        ∀ t, n * (M - 1) ≤ t → LegitRing legits (e t) := by
  obtain ⟨acts, e1, h1⟩ := C31_terminates legits M fuel hl hM hf
  obtain ⟨acts', e2, h2⟩ := C33_deadlock_free_partial legits M fuel hM0 hl hM hf
  rw [e1, Option.some.injEq] at e2
  subst e2
  refine ⟨acts, e1, fun n _ e he hx t ht => h2.2 hc n (e t) (he t) ?_⟩
  by_contra hns
  have hall : ∀ s ≤ t, RStep (ActProtocol acts) (e s) (e (s + 1)) := by
    by_contra hno
    push Not at hno
    obtain ⟨s, hs, hsn⟩ := hno
    have hsil := (hx s).resolve_left hsn
    have stay : ∀ k, e (s + k) = e s := by
      intro k
      induction k with
      | zero => rfl
      | succ k ih =>
        rcases hx (s + k) with h | h
        · rw [ih] at h
          exact absurd h (hsil.1 _)
        · rw [← add_assoc, h.2, ih]
    apply hns
    obtain ⟨k, rfl⟩ := Nat.exists_eq_add_of_le hs
    rw [stay k]
    exact hsil.1
  have := h1 n e (he 0) (t + 1) fun s hs => hall s (by omega)
  omega

/-- The condition of C33 holds for the sample. -/
theorem sample_condition : GenCondition sampleLegits.toFinset 4 := by
  refine ⟨1, by decide, by decide, by decide, fun v hv hlv => ?_⟩
  have hset : v = 1 ∨ v = 2 := by
    clear hlv
    induction hv with
    | refl => exact Or.inl rfl
    | @tail b c _ hbc ih =>
      have hbc' : (b, c) ∈ sampleLegits := by simpa [Step] using hbc
      rcases ih with rfl | rfl <;> simp [sampleLegits] at hbc' <;> omega
  rcases hset with rfl | rfl
  · exact Relation.ReflTransGen.refl
  · exact Relation.ReflTransGen.single (by unfold Step; decide)

/-- C33 fails: with two values where only 0 after 1 is illegitimate, the ring 0,1 is illegitimate and
no process can act. -/
theorem C33_counterexample :
    let legits := [(0, 0), (0, 1), (1, 1)]
    LegitsOk legits 2 ∧ uniRingGenerator 7 legits 2 = some [] ∧
    ∀ acts, uniRingGenerator 7 legits 2 = some acts →
      ∃ x : ZMod 2 → ℕ, (∀ i, x i < 2) ∧ SilentRing (ActProtocol acts) x ∧ ¬ LegitRing legits x := by
  have e : uniRingGenerator 7 [(0, 0), (0, 1), (1, 1)] 2 = some [] := by decide +kernel
  refine ⟨by unfold LegitsOk; decide, e, fun acts ha => ?_⟩
  rw [e, Option.some.injEq] at ha
  subst ha
  refine ⟨fun i => i.val, by decide, ?_, ?_⟩
  · rintro y ⟨i, c, hc, -⟩
    simp [ActProtocol] at hc
  · intro h
    have := h 0
    revert this
    decide

end Verif.Props
