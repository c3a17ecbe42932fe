import Verif.Proofs.Pick

/-! Properties C81 and C82: the choice of the next action. -/

set_option linter.unusedSectionVars false

namespace Verif.Props
open Verif.Model Verif.Proofs Verif.Spec

/-- One instance of a partial solution. -/
structure PickSite where
  State : Type
  [fin : Fintype State]
  [dec : DecidableEq State]
  noPartial : Bool
  cands : List ℕ
  dead : Finset State
  inst : PickInst State

attribute [instance] PickSite.fin PickSite.dec

/-- The states that an action leaves. -/
def PickSite.pre (x : PickSite) (a : ℕ) : Finset x.State := dom (x.inst.xn a)

/-- `mcv_deadlocks` ranks the deadlocks, as C43 and C62 say of `RankDeadlocksMRV` and `ReviseDeadlocksMRV`. -/
def PickSite.Ranked (x : PickSite) : Prop := Ranking (fun a => dom (x.inst.xn a)) x.cands.toFinset x.dead x.inst.mcv

/-- The instance as the specification sees it. -/
def PickSite.waiting (x : PickSite) : Waiting :=
  ⟨x.State, x.noPartial = false, fun s => s ∈ x.dead, x.cands.toFinset, fun a s => s ∈ x.pre a⟩

/-- The instance as the code sees it. -/
def PickSite.mrv (opt : PickOpt) (x : PickSite) : MrvInst := mrvOf opt x.noPartial x.cands x.inst

theorem options_eq (x : PickSite) (s : x.State) :
    x.waiting.options s = resolvedBy (fun a => dom (x.inst.xn a)) x.cands.toFinset s := by
  unfold Waiting.options resolvedBy
  refine congrArg Finset.card ?_
  ext a
  exact (@Finset.mem_filter _ (fun a => x.waiting.resolves a s) (Classical.decPred _) _ _).trans
    (@Finset.mem_filter _ (fun a => s ∈ dom (x.inst.xn a)) _ _ _).symm

theorem ranked_zero {x : PickSite} (h : x.Ranked) (h0 : 0 < x.inst.mcv.sz) : x.inst.mcv.cands 0 = ∅ := by
  rw [ranking_atRank h h0]
  apply Finset.eq_empty_of_forall_notMem
  intro a ha
  have := (atRank_lt h ha).2.2
  omega

theorem ranked_ok {x : PickSite} (h : x.Ranked) : RankOk x.inst := by
  intro k hk a ha
  obtain ⟨_, s, h1, h2⟩ := (h.2 k hk a).1 ha
  exact ⟨s, Finset.mem_inter.2 ⟨h1, h2⟩⟩

/-- **C81.** If there is a candidate then `PickActionMRV` picks a candidate, for every method, every policy
and whatever the random numbers are; and unless the method is fully random it resolves a most constrained
deadlock, if any can be resolved.  `heavy` only matters for `LCVHeavyPick`: the trial revisions never yield more
candidates nor no new action. -/
theorem C81_pick_most_constrained {ρ : Type} (opt : PickOpt) (zero : Option (ℕ → ℕ)) (urandom : ρ → ℕ → ρ × ℕ)
    (hu : ∀ r n, 0 < n → (urandom r n).2 < n) (rng : ρ) (level : ℕ) (sites : List PickSite)
    (hrank : ∀ x ∈ sites, x.noPartial = false → x.Ranked)
    (heavy : opt.method = .lcvHeavy → ∀ x ∈ sites, ∀ a ∈ x.cands, ∀ nc na, x.inst.revised a = some (nc, na) →
      nc ≤ x.inst.nCands ∧ x.inst.nActs < na)
    (hc : ∃ x ∈ sites, x.cands ≠ []) :
    ∃ a, (pickActionMRV opt zero urandom rng level (sites.map (PickSite.mrv opt))).2 = .ok a ∧
      (∃ x ∈ sites, a ∈ x.cands) ∧
      (opt.method ≠ .fullyRandom → (∃ w ∈ sites.map PickSite.waiting, ∃ s, w.Open s) →
        MostConstrained (sites.map PickSite.waiting) a) := by
  have h0 : ∀ y ∈ sites.map (PickSite.mrv opt), y.noPartial = false → 0 < y.sz → y.sets 0 = ∅ := by
    intro y hy hn hsz
    obtain ⟨x, hx, rfl⟩ := List.mem_map.1 hy
    exact ranked_zero (hrank x hx hn) hsz
  have hin : ∀ x ∈ sites, x.noPartial = false → ∀ k < x.inst.mcv.sz, ∀ a ∈ x.inst.mcv.cands k, a ∈ x.cands := by
    intro x hx hn k hk a ha
    rw [ranking_atRank (hrank x hx hn) hk] at ha
    exact List.mem_toFinset.1 (Finset.mem_filter.1 ha).1
  obtain ⟨a, h1, h2, h3⟩ := pickAction_ok (opt := opt) (zero := zero) (urandom := urandom) hu rng level
    (insts := sites.map (PickSite.mrv opt)) h0 (by
      intro hm y hy hn k hk hne
      obtain ⟨x, hx, rfl⟩ := List.mem_map.1 hy
      obtain ⟨_, t, _, _, e1, e2, e3, _⟩ := pickCands_ok (opt := opt) (I := x.inst) (k := k) hk
        (ranked_ok (hrank x hx hn)) hne hm (fun he a ha => heavy he x hx a (hin x hx hn k hk a ha))
      exact ⟨t, e1, e2, e3⟩) (by
      obtain ⟨x, hx, hne⟩ := hc
      exact ⟨x.mrv opt, List.mem_map_of_mem hx, hne⟩)
  have hL := mrvIdx_spec h0
  -- what a chosen action of the least rank means
  have hmost : ∀ x ∈ sites, TakesPart (mrvIdx (sites.map (PickSite.mrv opt))) (x.mrv opt) →
      a ∈ (x.mrv opt).sets (mrvIdx (sites.map (PickSite.mrv opt))) →
      MostConstrained (sites.map PickSite.waiting) a := by
    rintro x hx ⟨q1, q2, q3⟩ hax
    have hR := hrank x hx q1
    have hmem : a ∈ atRank (fun a => dom (x.inst.xn a)) x.cands.toFinset x.dead
        (mrvIdx (sites.map (PickSite.mrv opt))) := by
      rw [← ranking_atRank hR q2]; exact hax
    obtain ⟨b1, s, b2, b3, b4⟩ := Finset.mem_filter.1 hmem
    refine ⟨x.waiting, List.mem_map_of_mem hx, s, ⟨q1, b2, a, b1, b4⟩, b1, b4, ?_⟩
    intro v hv t ht
    obtain ⟨y, hy, rfl⟩ := List.mem_map.1 hv
    obtain ⟨c1, c2, b, c3, c4⟩ := ht
    have hRy := hrank y hy c1
    rw [options_eq x s, options_eq y (t : y.State), b3]
    refine (hL.le (y.mrv opt) (List.mem_map_of_mem hy) c1 _ (ranking_lt hRy c2) ?_).2
    refine Finset.ne_empty_of_mem (a := b) ?_
    show b ∈ y.inst.mcv.cands _
    rw [ranking_atRank hRy (ranking_lt hRy c2)]
    exact Finset.mem_filter.2 ⟨c3, t, c2, rfl, c4⟩
  refine ⟨a, h1, ?_, ?_⟩
  · by_cases hm : opt.method = .fullyRandom
    · rcases h2 with ⟨y, hy, h⟩ | hpos
      · obtain ⟨x, hx, rfl⟩ := List.mem_map.1 hy
        exact ⟨x, hx, h⟩
      · -- the fully random method does not look at ranks
        unfold pickActionMRV at h1
        simp only [if_pos hm] at h1
        split at h1
        · cases h1
        · rename_i y hf
          obtain ⟨x, hx, rfl⟩ := List.mem_map.1 (List.mem_of_find?_eq_some hf)
          split at h1
          · cases h1
          · rename_i b hb
            cases h1
            exact ⟨x, hx, List.mem_of_getElem? hb⟩
    · rcases h2 with ⟨y, hy, h⟩ | hpos
      · obtain ⟨x, hx, rfl⟩ := List.mem_map.1 hy
        exact ⟨x, hx, h⟩
      · obtain ⟨y, hy, ht, hay⟩ := h3 hm hpos
        obtain ⟨x, hx, rfl⟩ := List.mem_map.1 hy
        exact ⟨x, hx, hin x hx ht.1 _ ht.2.1 a hay⟩
  · rintro hm ⟨w, hw, s, c1, c2, b, c3, c4⟩
    obtain ⟨x, hx, rfl⟩ := List.mem_map.1 hw
    have hR := hrank x hx c1
    have hpos := (hL.le (x.mrv opt) (List.mem_map_of_mem hx) c1 _ (ranking_lt hR c2) (by
      refine Finset.ne_empty_of_mem (a := b) ?_
      show b ∈ x.inst.mcv.cands _
      rw [ranking_atRank hR (ranking_lt hR c2)]
      exact Finset.mem_filter.2 ⟨c3, s, c2, rfl, c4⟩)).1
    obtain ⟨y, hy, ht, hay⟩ := h3 hm hpos
    obtain ⟨z, hz, rfl⟩ := List.mem_map.1 hy
    exact hmost z hz ht hay

/-- **C81, random values.** Of the actions that differ only in random values exactly the one with the least
number remains. -/
theorem C81_random_values (zero : ℕ → ℕ) (c : Finset ℕ) (a : ℕ) :
    a ∈ zeroOnly (some zero) c ↔ a ∈ c ∧ ∀ b ∈ c, zero b = zero a → a ≤ b := zeroOnly_exact zero c a

/-- What a method keeps of the candidates `c` of rank `k`: `C` are all candidates, `D` the deadlocks. -/
def MethodRule {S : Type} [Fintype S] [DecidableEq S] (m : PickMethod) (I : PickInst S) (C : Finset ℕ) (D : Finset S)
    (k : ℕ) (reach : Finset S) (c t : Finset ℕ) : Prop :=
  let pre := fun a => dom (I.xn a)
  match m with
  | .mrvLite => t = c
  | .lex => ∃ s ∈ D, resolvedBy pre C s = k ∧ (∃ a ∈ t, ∀ b ∈ c, a ≤ b) ∧ ∀ a ∈ t, s ∈ pre a
  | .greedy => MaxOf (rankSum pre C D k) c t
  | .greedySlow => MaxOf (rivals pre C D k) c t
  | .lcvLite => MinOf (leftWith pre C D) c t
  | .lcvHeavy => MinOf (fun a => match I.revised a with
      | none => I.nCands
      | some (nc, na) => (I.nCands - nc) / (na - I.nActs)) c t
  | .lcvJank => ∃ a ∈ c, ∃ o, (∀ b, b ∈ o ↔ b = a ∨ (b ∈ c ∧ Together pre C D k a b)) ∧
      (∀ b ∈ c, o.card ≤ (c.filter fun x => x = b ∨ Together pre C D k b x).card) ∧
      MaxOf (fun b => ((I.revised b).map Prod.fst).getD 0) o t
  | .conflict => t = if (I.membs ∩ c).Nonempty then c ∩ I.membs else c
  | .quick => MinOf (fun a =>
      if I.shadowPuppet then if pre a ∩ I.hiInv = ∅ then 0 else 1
      else if (reach ∩ rng (I.xn a)).Nonempty then if pre a ⊆ reach then 1 else 0
      else 2) c t
  | .fullyRandom => False

/-- **C82.** What `pick_action_candidates` returns for a rank that has candidates.  With `pick_back_reach` it
starts from the candidates (if any) by which some deadlock of this rank gets to a state that can already
converge; the priorities of the processes are respected before or after the method; and each method returns the
best candidates in its own sense, at least one. -/
theorem C82_pick_candidates {S : Type} [Fintype S] [DecidableEq S] (opt : PickOpt) (I : PickInst S) (C : Finset ℕ)
    (D : Finset S) (hrank : Ranking (fun a => dom (I.xn a)) C D I.mcv) (k : ℕ)
    (hne : atRank (fun a => dom (I.xn a)) C D k ≠ ∅) (hm : opt.method ≠ .fullyRandom)
    (heavy : opt.method = .lcvHeavy → ∀ a ∈ C, ∀ nc na, I.revised a = some (nc, na) →
      nc ≤ I.nCands ∧ I.nActs < na) :
    ∃ reach c0 c t' t, pickCands opt I k = some t ∧ t ≠ ∅ ∧ t ⊆ atRank (fun a => dom (I.xn a)) C D k ∧
      (∀ s, s ∈ reach ↔ ∃ u ∈ I.hiInv, Reach I.lo s u) ∧
      (let leads := fun a => ∃ s ∈ D, resolvedBy (fun a => dom (I.xn a)) C s = k ∧ ∃ u ∈ reach, (s, u) ∈ I.xn a
       ∀ a, a ∈ c0 ↔ a ∈ atRank (fun a => dom (I.xn a)) C D k ∧
        (opt.backReach = true → (∃ b ∈ atRank (fun a => dom (I.xn a)) C D k, leads b) → leads a)) ∧
      (if opt.nice = .first then MinOf I.nice c0 c else c = c0) ∧
      MethodRule opt.method I C D k reach c t' ∧
      (if opt.nice = .last then MinOf I.nice t' t else t = t') := by
  obtain ⟨a0, ha0⟩ := Finset.nonempty_iff_ne_empty.2 hne
  have hk : k < I.mcv.sz := (atRank_lt hrank ha0).1
  have hcands := ranking_atRank hrank hk
  have hin : ∀ a ∈ I.mcv.cands k, a ∈ C := fun a ha => by
    rw [hcands] at ha; exact (Finset.mem_filter.1 ha).1
  have hok : RankOk I := by
    intro k hk a ha
    obtain ⟨_, s, h1, h2⟩ := (hrank.2 k hk a).1 ha
    exact ⟨s, Finset.mem_inter.2 ⟨h1, h2⟩⟩
  obtain ⟨reach, t, t', h1, h2, h3, h4, h5, h6⟩ := pickCands_ok (opt := opt) (I := I) (k := k) hk hok
    (by rw [hcands]; exact hne) hm (fun he a ha => heavy he a (hin a ha))
  refine ⟨reach, if opt.backReach then backOnly I k reach else I.mcv.cands k, startCands opt I k reach, t', t, h2, h3,
    hcands ▸ h4, h1, ?_, ?_, ?_, ?_⟩
  · intro leads a
    have hl : ∀ b, (reach ∩ img (I.xn b) (I.mcv.dl k)).Nonempty ↔ leads b := by
      intro b
      simp only [leads, Finset.Nonempty, Finset.mem_inter, mem_img, ranking_dl hrank hk]
      constructor
      · rintro ⟨u, hu, s, ⟨hs1, hs2⟩, hsu⟩; exact ⟨s, hs1, hs2, u, hu, hsu⟩
      · rintro ⟨s, hs1, hs2, u, hu, hsu⟩; exact ⟨u, hu, s, ⟨hs1, hs2⟩, hsu⟩
    rw [← hcands]
    by_cases hb : opt.backReach = true
    · rw [if_pos hb]
      unfold backOnly
      simp only [hl]
      split
      · rename_i he
        refine ⟨fun h => ⟨h, fun _ ⟨b, hb1, hb2⟩ => ?_⟩, fun h => h.1⟩
        have := Finset.filter_eq_empty_iff.1 he hb1
        exact absurd hb2 this
      · rename_i he
        obtain ⟨b, hb'⟩ := Finset.nonempty_iff_ne_empty.2 he
        obtain ⟨hb1, hb2⟩ := Finset.mem_filter.1 hb'
        rw [Finset.mem_filter]
        exact ⟨fun h => ⟨h.1, fun _ _ => h.2⟩, fun h => ⟨h.1, h.2 hb ⟨b, hb1, hb2⟩⟩⟩
    · rw [if_neg hb]
      exact ⟨fun h => ⟨h, fun h' => absurd h' hb⟩, fun h => h.1⟩
  · unfold startCands
    simp only
    by_cases hf : opt.nice = .first
    · rw [if_pos hf, if_pos hf]
      exact niceOnly_spec _ _
    · rw [if_neg hf, if_neg hf]
  · have hsub : startCands opt I k reach ⊆ C := fun a ha => hin a (startCands_sub ha)
    revert h5 hm
    rcases opt.method with _ | _ | _ | _ | _ | _ | _ | _ | _ | _ <;> intro hm h5
    · exact h5
    · obtain ⟨s, q1, q2⟩ := h5
      rw [ranking_dl hrank hk] at q1
      exact ⟨s, q1.1, q1.2, q2⟩
    · intro a
      rw [h5 a]
      simp only [greedySum_rankSum hrank]
    · intro a
      rw [h5 a]
      refine and_congr_right fun ha => forall_congr' fun b => imp_congr_right fun hb => ?_
      rw [greedySum_rivals hrank (hsub ha), greedySum_rivals hrank (hsub hb)]
    · intro a
      rw [h5 a]
      refine and_congr_right fun ha => forall_congr' fun b => imp_congr_right fun hb => ?_
      rw [lcvLeft_leftWith hrank (hsub ha), lcvLeft_leftWith hrank (hsub hb)]
    · exact h5
    · obtain ⟨a, ha, q1, q2⟩ := h5
      have ho : ∀ a b, b ∈ overlapSet I k (startCands opt I k reach) a ↔
          b = a ∨ (b ∈ startCands opt I k reach ∧ Together (fun a => dom (I.xn a)) C D k a b) := by
        intro a b
        unfold overlapSet
        rw [Finset.mem_insert, Finset.mem_filter]
        simp only [Finset.Nonempty, Finset.mem_inter, ranking_dl hrank hk, Together, and_assoc]
      refine ⟨a, ha, overlapSet I k (startCands opt I k reach) a, ho a, fun b hb => (q1 b hb).trans ?_, q2⟩
      apply Finset.card_le_card
      intro x hx
      rw [Finset.mem_filter]
      rcases (ho b x).1 hx with rfl | ⟨h1, h2⟩
      · exact ⟨hb, .inl rfl⟩
      · exact ⟨h1, .inr h2⟩
    · exact h5
    · exact absurd rfl hm
    · exact h5
  · rw [h6]
    by_cases hf : opt.nice = .last
    · rw [if_pos hf, if_pos hf]
      exact niceOnly_spec _ _
    · rw [if_neg hf, if_neg hf]

/-! ### Examples -/

/-- Five states; action 5 leaves states 1 and 2, action 7 leaves states 2 and 3, action 8 leaves state 2; state
0 is legitimate. -/
def pickXn : ℕ → Finset (Fin 5 × Fin 5) := fun a =>
  if a = 5 then {(1, 0), (2, 4)} else if a = 7 then {(2, 1), (3, 0)} else if a = 8 then {(2, 0)} else ∅

/-- The instance with the deadlocks 1, 2, 3. -/
def pickInst : PickInst (Fin 5) where
  xn := pickXn
  nice := fun a => if a = 5 then 1 else 0
  shadowPuppet := false
  lo := ∅
  hiInv := {0}
  mcv := rankDeadlocksMRV (fun a => dom (pickXn a)) [5, 7, 8] {1, 2, 3}
  nCands := 3
  nActs := 0
  membs := {7}
  revised := fun a => if a = 5 then some (1, 1) else none

def pickSite : PickSite := ⟨Fin 5, false, [5, 7, 8], {1, 2, 3}, pickInst⟩

theorem pickSite_ranked : pickSite.Ranked := rank_ranking _ [5, 7, 8] (by decide) _

def pickOpt (m : PickMethod) : PickOpt := ⟨m, true, .nil, false, 0⟩

/-- The hypotheses of C81 hold, and actions 5 and 7 (which resolve the deadlocks 1 and 3 with one candidate)
come before action 8. -/
example : ∃ a, (pickActionMRV (pickOpt .greedy) none (fun r _ => (r, 0)) () 0 [pickSite.mrv (pickOpt .greedy)]).2 = .ok a ∧
    MostConstrained [pickSite.waiting] a := by
  obtain ⟨a, h1, _, h3⟩ := C81_pick_most_constrained (pickOpt .greedy) none (fun (r : Unit) _ => (r, 0))
    (fun _ _ h => h) () 0 [pickSite] (by simpa using fun _ => pickSite_ranked) (by simp [pickOpt]) ⟨pickSite, by simp, by simp [pickSite]⟩
  refine ⟨a, h1, h3 (by simp [pickOpt]) ⟨pickSite.waiting, by simp, (1 : Fin 5), rfl, ?_, 5, ?_, ?_⟩⟩
  · show (1 : Fin 5) ∈ ({1, 2, 3} : Finset (Fin 5)); decide
  · show 5 ∈ [5, 7, 8].toFinset; decide
  · show (1 : Fin 5) ∈ dom (pickXn 5); decide

/-- The candidates of rank 1 that the methods keep. -/
example : [pickCands (pickOpt .mrvLite) pickInst 1, pickCands (pickOpt .lex) pickInst 1,
    pickCands (pickOpt .lcvLite) pickInst 1, pickCands (pickOpt .conflict) pickInst 1,
    pickCands ⟨.mrvLite, false, .first, false, 0⟩ pickInst 1, pickCands ⟨.mrvLite, true, .nil, false, 0⟩ pickInst 3] =
    [some {5, 7}, some {5}, some {5, 7}, some {7}, some {7}, some {8}] := by decide +kernel

/-- The hypotheses of C82 hold for rank 3. -/
example : ∃ t, pickCands (pickOpt .greedy) pickInst 3 = some t ∧ t ≠ ∅ := by
  obtain ⟨_, _, _, _, t, h1, h2, _⟩ := C82_pick_candidates (pickOpt .greedy) pickInst {5, 7, 8} {1, 2, 3}
    (by have := pickSite_ranked; exact this) 3 (by decide +kernel) (by simp [pickOpt]) (by simp [pickOpt])
  exact ⟨t, h1, h2⟩

example : zeroOnly (some fun a => a % 3) {1, 4, 5, 7} = {1, 5} := by decide +kernel

end Verif.Props
