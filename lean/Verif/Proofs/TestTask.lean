import Verif.Model.TestTask
import Verif.Proofs.Drive

/-!
Lemmas for property C107: the test of guesses (Model/TestTask).
-/

set_option linter.unusedSectionVars false

namespace Verif.Proofs
open Verif.Spec Verif.Model Verif.Props

universe u v

/-! ### A successful revision learns nothing -/

section
variable {γ : Type u} {α : Type v} {κ : Type} {env : SearchEnv γ α} {φ : γ → κ}

theorem revPass_keep (hA : ∀ g m i L A D g' r A' D' R', env.alone g m i L A D = (g', .ok r A' D' R') → φ g' = φ g)
    {maxSum : ℕ} : ∀ (l : List ℕ) (st st' : RevSt γ α), revisePass env maxSum l st = some (true, st') →
      φ st'.g = φ st.g := by
  intro l
  induction l with
  | nil =>
    intro st st' h
    simp only [revisePass, Option.some.injEq, Prod.mk.injEq, true_and] at h
    rw [h]
  | cons i l ih =>
    intro st st' h
    unfold revisePass at h
    split at h
    · simp only [Option.some.injEq, Prod.mk.injEq, true_and] at h
      rw [h]
    · split at h
      · simp at h
      · simp at h
      · rename_i st1 hs
        rw [ih _ _ h]
        unfold reviseStep at hs
        split at hs
        swap
        · simp at hs
        split at hs
        · simp only [Option.some.injEq, Prod.mk.injEq, true_and] at hs
          rw [hs]
        · split at hs
          · simp at hs
          · simp at hs
          · rename_i g' r A' D' R' ha
            have := hA _ _ _ _ _ _ _ _ _ _ _ ha
            split at hs
            swap
            · simp at hs
            simp only at hs
            split at hs <;>
            · cases hs
              exact this

theorem revLoop_keep (hA : ∀ g m i L A D g' r A' D' R', env.alone g m i L A D = (g', .ok r A' D' R') → φ g' = φ g)
    {maxSum : ℕ} : ∀ (f : ℕ) (st st' : RevSt γ α), loopFuel (reviseBody env maxSum) f st = some (some (true, st')) →
      φ st'.g = φ st.g := by
  intro f
  induction f with
  | zero => intro st st' h; simp [loopFuel] at h
  | succ f ih =>
    intro st st' h
    rw [loopFuel] at h
    unfold reviseBody at h
    revert h
    rcases hp : revisePass env maxSum (List.range st.insts.length) { st with keep := false, common := ∅ } with _ | ⟨b, st1⟩
    · simp
    rcases b with _ | _
    · simp
    have h0 := revPass_keep hA _ _ _ hp
    simp only at h0
    simp only
    generalize hst2 : (if st1.common = ∅ then st1 else { st1 with dels := st1.dels.map (· ∪ st1.common) }) = st2
    have h1 : st2.g = st1.g := by rw [← hst2]; split <;> rfl
    intro h
    split at h
    · rename_i heq
      split at heq
      · simp at heq
      · simp only [Sum.inl.injEq] at heq
        subst heq
        simp only [Option.some.injEq, Prod.mk.injEq, true_and] at h
        rw [← h, h1, h0]
    · rename_i heq
      split at heq
      · simp only [Sum.inr.injEq] at heq
        subst heq
        rw [ih _ _ h, h1, h0]
      · simp at heq

theorem revActions_keep (hA : ∀ g m i L A D g' r A' D' R', env.alone g m i L A D = (g', .ok r A' D' R') → φ g' = φ g)
    (hc : ∀ g ps, env.changes g ps = (g, none)) {fuel : ℕ} {g g' : γ} {ps ps' : PSyn α} {A D : Finset ℕ} {m : Option ℕ}
    (h : reviseActions env fuel g ps A D = some (g', true, ps', m)) : φ g' = φ g := by
  rcases fuel with _ | fuel
  · simp [reviseActions] at h
  unfold reviseActions at h
  split at h
  · simp at h
  · simp at h
  · simp at h
  · rename_i st hst
    have := revLoop_keep hA _ _ _ hst
    simp only [hc] at h
    split at h
    · simp only [Option.some.injEq, Prod.mk.injEq, true_and] at h
      rw [← h.1]
      exact this
    · simp at h

end

variable {σ τ : ℕ → Type} [∀ i, Fintype (σ i)] [∀ i, DecidableEq (σ i)] [∀ i, DecidableEq (τ i)] {ρ : Type}

theorem poll_fam {cfg : SynCfg σ τ ρ} (hq : ∀ r, (cfg.tick r).2.1 = []) (g : SynG ρ) :
    (pollG cfg g).1.fam = g.fam := by
  unfold pollG
  split
  · rfl
  · simp only [hq]
    rfl

theorem aloneOne_keep {cfg : SynCfg σ τ ρ} {i : ℕ} {fam : CFam} {acts : List ℕ} {np : Bool} {st st' : SynSt (σ i)}
    {A D A' D' R' : Finset ℕ} (h : (aloneOne cfg i fam acts np st A D).2 = .ok st' A' D' R') :
    (aloneOne cfg i fam acts np st A D).1 = fam := by
  revert h
  unfold aloneOne
  simp only
  repeat' split
  all_goals simp

theorem alone_keep {cfg : SynCfg σ τ ρ} (hq : ∀ r, (cfg.tick r).2.1 = []) {g g' : SynG ρ} {m i : ℕ}
    {L : List (SInst (SRest σ))} {A D : Finset ℕ} {r : SRest σ} {A' D' R' : Finset ℕ}
    (h : aloneAll cfg g m i L A D = (g', .ok r A' D' R')) : g'.fam = g.fam := by
  unfold aloneAll at h
  split at h
  · simp at h
  split at h
  · simp at h
  · simp at h
  · rename_i x _ _ lim _
    have hp := poll_fam hq g
    revert h
    rcases hpo : pollG cfg g with ⟨g1, b⟩
    rw [hpo] at hp
    simp only at hp
    rcases b with _ | _
    swap
    · simp
    simp only
    rw [Prod.mk.injEq]
    rintro ⟨rfl, h⟩
    simp only
    generalize hr : (aloneOne cfg x.rest.1 g1.fam x.actions x.noPartial { x.rest.2 with nlayers := lim } A D).2 = o at h
    rcases o with _ | _ | ⟨st', a, d, e⟩
    · simp [AOne.res] at h
    · simp [AOne.res] at h
    · rw [aloneOne_keep hr, hp]

/-! ### Picking the actions of a guess -/

section
variable {cfg : SynCfg σ τ ρ} {n : ℕ}

theorem candSum_mono {γ : Type u} {α : Type v} {env : SearchEnv γ α} {L L' : List (SInst α)}
    (hl : L'.length = L.length) (hs : ∀ (i : ℕ) (x y : SInst α), L[i]? = some x → L'[i]? = some y →
      candSet env y ⊆ candSet env x) : candSum env L' ≤ candSum env L := by
  unfold candSum
  rw [hl]
  apply Finset.sum_le_sum
  intro i hi
  rw [Finset.mem_range] at hi
  rw [List.getElem?_eq_getElem hi, List.getElem?_eq_getElem (hl ▸ hi)]
  exact Finset.card_le_card (hs i _ _ (List.getElem?_eq_getElem hi) (List.getElem?_eq_getElem (hl ▸ hi)))

/-- A partial solution that consists of picked actions, and the actions that follow from them. -/
structure GuessOk (cfg : SynCfg σ τ ρ) (n : ℕ) (G : Finset ℕ) (base : List (SInst (SRest σ))) (F : CFam)
    (ps : PSyn (SRest σ)) : Prop where
  node : NodeOk (fullEnv cfg base) (SolOf cfg n) (fun i x => WDone cfg n G CFam.empty i x ∧ x.noPartial = false)
    (RedOf cfg) (MayAdd cfg n) n ps
  sum : candSum (fullEnv cfg base) ps.insts ≤ candTotal base
  clean : (∀ x ∈ ps.insts, ¬ Knows F x.actions.toFinset) ∨ ps.insts = base

/-- What became of an action of the guess. -/
def Handled (cfg : SynCfg σ τ ρ) (base : List (SInst (SRest σ))) (addMissing : Bool) (ps : PSyn (SRest σ)) (a : ℕ) :
    Prop :=
  (∀ x ∈ ps.insts, a ∈ x.actions) ∨
    (addMissing = false ∧ ∀ x ∈ ps.insts, a ∉ (fullEnv cfg base).candidates x.rest)

theorem pick_guess (hP : Plain cfg n) (hm : Honest cfg n) (hq : ∀ r, (cfg.tick r).2.1 = []) (h1 : 1 ≤ n) (hn : n ≤ 2)
    {G : Finset ℕ} {base : List (SInst (SRest σ))} (hb : BaseFit cfg n G base) (hpick : PicksCand cfg)
    (hv : cfg.verifyFound = true) {g : SynG ρ} {ps : PSyn (SRest σ)} (hV : VOk cfg n g.fam g)
    (hps : GuessOk cfg n G base g.fam ps) {a : ℕ} (ha : MayAdd cfg n a) :
    ∃ g' ok ps', pickAction (fullEnv cfg base) (candTotal base + 1) g ps a = some (g', ok, ps') ∧
      VOk cfg n g.fam g' ∧
      (ok = false → g'.stop = true ∨ ∀ T, SolOf cfg n T → ps.picks.toFinset ⊆ T → a ∈ T → False) ∧
      (ok = true → g'.fam = g.fam ∧ GuessOk cfg n G base g.fam ps' ∧ ps'.picks = ps.picks ++ [a] ∧
        ∀ add b, (b = a ∨ Handled cfg base add ps b) → Handled cfg base add ps' b) := by
  have C := findCert hP hm hn hb hpick hv g.fam
  have hnd := hps.node
  obtain ⟨g', ok, ps', m, r1, r2, r3, r4, r5, r6⟩ := revActions C.rev (g := g) (ps := { ps with picks := ps.picks ++ [a] })
    (A := {a}) (D := ∅) (by rw [hnd.len]; exact hn) hV
    (fun i x hx => by
      obtain ⟨⟨st, q1, q2, -⟩, q3⟩ := hnd.w i x hx
      exact ⟨⟨st, q1, q2.toInstOk⟩, q3⟩) hnd.same
    (fun e he => by rw [Finset.mem_singleton.1 he]; exact ha)
    (fun i x hx e he => hnd.act i x hx e (List.mem_toFinset.1 (Finset.mem_sdiff.1 he).1))
    (fuel := candTotal base + 1) (Nat.lt_succ_of_le hps.sum)
  simp only at r3 r4 r5 r6
  unfold pickAction
  rw [r1]
  rcases ok with _ | _
  · obtain ⟨-, hno⟩ := r5 rfl
    have hno' : g'.stop = true ∨ ∀ T, SolOf cfg n T → ps'.picks.toFinset ⊆ T → False := by
      refine hno.imp_right fun hno T hT hsub => ?_
      rw [r3] at hsub
      refine hno T hT (hnd.fits T hT fun e he => hsub ?_) (fun e he => hsub ?_) (by simp)
      · rw [List.mem_toFinset] at he ⊢
        exact List.mem_append_left _ he
      · rw [Finset.mem_singleton.1 he, List.mem_toFinset]
        simp
    have hacts : ∀ p ∈ ps'.picks, MayAdd cfg n p := by
      intro p hp
      rw [r3] at hp
      rcases List.mem_append.1 hp with hp | hp
      · obtain ⟨x, hx⟩ : ∃ x, ps.insts[0]? = some x := ⟨_, List.getElem?_eq_getElem (by rw [hnd.len]; omega)⟩
        obtain ⟨⟨st, -, q2, -⟩, -⟩ := hnd.w 0 x hx
        exact q2.act p (List.mem_toFinset.1 (hnd.picked x (List.mem_of_getElem? hx) (List.mem_toFinset.2 hp)))
      · rw [List.mem_singleton.1 hp]; exact ha
    refine ⟨_, _, _, rfl, C.small g' ps' r2 hacts hno', fun _ => ?_, by simp⟩
    refine hno'.imp (C.smallStop g' ps') fun hno T hT h3 h4 => hno T hT ?_
    rw [r3]
    intro e he
    rcases List.mem_append.1 (List.mem_toFinset.1 he) with he | he
    · exact h3 (List.mem_toFinset.2 he)
    · rw [List.mem_singleton.1 he]; exact h4
  · obtain ⟨e1, e2, ⟨S, hSA, hSL, hS⟩, e4, e5⟩ := r6 rfl
    have hcand : ∀ (i : ℕ) (x y : SInst (SRest σ)), ps.insts[i]? = some x → ps'.insts[i]? = some y →
        candSet (fullEnv cfg base) y ⊆ candSet (fullEnv cfg base) x := fun i x y hx hy =>
      (e4 i x y hx hy).trans Finset.sdiff_subset
    have hback : ∀ (i : ℕ) (y : SInst (SRest σ)), ps'.insts[i]? = some y → ∃ x, ps.insts[i]? = some x := by
      intro i y hy
      exact ⟨_, List.getElem?_eq_getElem (e1 ▸ (List.getElem?_eq_some_iff.1 hy).1)⟩
    obtain ⟨x0, hx0⟩ : ∃ x, ps.insts[0]? = some x := ⟨_, List.getElem?_eq_getElem (by rw [hnd.len]; omega)⟩
    have hx0m := List.mem_of_getElem? hx0
    refine ⟨g', true, ps', rfl, r2, by simp, fun _ => ⟨?_, ⟨⟨e1.trans hnd.len, ?_, ⟨S, hS⟩, ?_, ?_, ?_⟩, ?_, .inl ?_⟩, r3, ?_⟩⟩
    · exact revActions_keep (φ := SynG.fam) (env := fullEnv cfg base)
        (fun g m i L A D g' r A' D' R' h => alone_keep hq h) (fun _ _ => rfl) r1
    · intro i x hx
      obtain ⟨⟨st, q1, q2, -⟩, q3⟩ := e2 i x hx
      refine ⟨⟨st, q1, q2, fun _ => ?_⟩, q3⟩
      rintro ⟨b, h, _⟩; simp [CFam.empty] at h
    · intro i y hy e he
      obtain ⟨x, hx⟩ := hback i y hy
      exact hnd.act i x hx e (List.mem_toFinset.1 (hcand i x y hx hy (List.mem_toFinset.2 he)))
    · intro T hT hpT
      rw [r3] at hpT
      refine e5 T hT (hnd.fits T hT fun e he => hpT ?_) (fun e he => hpT ?_) (by simp)
      · rw [List.mem_toFinset] at he ⊢
        exact List.mem_append_left _ he
      · rw [Finset.mem_singleton.1 he, List.mem_toFinset]
        simp
    · intro x hx
      rw [r3, hS x hx]
      intro e he
      rcases List.mem_append.1 (List.mem_toFinset.1 he) with he | he
      · exact hSL x0 hx0m (hnd.picked x0 hx0m (List.mem_toFinset.2 he))
      · exact hSA (by rw [List.mem_singleton.1 he]; simp)
    · exact (candSum_mono e1 hcand).trans hps.sum
    · intro x hx
      obtain ⟨i, hi⟩ := List.getElem?_of_mem hx
      obtain ⟨⟨st, -, -, q3⟩, q4⟩ := e2 i x hi
      exact q3 q4
    · rintro add b (rfl | hbh)
      · left
        intro x hx
        rw [← List.mem_toFinset, hS x hx]
        exact hSA (Finset.mem_singleton_self _)
      · rcases hbh with hbh | ⟨hbh, hc⟩
        · left
          intro x hx
          rw [← List.mem_toFinset, hS x hx]
          exact hSL x0 hx0m (List.mem_toFinset.2 (hbh x0 hx0m))
        · right
          refine ⟨hbh, fun y hy hby => ?_⟩
          obtain ⟨i, hi⟩ := List.getElem?_of_mem hy
          obtain ⟨x, hx⟩ := hback i y hi
          exact hc x (List.mem_of_getElem? hx) (List.mem_toFinset.1 (hcand i x y hx hi (List.mem_toFinset.2 hby)))

theorem picks_guess (hP : Plain cfg n) (hm : Honest cfg n) (hq : ∀ r, (cfg.tick r).2.1 = []) (h1 : 1 ≤ n) (hn : n ≤ 2)
    {G : Finset ℕ} {base : List (SInst (SRest σ))} (hb : BaseFit cfg n G base) (hpick : PicksCand cfg)
    (hv : cfg.verifyFound = true) {add : Bool} {F : CFam} : ∀ (l : List ℕ) (g : SynG ρ) (ps : PSyn (SRest σ)),
    (add = true → ∀ a ∈ l, MayAdd cfg n a) → g.fam = F → VOk cfg n F g → GuessOk cfg n G base F ps →
    ∃ g' ok ps', pickSeparately (fullEnv cfg base) (candTotal base + 1) add l g ps = some (g', ok, ps') ∧
      VOk cfg n F g' ∧
      (ok = false → g'.stop = true ∨ ∀ T, SolOf cfg n T → ps.picks.toFinset ⊆ T → l.toFinset ⊆ T → False) ∧
      (ok = true → g'.fam = F ∧ GuessOk cfg n G base F ps' ∧ ps'.picks.toFinset ⊆ ps.picks.toFinset ∪ l.toFinset ∧
        ∀ b, (b ∈ l ∨ Handled cfg base add ps b) → Handled cfg base add ps' b) := by
  intro l
  induction l with
  | nil =>
    intro g ps _ hg hV hps
    exact ⟨g, true, ps, rfl, hV, by simp, fun _ => ⟨hg, hps, by simp, by simp⟩⟩
  | cons a l ih =>
    intro g ps hact hg hV hps
    have hact' : add = true → ∀ b ∈ l, MayAdd cfg n b := fun h b hb => hact h b (List.mem_cons_of_mem _ hb)
    rw [pickSeparately]
    split
    · rename_i hc
      obtain ⟨g', ok, ps', q1, q2, q3, q4⟩ := ih g ps hact' hg hV hps
      refine ⟨g', ok, ps', q1, q2, fun h => ?_, fun h => ?_⟩
      · refine (q3 h).imp_right fun hno T hT h3 h4 => hno T hT h3 ?_
        rw [List.toFinset_cons] at h4
        exact (Finset.subset_insert _ _).trans h4
      · obtain ⟨z1, z2, z3, z4⟩ := q4 h
        refine ⟨z1, z2, z3.trans (Finset.union_subset_union (Finset.Subset.refl _) ?_), fun b hb => z4 b ?_⟩
        · rw [List.toFinset_cons]; exact Finset.subset_insert _ _
        · rcases hb with hb | hb
          · rcases List.mem_cons.1 hb with rfl | hb
            · right
              obtain ⟨c1, c2⟩ := hc
              unfold candidateCk at c1
              rw [List.any_eq_false] at c1
              rcases c2 with c2 | c2
              · exact .inr ⟨c2, fun x hx => by simpa using c1 x hx⟩
              · left
                unfold delegateCk at c2
                rcases hl : ps.insts with _ | ⟨x0, L⟩
                · simp
                · rw [hl] at c2
                  simp only [decide_eq_true_eq] at c2
                  obtain ⟨S, hS⟩ := hps.node.same
                  intro x hx
                  rw [← hl] at hx
                  rw [← List.mem_toFinset, hS x hx, ← hS x0 (by rw [hl]; simp), List.mem_toFinset]
                  exact c2
            · exact .inl hb
          · exact .inr hb
    · rename_i hc
      have ha : MayAdd cfg n a := by
        by_cases hadd : add = true
        · exact hact hadd a (List.mem_cons_self ..)
        · have : candidateCk (fullEnv cfg base) ps a = true := by
            by_contra h
            exact hc ⟨by simpa using h, .inl (by simpa using hadd)⟩
          unfold candidateCk at this
          rw [List.any_eq_true] at this
          obtain ⟨x, hx, hax⟩ := this
          obtain ⟨i, hi⟩ := List.getElem?_of_mem hx
          exact hps.node.act i x hi a (by simpa using hax)
      subst hg
      obtain ⟨g1, ok, ps1, q1, q2, q3, q4⟩ := pick_guess hP hm hq h1 hn hb hpick hv hV hps ha
      rw [q1]
      rcases ok with _ | _
      · refine ⟨_, _, _, rfl, q2, fun _ => ?_, by simp⟩
        refine (q3 rfl).imp_right fun hno T hT h3 h4 => hno T hT h3 (h4 ?_)
        simp
      · obtain ⟨z1, z2, z3, z4⟩ := q4 rfl
        obtain ⟨g', ok, ps', w1, w2, w3, w4⟩ := ih g1 ps1 hact' z1 q2 z2
        refine ⟨g', ok, ps', w1, w2, fun h => ?_, fun h => ?_⟩
        · refine (w3 h).imp_right fun hno T hT h3 h4 => hno T hT ?_ ?_
          · rw [z3]
            intro e he
            rcases List.mem_append.1 (List.mem_toFinset.1 he) with he | he
            · exact h3 (List.mem_toFinset.2 he)
            · rw [List.mem_singleton.1 he]; exact h4 (by simp)
          · rw [List.toFinset_cons] at h4
            exact (Finset.subset_insert _ _).trans h4
        · obtain ⟨u1, u2, u3, u4⟩ := w4 h
          refine ⟨u1, u2, u3.trans ?_, fun b hb => u4 b ?_⟩
          · rw [z3]
            intro e he
            rcases Finset.mem_union.1 he with he | he
            · rcases List.mem_append.1 (List.mem_toFinset.1 he) with he | he
              · exact Finset.mem_union_left _ (List.mem_toFinset.2 he)
              · rw [List.mem_singleton.1 he]
                exact Finset.mem_union_right _ (by simp)
            · refine Finset.mem_union_right _ ?_
              rw [List.toFinset_cons]
              exact Finset.mem_insert_of_mem he
          · rcases hb with hb | hb
            · rcases List.mem_cons.1 hb with rfl | hb
              · exact .inr (z4 add b (.inl rfl))
              · exact .inl hb
            · exact .inr (z4 add b (.inr hb))

/-- The first round of the search ends it if there is no deadlock. -/
theorem first_round (hP : Plain cfg n) (hm : Honest cfg n) (h1 : 1 ≤ n) (hn : n ≤ 2)
    {G : Finset ℕ} {base : List (SInst (SRest σ))} (hb : BaseFit cfg n G base) (hpick : PicksCand cfg)
    (hv : cfg.verifyFound = true) {g : SynG ρ} {ps : PSyn (SRest σ)} {F : CFam} (hV : VOk cfg n F g)
    (hps : GuessOk cfg n G base g.fam ps) (hdl : deadlocksCk (fullEnv cfg base) ps = false) (fuel : ℕ) :
    (∃ g', addStabilization (fullEnv cfg base) (fuel + 1) g ps = some (.fail g') ∧ VOk cfg n F g' ∧
      (g'.stop = true ∨ ∀ T, ¬ SolOf cfg n T)) ∨
    ∃ g' x, addStabilization (fullEnv cfg base) (fuel + 1) g ps = some (.found g' x.actions) ∧
      VOk cfg n F { g' with optimal := 0 } ∧ ps.insts[0]? = some x ∧ ¬ Knows g.fam x.actions.toFinset ∧
      g'.stop = false := by
  have C := findCert hP hm hn hb hpick hv F
  have hnd := hps.node
  unfold addStabilization
  rcases hl : ps.insts with _ | ⟨x, l⟩
  · have := hnd.len; rw [hl] at this; simp at this; omega
  simp only
  have hx0 : ps.insts[0]? = some x := by rw [hl]; rfl
  split
  · rename_i hc
    have hck : conflictCk g.fam x.actions.toFinset = true := hc
    left
    have hnone : ∀ T, ¬ SolOf cfg n T := by
      rcases hps.clean with h | h
      · exact absurd (conflictCk_iff.1 hck) (h x (by rw [hl]; simp))
      · intro T hT
        refine hV.valid.sub ?_ hT hck
        intro e he
        exact (hb.fits T hT 0 x (by rw [← h]; exact hx0)).1 e (List.mem_toFinset.1 he)
    exact ⟨_, rfl, C.none g hV hnone, .inr hnone⟩
  · rename_i hc
    have hck : ¬ conflictCk g.fam x.actions.toFinset = true := hc
    obtain ⟨d1, -, d3⟩ := C.done g hV
    rw [loopFuel]
    unfold addBody
    simp only [List.getElem?_cons_zero]
    rcases hdone : (fullEnv cfg base).done g with ⟨g0, b⟩
    rw [hdone] at d1 d3
    simp only at d1 d3
    rcases b with _ | _
    · simp only
      rw [if_neg (by omega)]
      rw [if_neg (by
        have : deadlocksCk (fullEnv cfg base) { ps with level := 0 } = false := hdl
        unfold deadlocksCk at this ⊢
        simp only at this
        rw [hl] at this
        simp only [this]
        simp)]
      have hw : ∀ (k : ℕ) (y : SInst (SRest σ)), (x :: l)[k]? = some y →
          WDone cfg n G CFam.empty k y ∧ y.noPartial = false := by
        rw [← hl]; exact hnd.w
      obtain ⟨v1, info', sum', v2, v3⟩ := verify_pass C.verify (x :: l) 0 {} 0 (by
        intro k y hy
        obtain ⟨⟨st, q1, q2, -⟩, q3⟩ := hw k y hy
        refine ⟨q3, ?_⟩
        rw [Nat.zero_add]
        have hdy : (fullEnv cfg base).deadlock y.rest = false := by
          unfold deadlocksCk at hdl
          rw [List.any_eq_false] at hdl
          simpa using hdl y (by rw [hl]; exact List.mem_of_getElem? hy)
        obtain ⟨acts, np, rest⟩ := y
        simp only at q1 q2 q3 hdy
        subst q1 q3
        simp only [fullEnv, synEnv, decide_eq_false_iff_not, Finset.not_nonempty_iff_eq_empty] at hdy
        exact stab_done (hP.sys k q2.lt) (done_meets (hP.sys k q2.lt) q2 hdy))
      have hver : verifySolutions (fullEnv cfg base) { ps with level := 0, insts := x :: l } {} = (true, info', sum') := by
        unfold verifySolutions
        simp only
        rw [v1]; exact v2
      have hps0 : ({ ps with level := 0 } : PSyn (SRest σ)) = { ps with level := 0, insts := x :: l } := by
        rw [← hl]
      rw [hver]
      have ho : (fullEnv cfg base).optimal g0 = 0 := d1.opt
      simp only [ho]
      rw [if_pos (by simp)]
      unfold addFinish
      have hd2 : deadlocksCk (fullEnv cfg base) { ps with level := 0, insts := x :: l } = false := by
        rw [← hps0]; exact hdl
      rw [hd2]
      have hpos : 0 < sum' := by simp at v3; omega
      right
      have hs0 : g0.stop = false := by
        have : pollG cfg g = (g0, false) := hdone
        obtain ⟨-, -, p3⟩ := poll_ok hm hV
        rw [this] at p3
        exact p3
      refine ⟨(fullEnv cfg base).setOptimal sum' g0, x, by simp [hpos], ?_, rfl, fun h => hck (conflictCk_iff.2 h), hs0⟩
      exact ⟨rfl, d1.valid, d1.past, d1.calm⟩
    · left
      exact ⟨g0, by simp, d1, .inl (d3 rfl)⟩

/-- What the answer to a guess says. -/
def TestOk (cfg : SynCfg σ τ ρ) (n : ℕ) (G : Finset ℕ) (subset : Bool) (guess : List ℕ) (F : CFam) :
    Option (SynG ρ × Option (List ℕ)) → Prop
  | none => False
  | some (g, none) => VOk cfg n F g ∧ (g.stop = true ∨ ¬ SolOf cfg n guess.toFinset)
  | some (g, some acts) => VOk cfg n F g ∧ acts.Nodup ∧ acts.toFinset ⊆ guess.toFinset ∧
      (subset = false → acts.toFinset = guess.toFinset) ∧ G ⊆ acts.toFinset ∧
      (∀ i < n, Meets ((taskOf cfg n).demand i) (acts.toFinset.biUnion (cfg.actXn i))) ∧
      ¬ Knows F acts.toFinset ∧ (∀ a ∈ acts, MayAdd cfg n a)

theorem testGuess_ok (hP : Plain cfg n) (hm : Honest cfg n) (hq : ∀ r, (cfg.tick r).2.1 = []) (h1 : 1 ≤ n) (hn : n ≤ 2)
    {G : Finset ℕ} {ps : PSyn (SRest σ)} (hb : BaseFit cfg n G ps.insts)
    (hw : ∀ (i : ℕ) (x : SInst (SRest σ)), ps.insts[i]? = some x → WDone cfg n G CFam.empty i x ∧ x.noPartial = false)
    (hp : ps.picks = []) (hpick : PicksCand cfg) (hv : cfg.verifyFound = true) {g : SynG ρ} (hV : VOk cfg n g.fam g)
    {subset : Bool} {guess : List ℕ} (hg : subset = false → ∀ a ∈ guess, MayAdd cfg n a) :
    TestOk cfg n G subset guess g.fam (testGuess cfg subset guess g ps) := by
  have h0 : GuessOk cfg n G ps.insts g.fam ps :=
    ⟨⟨hb.len, hw, hb.same, hb.act, fun T hT _ => hb.fits T hT, fun x _ => by rw [hp]; simp⟩,
      candSum_total cfg ps.insts _, .inr rfl⟩
  obtain ⟨g1, ok, p, q1, q2, q3, q4⟩ := picks_guess hP hm hq h1 hn hb hpick hv (add := !subset) guess g ps
    (fun h => hg (by simpa using h)) rfl hV h0
  unfold testGuess
  simp only [q1]
  rcases ok with _ | _
  · refine ⟨⟨rfl, q2.valid, q2.past, q2.calm⟩, (q3 rfl).imp id fun hno hT => hno _ hT (by rw [hp]; simp) (Finset.Subset.refl _)⟩
  obtain ⟨z1, z2, z3, z4⟩ := q4 rfl
  have hpk : p.picks.toFinset ⊆ guess.toFinset := by
    rw [hp] at z3
    simpa using z3
  simp only
  split
  · rename_i hdl
    refine ⟨⟨rfl, q2.valid, q2.past, q2.calm⟩, .inr fun hT => ?_⟩
    unfold deadlocksCk at hdl
    rw [List.any_eq_true] at hdl
    obtain ⟨x, hx, hd⟩ := hdl
    obtain ⟨i, hi⟩ := List.getElem?_of_mem hx
    obtain ⟨⟨st, e1, e2, -⟩, e3⟩ := z2.node.w i x hi
    have hfit := z2.node.fits _ hT hpk i x hi
    obtain ⟨acts, np, rest⟩ := x
    simp only at e1 e2 e3
    subst e1 e3
    simp only [fullEnv, synEnv, decide_eq_true_eq] at hd
    obtain ⟨s, hs⟩ := hd
    rw [e2.dl rfl, e2.lo rfl, Finset.mem_sdiff] at hs
    obtain ⟨t, ht⟩ := not_forall_not.1 ((hT.meets i e2.lt).awake s (mem_need.1 hs.1))
    obtain ⟨a, ha, hat⟩ := Finset.mem_biUnion.1 ht
    rcases hfit.2 a ha with h | h | h
    · exact hs.2 (mem_dom.2 ⟨t, mem_union.2 ⟨a, List.mem_toFinset.2 h, hat⟩⟩)
    · rcases z4 a (.inl (List.mem_toFinset.1 ha)) with h' | ⟨-, h'⟩
      · exact hs.2 (mem_dom.2 ⟨t, mem_union.2 ⟨a, List.mem_toFinset.2 (h' _ hx), hat⟩⟩)
      · exact h' _ hx h
    · exact hs.2 (h s hs.1 (mem_dom.2 ⟨t, hat⟩))
  · rename_i hdl
    rw [Bool.not_eq_true] at hdl
    rcases first_round hP hm h1 hn hb hpick hv q2 (by rw [z1]; exact z2) hdl (3 ^ candTotal ps.insts + 1) with
      ⟨g2, e1, e2, e3⟩ | ⟨g2, x, e1, e2, e3, e4, e5⟩
    · rw [e1]
      exact ⟨⟨rfl, e2.valid, e2.past, e2.calm⟩, e3.imp id fun h => h _⟩
    · rw [e1]
      simp only
      have hxm := List.mem_of_getElem? e3
      split
      · rename_i hsub
        obtain ⟨⟨st0, y1, y2, -⟩, y3⟩ := z2.node.w 0 x e3
        rw [z1] at e4
        refine ⟨e2, y2.nodup, hsub.1, fun h => ?_, y2.sup, fun i hi => ?_, e4, y2.act⟩
        · refine Finset.Subset.antisymm hsub.1 (hsub.2.resolve_left ?_)
          rw [h]; simp
        · obtain ⟨S, hS⟩ := z2.node.same
          obtain ⟨y, hy⟩ : ∃ y, p.insts[i]? = some y := ⟨_, List.getElem?_eq_getElem (z2.node.len ▸ hi)⟩
          obtain ⟨⟨st, r1, r2, -⟩, r3⟩ := z2.node.w i y hy
          have hym := List.mem_of_getElem? hy
          rw [r3] at r2
          have hd : st.deadlock = ∅ := by
            unfold deadlocksCk at hdl
            rw [List.any_eq_false] at hdl
            have := hdl y hym
            rw [r1] at this
            simpa [fullEnv, synEnv] using this
          have := done_meets (hP.sys i hi) r2 hd
          rw [hS y hym, ← hS x hxm] at this
          exact this
      · rename_i hsub
        refine ⟨e2, .inr fun hT => hsub ⟨?_, ?_⟩⟩
        · intro a ha
          exact (z2.node.fits _ hT hpk 0 x e3).1 a (List.mem_toFinset.1 ha)
        · rcases subset with _ | _
          · right
            intro a ha
            rcases z4 a (.inl (List.mem_toFinset.1 ha)) with h | h
            · exact List.mem_toFinset.2 (h x hxm)
            · simp at h
          · exact .inl rfl

end

end Verif.Proofs
