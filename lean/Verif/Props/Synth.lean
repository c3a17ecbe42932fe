import Verif.Proofs.SynthFind
import Verif.Props.OneCycle

/-!
# Properties C79, C80: the synthesizer finds a solution whenever there is one, and learns only valid conflicts

`synthesize` is the closed program of Model/Synth: `SynthesisCtx::add` for each system, the first call of
`revise_actions`, and the backtracking search with `revise_actions_alone`, `check_forward` and
`add_small_conflict_set` (src/synthesis.cc, src/search.cc).
-/

set_option linter.unusedSectionVars false

namespace Verif.Props
open Verif.Spec Verif.Model Verif.Proofs

variable {σ τ : ℕ → Type} [∀ i, Fintype (σ i)] [∀ i, DecidableEq (σ i)] [∀ i, DecidableEq (τ i)] {ρ : Type}

/-- The conflicts that `SynthesisCtx::add` learns. -/
def initSets (cfg : SynCfg σ τ ρ) (i : ℕ) : List (Finset ℕ) :=
  (cfg.rejs i).map (fun a => {a}) ++ (cfg.declared i).map List.toFinset ++
    if cfg.prep then (cfg.cands i).flatMap fun a => (arr (quickTrim cfg 0 (cfg.cands i) a)).map fun b => {a, b}
    else []

theorem initFam_eq (cfg : SynCfg σ τ ρ) (i : ℕ) (fam : CFam) :
    initFam cfg i fam = (initSets cfg i).foldl (fun f b => cfg.learn b f) fam := by
  unfold initFam initSets
  simp only [List.foldl_append, List.foldl_map]
  split
  · rw [List.foldl_flatMap]
    simp only [List.foldl_map]
  · rfl

theorem learnAll (cfg : SynCfg σ τ ρ) : ∀ (l : List (Finset ℕ)) (fam : CFam), ImpInv fam →
    ImpInv (l.foldl (fun f b => cfg.learn b f) fam) ∧
    ∀ S, Knows (l.foldl (fun f b => cfg.learn b f) fam) S ↔ Knows fam S ∨ ∃ b ∈ l, b ⊆ S := by
  intro l
  induction l with
  | nil => intro fam h; exact ⟨h, by simp⟩
  | cons a l ih =>
    intro fam h
    obtain ⟨h1, h2⟩ := ih (cfg.learn a fam) (h.add _ a)
    refine ⟨h1, fun S => ?_⟩
    rw [List.foldl_cons, h2, SynCfg.learn, addConflict_knows]
    simp only [List.mem_cons, exists_eq_or_imp]
    tauto

/-- The direct, asynchronous, non-probabilistic case (`Plain`), with candidates as `candidate_actions` returns
them, a choice function that picks a candidate, and valid conflicts from other processes. -/
structure OpenSetting (cfg : SynCfg σ τ ρ) (n : ℕ) : Prop where
  plain : Plain cfg n
  msgs : Honest cfg n
  pick : PicksCand cfg
  verify : cfg.verifyFound = true
  nodup : ∀ i < n, (cfg.cands i).Nodup
  declared : ∀ i < n, ∀ l ∈ cfg.declared i, l ≠ []
  given : ∀ a ∈ cfg.given, Harmless cfg n a
  cand : ∀ i < n, ∀ a ∈ cfg.cands i, (∀ j < n, a ∉ cfg.rejs j) → Harmless cfg n a

/-- The hypotheses of the completeness theorem: in addition no limits on the search and no interruption. -/
structure Setting (cfg : SynCfg σ τ ρ) (n : ℕ) : Prop extends OpenSetting cfg n where
  depth : cfg.maxDepth = 0
  height : cfg.maxHeight = 0
  quiet : ∀ r, (cfg.tick r).2.2 = false

/-- The conflicts known at the start, with the conflicts `fam0` from a file. -/
def startFrom (cfg : SynCfg σ τ ρ) (n : ℕ) (fam0 : CFam) : CFam :=
  (List.range n).foldl (fun f i => initFam cfg i f) fam0

/-- The conflicts known at the start. -/
def startFam (cfg : SynCfg σ τ ρ) (n : ℕ) : CFam := startFrom cfg n CFam.empty

/-- What is asked of the conflicts from a file: they are in no solution, not empty, and in the form in which
the database keeps them. -/
structure FileFam (cfg : SynCfg σ τ ρ) (n : ℕ) (fam0 : CFam) : Prop where
  valid : Valid cfg n fam0
  anti : Anti fam0.sets
  imp : ImpInv fam0
  some : ¬ Knows fam0 ∅

theorem fileFam_empty (cfg : SynCfg σ τ ρ) (n : ℕ) : FileFam cfg n CFam.empty :=
  ⟨fun T _ => by simp [CFam.empty, conflictCk], ⟨by simp [CFam.empty], by simp [CFam.empty]⟩,
    fun _ e => by simp [CFam.empty, Knows], by rintro ⟨a, h, _⟩; simp [CFam.empty] at h⟩

theorem start_from {cfg : SynCfg σ τ ρ} {n : ℕ} (hS : OpenSetting cfg n) (h1 : 1 ≤ n) {fam0 fam : CFam}
    (h0 : FileFam cfg n fam0) (hfam : fam = startFrom cfg n fam0) :
    Valid cfg n fam ∧ (∀ e ∈ fam.impossible, ∀ T, SolOf cfg n T → e ∉ T) ∧
      (∀ i < n, ∀ e ∈ cfg.rejs i, e ∈ fam.impossible) ∧ Past fam fam ∧
      (∀ B, (taskOf cfg n).banned B → Knows fam B) ∧ ∀ B, Knows fam0 B → Knows fam B := by
  have he : fam = ((List.range n).flatMap (initSets cfg)).foldl (fun f b => cfg.learn b f) fam0 := by
    rw [hfam, startFrom, List.foldl_flatMap]
    simp only [initFam_eq]
  obtain ⟨k1, k2⟩ := learnAll cfg ((List.range n).flatMap (initSets cfg)) fam0 h0.imp
  have hanti : ∀ (l : List (Finset ℕ)) (fam : CFam), Anti fam.sets →
      Anti (l.foldl (fun f b => cfg.learn b f) fam).sets := by
    intro l
    induction l with
    | nil => intro fam h; exact h
    | cons a l ih => intro fam h; exact ih _ (addConflict_anti _ h)
  have k3 := hanti ((List.range n).flatMap (initSets cfg)) fam0 h0.anti
  rw [← he] at k1 k2 k3
  have hsets : ∀ b ∈ (List.range n).flatMap (initSets cfg), b ≠ ∅ ∧ ∀ T, SolOf cfg n T → ¬ b ⊆ T := by
    intro b hb
    obtain ⟨i, hi, hb⟩ := List.mem_flatMap.1 hb
    rw [List.mem_range] at hi
    unfold initSets at hb
    rw [List.mem_append, List.mem_append, List.mem_map, List.mem_map] at hb
    rcases hb with (⟨a, ha, rfl⟩ | ⟨l, hl, rfl⟩) | hb
    · exact ⟨by simp, fun T hT => hT.allowed _ ⟨i, hi, .inr ⟨a, ha, rfl⟩⟩⟩
    · exact ⟨by simpa using hS.declared i hi l hl, fun T hT => hT.allowed _ ⟨i, hi, .inl ⟨l, hl, rfl⟩⟩⟩
    · split at hb
      · obtain ⟨a, ha, hb⟩ := List.mem_flatMap.1 hb
        obtain ⟨c, hc, rfl⟩ := List.mem_map.1 hb
        refine ⟨by simp, fun T hT hsub => ?_⟩
        rw [mem_arr, quickTrim, List.mem_toFinset, List.mem_filter, decide_eq_true_eq] at hc
        exact hT.apart 0 h1 a (hsub (by simp)) c (hsub (by simp)) (fun e => hc.2.1 e.symm) hc.2.2
      · simp at hb
  have hV : Valid cfg n fam := by
    intro T hT
    rw [Bool.eq_false_iff]
    intro hc
    rcases (k2 T).1 (conflictCk_iff.1 hc) with h | ⟨b, hb, hbT⟩
    · have := h0.valid T hT
      rw [conflictCk_iff.2 h] at this
      cases this
    · exact (hsets b hb).2 T hT hbT
  have hban : ∀ B, (taskOf cfg n).banned B → Knows fam B := by
    rintro B ⟨i, hi, hB⟩
    rw [k2]
    refine .inr ⟨B, List.mem_flatMap.2 ⟨i, List.mem_range.2 hi, ?_⟩, Finset.Subset.refl _⟩
    unfold initSets
    rw [List.mem_append, List.mem_append, List.mem_map, List.mem_map]
    rcases hB with ⟨l, hl, rfl⟩ | ⟨a, ha, rfl⟩
    · exact .inl (.inr ⟨l, hl, rfl⟩)
    · exact .inl (.inl ⟨a, ha, rfl⟩)
  have hno : ¬ Knows fam ∅ := by
    rw [k2]
    rintro (h | ⟨b, hb, hbe⟩)
    · exact h0.some h
    · exact (hsets b hb).1 (Finset.subset_empty.1 hbe)
  refine ⟨hV, fun e he T hT heT => ?_, fun i hi e he => ?_, ⟨k3, k1, fun _ h => h⟩, hban, fun B hB => (k2 B).2 (.inl hB)⟩
  · exact hV.sub (Finset.singleton_subset_iff.2 heT) hT (conflictCk_iff.2 ((k1 hno e).1 he))
  · rw [k1 hno e]
    exact hban _ ⟨i, hi, .inr ⟨e, he, rfl⟩⟩

theorem start_fam {cfg : SynCfg σ τ ρ} {n : ℕ} (hS : OpenSetting cfg n) (h1 : 1 ≤ n) {fam : CFam}
    (hfam : fam = startFam cfg n) :
    Valid cfg n fam ∧ (∀ e ∈ fam.impossible, ∀ T, SolOf cfg n T → e ∉ T) ∧
      (∀ i < n, ∀ e ∈ cfg.rejs i, e ∈ fam.impossible) ∧ Past fam fam ∧
      ∀ B, (taskOf cfg n).banned B → Knows fam B := by
  obtain ⟨f1, f2, f3, f4, f5, -⟩ := start_from hS h1 (fileFam_empty cfg n) hfam
  exact ⟨f1, f2, f3, f4, f5⟩

/-- The instances at the start. -/
theorem start_inst {cfg : SynCfg σ τ ρ} {n : ℕ} (hS : OpenSetting cfg n) {i : ℕ} (hi : i < n) :
    WOk cfg n ∅ i (initInst cfg i) := by
  refine ⟨_, rfl, ⟨hi, List.nodup_nil, hS.nodup i hi, by simp [initInst], by simp, ?_, fun _ => ?_, fun _ => rfl,
    fun _ => ⟨by simp, Finset.Subset.refl _⟩, fun _ => .inr (by simp)⟩⟩ <;>
  simp [initInst, SynCfg.union]

theorem revise_sup {cfg : SynCfg σ τ ρ} {base : List (SInst (SRest σ))} {fuel : ℕ} {g g' : SynG ρ}
    {ps ps' : PSyn (SRest σ)} {A D : Finset ℕ} {m : Option ℕ} {N : List Bool} {S0 : Finset ℕ}
    (h0 : Same N S0 ps.insts)
    (h : reviseActions (synEnv cfg base) fuel g ps A D = some (g', true, ps', m)) :
    Same N (S0 ∪ A) ps'.insts := by
  rcases fuel with _ | fuel
  · simp [reviseActions] at h
  unfold reviseActions at h
  split at h
  · simp at h
  · simp at h
  · simp at h
  · rename_i st hst
    have := reviseLoop_spec (revInv_start h0 g A D true _ ∅) hst
    simp only [synEnv] at h
    split at h
    · simp only [Option.some.injEq, Prod.mk.injEq] at h
      obtain ⟨-, -, rfl, -⟩ := h
      exact this
    · simp at h

/-- What the first call of `revise_actions` leaves behind. -/
structure StartOkFrom (cfg : SynCfg σ τ ρ) (n : ℕ) (fam0 : CFam) (g : SynG ρ) (ps : PSyn (SRest σ)) : Prop where
  v : VOk cfg n (startFrom cfg n fam0) g
  picks : ps.picks = []
  base : BaseFit cfg n cfg.given.toFinset ps.insts
  w : ∀ (i : ℕ) (x : SInst (SRest σ)), ps.insts[i]? = some x →
    WDone cfg n cfg.given.toFinset CFam.empty i x ∧ x.noPartial = false
  sum : candSum (fullEnv cfg ps.insts) ps.insts ≤ ((List.range n).map fun i => (cfg.cands i).length).sum

/-- The same without conflicts from a file. -/
abbrev StartOk (cfg : SynCfg σ τ ρ) (n : ℕ) (g : SynG ρ) (ps : PSyn (SRest σ)) : Prop :=
  StartOkFrom cfg n CFam.empty g ps

theorem startUpFrom_ok {cfg : SynCfg σ τ ρ} {n : ℕ} (hS : OpenSetting cfg n) (h1 : 1 ≤ n) (h2 : n ≤ 2) {fuel : ℕ}
    (hf : ((List.range n).map fun i => (cfg.cands i).length).sum < fuel) (rng : ρ) {fam0 : CFam}
    (h0 : FileFam cfg n fam0) :
    ∃ g ok ps m, startUpFrom cfg n fuel rng fam0 = some (g, ok, ps, m) ∧ VOk cfg n (startFrom cfg n fam0) g ∧
      (ok = false → g.stop = true ∨ ∀ T, ¬ SolOf cfg n T) ∧ (ok = true → StartOkFrom cfg n fam0 g ps) := by
  unfold startUpFrom
  obtain ⟨insts, hins⟩ : ∃ l, l = (List.range n).map (initInst cfg) := ⟨_, rfl⟩
  obtain ⟨fam, hfam⟩ : ∃ f, f = startFrom cfg n fam0 := ⟨_, rfl⟩
  have hfam' : (List.range n).foldl (fun f i => initFam cfg i f) fam0 = fam := hfam.symm
  simp only [← hins, hfam', ← hfam]
  obtain ⟨f1, f2, f3, f4, f5, -⟩ := start_from hS h1 h0 hfam
  have hget : ∀ (i : ℕ) (x : SInst (SRest σ)), insts[i]? = some x → i < n ∧ x = initInst cfg i := by
    intro i x hx
    rw [hins, List.getElem?_map, Option.map_eq_some_iff] at hx
    obtain ⟨j, hj, rfl⟩ := hx
    obtain ⟨h3, h4⟩ := List.getElem?_eq_some_iff.1 hj
    rw [List.getElem_range] at h4
    subst h4
    rw [List.length_range] at h3
    exact ⟨h3, rfl⟩
  have hlen : insts.length = n := by rw [hins]; simp
  have hMay : ∀ i < n, ∀ e ∈ cfg.cands i, e ∉ fam.impossible → MayAdd cfg n e := by
    intro i hi e he hne
    exact ⟨.inr ⟨i, hi, he⟩, hS.cand i hi e he fun j hj h => hne (f3 j hj e h)⟩
  have hfits : ∀ T, SolOf cfg n T → FitsAll (synEnv cfg insts) (RedOf cfg) T insts := by
    intro T hT i x hx
    obtain ⟨hi, rfl⟩ := hget i x hx
    refine ⟨by simp [initInst], fun a ha => ?_⟩
    rcases hT.offered i hi a ha with h | h
    · exact .inr (.inl h)
    · refine .inr (.inr fun s hs hd => ?_)
      obtain ⟨t, ht⟩ := mem_dom.1 hd
      exact absurd (mem_need.1 hs) (h s t ht)
  have hsame0 : Same (List.replicate n false) ∅ insts := by
    refine ⟨?_, ?_, ∅, Finset.Subset.refl _, ?_⟩
    · rw [hins, List.map_map, List.eq_replicate_iff]
      refine ⟨by simp, fun b hb => ?_⟩
      obtain ⟨i, _, rfl⟩ := List.mem_map.1 hb
      rfl
    · intro x hx
      rw [hins] at hx
      obtain ⟨i, _, rfl⟩ := List.mem_map.1 hx
      exact List.nodup_nil
    · intro x hx
      rw [hins] at hx
      obtain ⟨i, _, rfl⟩ := List.mem_map.1 hx
      rfl
  obtain ⟨c0, hc0⟩ : ∃ c, c = ((List.range n).map fun i => (cfg.cands i).length).sum := ⟨_, rfl⟩
  have hsum : candSum (synEnv cfg insts) insts ≤ c0 := by
    refine (candSum_total cfg insts insts).trans (le_of_eq ?_)
    unfold candTotal
    rw [hins, List.map_map, hc0]
    rfl
  obtain ⟨g', ok, ps', m, r1, r2, r3, r4, r5, r6⟩ := revActions (synCert hS.plain hS.msgs ∅ fam insts)
    (g := ⟨fam, 0, rng, false⟩)
    (ps := ⟨0, [], insts⟩) (A := cfg.given.toFinset) (D := fam.impossible) (by rw [hlen]; exact h2)
    ⟨rfl, f1, f4, fun _ => rfl⟩
    (fun i x hx => by
      obtain ⟨hi, rfl⟩ := hget i x hx
      exact start_inst hS hi)
    ⟨∅, fun x hx => by
      rw [hins] at hx
      obtain ⟨i, _, rfl⟩ := List.mem_map.1 hx
      rfl⟩ (fun e he => ⟨.inl (List.mem_toFinset.1 he), hS.given e (List.mem_toFinset.1 he)⟩)
    (fun i x hx e he => by
      obtain ⟨hi, rfl⟩ := hget i x hx
      rw [Finset.mem_sdiff, Finset.mem_union, not_or] at he
      exact hMay i hi e (List.mem_toFinset.1 he.1) he.2.2) (fuel := fuel) (by simp only; rw [← hc0] at hf; omega)
  refine ⟨g', ok, ps', m, r1, r2, fun hok => ?_, fun hok => ?_⟩
  · subst hok
    exact (r5 rfl).2.imp id fun h T hT => h T hT (hfits T hT) hT.given fun d hd => f2 d hd T hT
  subst hok
  obtain ⟨e1, e2, e3, e4, e5⟩ := r6 rfl
  simp only at e1 e2 e3 e4 e5
  obtain ⟨s1, -, S, s3, s4⟩ := revise_sup hsame0 r1
  have hnp : ∀ (i : ℕ) (x : SInst (SRest σ)), ps'.insts[i]? = some x → x.noPartial = false := by
    intro i x hx
    have : x.noPartial ∈ ps'.insts.map SInst.noPartial := List.mem_map.2 ⟨x, List.mem_of_getElem? hx, rfl⟩
    rw [s1] at this
    exact List.eq_of_mem_replicate this
  have hw : ∀ (i : ℕ) (x : SInst (SRest σ)), ps'.insts[i]? = some x →
      WDone cfg n cfg.given.toFinset CFam.empty i x := by
    intro i x hx
    obtain ⟨st, q1, q2, -⟩ := e2 i x hx
    refine ⟨st, q1, { q2 with sup := ?_ }, fun _ => ?_⟩
    · rw [s4 x (List.mem_of_getElem? hx)]
      exact Finset.subset_union_right.trans s3
    · rintro ⟨a, h, _⟩; simp [CFam.empty] at h
  have hact : ∀ (i : ℕ) (x : SInst (SRest σ)), ps'.insts[i]? = some x → ∀ e ∈ x.rest.2.cands, MayAdd cfg n e := by
    intro i x hx e he
    have hil : i < insts.length := e1 ▸ (List.getElem?_eq_some_iff.1 hx).1
    obtain ⟨hi, hxi⟩ := hget i _ (List.getElem?_eq_getElem hil)
    have := e4 i _ x (List.getElem?_eq_getElem hil) hx (List.mem_toFinset.2 he)
    rw [Finset.mem_sdiff, Finset.mem_union, not_or, hxi] at this
    exact hMay i hi e (List.mem_toFinset.1 this.1) this.2.2
  have hfit' : ∀ T, SolOf cfg n T → FitsAll (synEnv cfg insts) (RedOf cfg) T ps'.insts :=
    fun T hT => e5 T hT (hfits T hT) hT.given fun d hd => f2 d hd T hT
  refine ⟨hfam ▸ r2, r3, ⟨e1.trans hlen, fun i x hx => ?_, e3.imp fun _ h => h.2.2, hact, hfit'⟩,
    fun i x hx => ⟨hw i x hx, hnp i x hx⟩, ?_⟩
  · obtain ⟨st, q1, q2, -⟩ := hw i x hx
    exact ⟨st, q1, q2.toInstOk⟩
  · rw [← hc0]
    refine le_trans ?_ hsum
    unfold candSum
    rw [e1]
    apply Finset.sum_le_sum
    intro i hi
    rw [Finset.mem_range] at hi
    rw [List.getElem?_eq_getElem hi, List.getElem?_eq_getElem (e1.symm ▸ hi)]
    exact Finset.card_le_card ((e4 i _ _ (List.getElem?_eq_getElem hi)
      (List.getElem?_eq_getElem (e1.symm ▸ hi))).trans Finset.sdiff_subset)

theorem startUp_ok {cfg : SynCfg σ τ ρ} {n : ℕ} (hS : OpenSetting cfg n) (h1 : 1 ≤ n) (h2 : n ≤ 2) {fuel : ℕ}
    (hf : ((List.range n).map fun i => (cfg.cands i).length).sum < fuel) (rng : ρ) :
    ∃ g ok ps m, startUp cfg n fuel rng = some (g, ok, ps, m) ∧ VOk cfg n (startFam cfg n) g ∧
      (ok = false → g.stop = true ∨ ∀ T, ¬ SolOf cfg n T) ∧ (ok = true → StartOk cfg n g ps) :=
  startUpFrom_ok hS h1 h2 hf rng (fileFam_empty cfg n)

/-- What the result of the synthesizer says. -/
def SynthOk (cfg : SynCfg σ τ ρ) (n : ℕ) : Option (AddOut (SynG ρ)) → Prop
  | none => False
  | some (.fail g) => Valid cfg n g.fam ∧
      (g.stop = true ∧ (¬ ∀ r, (cfg.tick r).2.2 = false) ∨ 0 < cfg.maxDepth ∨ 0 < cfg.maxHeight ∨ ∀ T, ¬ SolOf cfg n T)
  | some (.found g acts) => Valid cfg n g.fam ∧ acts.Nodup ∧ cfg.given.toFinset ⊆ acts.toFinset ∧
      (∀ i < n, Meets ((taskOf cfg n).demand i) (acts.toFinset.biUnion (cfg.actXn i))) ∧
      (∀ B, (taskOf cfg n).banned B → ¬ B ⊆ acts.toFinset) ∧ ∀ a ∈ acts, a ∈ cfg.given ∨ ∃ i < n, a ∈ cfg.cands i

theorem synthesize_ok {cfg : SynCfg σ τ ρ} {n : ℕ} (hS : OpenSetting cfg n) (h1 : 1 ≤ n) (h2 : n ≤ 2) {fuel : ℕ}
    (hf : 3 ^ ((List.range n).map fun i => (cfg.cands i).length).sum + 1 < fuel) (rng : ρ) :
    SynthOk cfg n (synthesize cfg n fuel rng) := by
  unfold synthesize
  have hlt : ∀ c, c < 3 ^ c := fun c => Nat.lt_pow_self (by omega)
  have hc3 := hlt ((List.range n).map fun i => (cfg.cands i).length).sum
  obtain ⟨g, ok, ps, m, e, hV, hno, hyes⟩ := startUp_ok hS h1 h2 (fuel := fuel) (by omega) rng
  have hstop : ∀ {F : CFam} {g : SynG ρ}, VOk cfg n F g → g.stop = true → ¬ ∀ r, (cfg.tick r).2.2 = false := by
    intro F g hV h hq
    rw [hV.calm hq] at h
    cases h
  rw [e]
  rcases ok with _ | _
  · refine ⟨hV.valid, ?_⟩
    rcases hno rfl with h | h
    · exact .inl ⟨h, hstop hV h⟩
    · exact .inr (.inr (.inr h))
  obtain ⟨q1, q2, q3, q4, q5⟩ := hyes rfl
  have hpow := Nat.pow_le_pow_right (n := 3) (by omega) q5
  have hend := trial_ok hS.plain hS.msgs h1 h2 q3 q4 hS.pick hS.verify hV.self q2 (fuel := fuel) (by omega)
  simp only
  revert hend
  generalize addStabilization (fullEnv cfg ps.insts) fuel g ps = res
  intro hend
  rcases res with _ | ⟨g2 | ⟨g2, acts⟩⟩
  · exact hend
  · refine ⟨hend.1.valid, ?_⟩
    rcases hend.2 with h | h | h | h
    · exact .inl ⟨h, hstop hend.1 h⟩
    · exact .inr (.inl h)
    · exact .inr (.inr (.inr h.1))
    · rcases Nat.eq_zero_or_pos cfg.maxHeight with h0 | h0
      · exact .inr (.inr (.inr (h.1 h0)))
      · exact .inr (.inr (.inl h0))
  · obtain ⟨-, v1, v2, v3, v4, v5, v6, v7, -⟩ := hend
    refine ⟨v1, v3, v4, v5, fun B hB hsub => v6 ?_, fun a ha => (v7 a ha).1⟩
    have := hV.past.mono _ ((start_fam hS h1 rfl).2.2.2.2 B hB)
    exact conflictCk_iff.1 (ck_mono hsub (conflictCk_iff.2 this))

/-- **C79.** For one or two systems the synthesizer always ends; it finds a protocol if and only if the problem
has a solution, and what it finds contains the given actions, contains none of the declared conflicts and
rejected actions, and makes every system stabilize as required. -/
theorem C79_synthesis_complete {cfg : SynCfg σ τ ρ} {n : ℕ} (hS : Setting cfg n) (h1 : 1 ≤ n) (h2 : n ≤ 2) {fuel : ℕ}
    (hf : 3 ^ ((List.range n).map fun i => (cfg.cands i).length).sum + 1 < fuel) (rng : ρ) :
    (∃ g acts, synthesize cfg n fuel rng = some (.found g acts) ∧ acts.Nodup ∧ (∀ a ∈ cfg.given, a ∈ acts) ∧
      (∀ a ∈ acts, a ∈ cfg.given ∨ ∃ i < n, a ∈ cfg.cands i) ∧
      (∀ i < n, Meets ((taskOf cfg n).demand i) (acts.toFinset.biUnion (cfg.actXn i))) ∧
      ∀ B, (taskOf cfg n).banned B → ¬ B ⊆ acts.toFinset) ∨
    (∃ g, synthesize cfg n fuel rng = some (.fail g)) ∧ ¬ ∃ T, Solves (taskOf cfg n) T := by
  have h := synthesize_ok hS.toOpenSetting h1 h2 hf rng
  revert h
  generalize synthesize cfg n fuel rng = r
  intro h
  rcases r with _ | ⟨g | ⟨g, acts⟩⟩
  · exact h.elim
  · refine .inr ⟨⟨g, rfl⟩, fun ⟨T, hT⟩ => ?_⟩
    have hd := hS.depth
    have hh := hS.height
    rcases h.2 with h | h | h | h
    · exact h.2 hS.quiet
    · omega
    · omega
    · exact h T hT
  · exact .inl ⟨g, acts, rfl, h.2.1, fun a ha => List.mem_toFinset.1 (h.2.2.1 (List.mem_toFinset.2 ha)),
      h.2.2.2.2.2, h.2.2.2.1, h.2.2.2.2.1⟩

/-- **C80.** Every conflict in the database when the synthesizer ends is valid: no solution contains it.  This
holds with any limits on the search, and when the search is interrupted. -/
theorem C80_conflicts_valid {cfg : SynCfg σ τ ρ} {n : ℕ} (hS : OpenSetting cfg n) (h1 : 1 ≤ n) (h2 : n ≤ 2) {fuel : ℕ}
    (hf : 3 ^ ((List.range n).map fun i => (cfg.cands i).length).sum + 1 < fuel) (rng : ρ) :
    ∃ r g, synthesize cfg n fuel rng = some r ∧ (r = .fail g ∨ ∃ acts, r = .found g acts) ∧
      ∀ B ∈ g.fam.sets, ∀ T, Solves (taskOf cfg n) T → ¬ B ⊆ T := by
  have h := synthesize_ok hS h1 h2 hf rng
  have key : ∀ g : SynG ρ, Valid cfg n g.fam → ∀ B ∈ g.fam.sets, ∀ T, Solves (taskOf cfg n) T → ¬ B ⊆ T := by
    intro g hV B hB T hT hsub
    exact hV.sub hsub hT (conflictCk_iff.2 ⟨B, hB, Finset.Subset.refl _⟩)
  revert h
  generalize synthesize cfg n fuel rng = r
  intro h
  rcases r with _ | ⟨g | ⟨g, acts⟩⟩
  · exact h.elim
  · exact ⟨_, g, rfl, .inl rfl, key g h.1⟩
  · exact ⟨_, g, rfl, .inr ⟨acts, rfl⟩, key g h.1⟩

/-! ### Concrete problems -/

/-- The system with the states 0, …, 3 and the legitimate state 0. -/
def tinySys : Sys (Fin 4) Unit where
  invariant := {0}
  closedAssume := Finset.univ
  shadowXn := ∅
  identXn := Finset.univ.filter fun e => e.1 = e.2
  proj _ := ()
  shadowPuppet := false
  probabilistic := false
  style := .closed
  scope := .direct
  behav := .silent

/-- A problem about copies of `tinySys` that differ in what the actions do; the first candidate is picked. -/
def tinyCfg (act : ℕ → ℕ → Finset (Fin 4 × Fin 4)) (cands given : List ℕ) (trims : ℕ → ℕ → ℕ → Bool) (prep : Bool)
    (maxHeight : ℕ) : SynCfg (fun _ => Fin 4) (fun _ => Unit) Unit where
  sys _ := tinySys
  opt _ := ⟨0, false, false⟩
  actXn := act
  trims := trims
  shadowAct _ _ := false
  cands _ := cands
  rejs _ := []
  declared _ := []
  given := given
  noConflict _ := false
  directly := false
  prep := prep
  fast := false
  maxConflictSz := 0
  verifyFound := true
  maxDepth := 0
  maxHeight := maxHeight
  le a b := decide (a.card ≤ b.card)
  pick _ := firstOf [0, 1, 2, 3]
  pickMRV _ _ ps := ((), (ps.insts.flatMap fun x => x.rest.2.cands).head?)

theorem tiny_open {act : ℕ → ℕ → Finset (Fin 4 × Fin 4)} {cands given : List ℕ} {trims : ℕ → ℕ → ℕ → Bool}
    {prep : Bool} {n height : ℕ} (hn : cands.Nodup) (hg : ∀ a ∈ given, ∀ i < n, ∀ s, (s, s) ∉ act i a)
    (hc : ∀ a ∈ cands, ∀ i < n, ∀ s, (s, s) ∉ act i a) : OpenSetting (tinyCfg act cands given trims prep height) n where
  plain := by
    refine ⟨fun i _ => ?_, rfl⟩
    constructor
    · intro e; simp [tinyCfg, tinySys]
    · rfl
    · rfl
    · intro h; cases h
    · rfl
    · intro h; cases h
    · rfl
    · rfl
    · exact ⟨0, by simp [tinyCfg, tinySys]⟩
    · exact fun S hS => firstOf_picks [0, 1, 2, 3] (by decide) S hS
    · intro a; rfl
  msgs := by intro r b hb; simp [tinyCfg] at hb
  pick := by
    intro rng fam ps _ ⟨x, hx, hne⟩
    obtain ⟨c, l, hc⟩ := List.exists_cons_of_ne_nil hne
    have hm : c ∈ ps.insts.flatMap fun x => x.rest.2.cands := List.mem_flatMap.2 ⟨x, hx, by rw [hc]; simp⟩
    obtain ⟨a, ha⟩ : ∃ a, (ps.insts.flatMap fun x => x.rest.2.cands).head? = some a := by
      rcases h : ps.insts.flatMap fun x => x.rest.2.cands with _ | ⟨a, l'⟩
      · rw [h] at hm; simp at hm
      · exact ⟨a, by rw [h]; rfl⟩
    exact ⟨a, ha, List.mem_flatMap.1 (List.mem_of_mem_head? ha)⟩
  verify := rfl
  nodup _ _ := hn
  declared _ _ l hl := by simp [tinyCfg] at hl
  given a ha i hi := ⟨fun s _ t _ => Finset.mem_univ t, fun s _ => hg a ha i hi s⟩
  cand _ _ a ha _ i hi := ⟨fun s _ t _ => Finset.mem_univ t, fun s _ => hc a ha i hi s⟩

theorem tiny_setting {act : ℕ → ℕ → Finset (Fin 4 × Fin 4)} {cands given : List ℕ} {trims : ℕ → ℕ → ℕ → Bool}
    {prep : Bool} {n : ℕ} (hn : cands.Nodup) (hg : ∀ a ∈ given, ∀ i < n, ∀ s, (s, s) ∉ act i a)
    (hc : ∀ a ∈ cands, ∀ i < n, ∀ s, (s, s) ∉ act i a) : Setting (tinyCfg act cands given trims prep 0) n where
  toOpenSetting := tiny_open hn hg hc
  quiet _ := rfl
  depth := rfl
  height := rfl

/-- What the synthesizer answers. -/
def answer {γ : Type} : Option (AddOut γ) → Option (Option (List ℕ))
  | none => none
  | some (.fail _) => some none
  | some (.found _ acts) => some (some acts)

/-- Five actions that do different things in three systems. -/
def tinyAct : ℕ → ℕ → Finset (Fin 4 × Fin 4)
  | 0, 0 => {(1, 0)}
  | 0, 1 => {(2, 0)}
  | 0, 2 => {(3, 0)}
  | 0, 3 => {(1, 0)}
  | 0, 4 => {(3, 1)}
  | 1, 0 => {(1, 0), (3, 0)}
  | 1, 1 => {(1, 0)}
  | 1, 2 => {(1, 0)}
  | 1, 3 => {(2, 0)}
  | 1, 4 => {(2, 1)}
  | 2, 0 => {(1, 0)}
  | 2, 1 => {(1, 0), (3, 0)}
  | 2, 2 => {(2, 1)}
  | 2, 3 => {(1, 0)}
  | 2, 4 => {(1, 2)}
  | _, _ => ∅

/-- No pair of actions is excluded. -/
def noTrim : ℕ → ℕ → ℕ → Bool := fun _ _ _ => false

/-- The last two systems, with action 0 given. -/
def tinyGood : SynCfg (fun _ => Fin 4) (fun _ => Unit) Unit :=
  tinyCfg (fun i => tinyAct (i + 1)) [4, 3, 2, 1, 0] [0] noTrim false 0

theorem tinyGood_setting : Setting tinyGood 2 := tiny_setting (by decide) (by decide) (by decide)

/-- A solution exists and is found. -/
example : answer (synthesize tinyGood 2 60000 ()) = some (some [0, 1, 2, 3]) := by decide +kernel

/-- Without action 3 there is no solution. -/
def tinyBad : SynCfg (fun _ => Fin 4) (fun _ => Unit) Unit :=
  tinyCfg (fun i => tinyAct (i + 1)) [4, 2, 1] [0] noTrim false 0

example : ¬ ∃ T, Solves (taskOf tinyBad 2) T := by
  have h0 : answer (synthesize tinyBad 2 60000 ()) = some none := by decide +kernel
  have hS : Setting tinyBad 2 := tiny_setting (by decide) (by decide) (by decide)
  rcases C79_synthesis_complete hS (by decide) (by decide) (fuel := 60000) (by decide) () with
    ⟨g, acts, h, _⟩ | ⟨_, h⟩
  · rw [h] at h0; simp [answer] at h0
  · exact h

/-- The conflicts that are left: actions 2 and 4 form a livelock of the second system. -/
example : (match synthesize tinyGood 2 60000 () with | some (.found g _) => g.fam.sets | _ => []) = [{4}] := by
  decide +kernel

/-- A protocol in which a measure decreases, that only moves outside of state 0 and always moves there, meets
the demand of `tinySys`. -/
theorem tiny_meets {act : ℕ → ℕ → Finset (Fin 4 × Fin 4)} {cands given : List ℕ} {trims : ℕ → ℕ → ℕ → Bool}
    {prep : Bool} {h n i : ℕ} {xn : Finset (Fin 4 × Fin 4)} (f : Fin 4 → ℕ) (hdec : ∀ e ∈ xn, f e.2 < f e.1)
    (h0 : ∀ e ∈ xn, e.1 ≠ 0) (hall : ∀ s, s ≠ 0 → s ∈ dom xn) :
    Meets ((taskOf (tinyCfg act cands given trims prep h) n).demand i) xn := by
  have hinf : ∀ e : ℕ → Fin 4, InfExec xn e → False := by
    intro e he
    have : ∀ k, f (e k) + k ≤ f (e 0) := by
      intro k
      induction k with
      | zero => simp
      | succ k ih => have := hdec _ (he k); simp only at this; omega
    have := this (f (e 0) + 1)
    omega
  have hcyc : ∀ s, ¬ OnCycle xn s := by
    intro s hs
    have key : ∀ t, Relation.TransGen (Step xn) s t → f t < f s := by
      intro t h
      induction h with
      | single h => exact hdec _ h
      | tail _ h ih => exact (hdec _ h).trans ih
    exact absurd (key s hs) (by omega)
  have hI : Closed xn (tinySys.invariant ∩ tinySys.closedAssume) := by
    intro s hs t hst
    exact absurd (by simpa [tinySys] using hs) (h0 _ hst)
  have hA : Closed xn tinySys.closedAssume := fun s _ t _ => Finset.mem_univ t
  refine ⟨⟨⟨0, by simp [taskOf, tinyCfg, tinySys]⟩, Finset.inter_subset_right, hA, hI, fun e he hm => ?_⟩, ?_, ?_, ?_⟩
  · refine converge_of hA hI (fun s _ hs => hall s ?_) (fun s _ hs => absurd hs (hcyc s)) he hm
    rintro rfl
    exact hs (by decide)
  · intro s _ hs
    have := hdec _ hs
    simp at this
  · exact fun _ e he _ => hinf e he
  · rintro s ⟨_, hs | ⟨t, ht⟩⟩ hd
    · obtain ⟨t, ht⟩ := mem_dom.1 (hall s (by rintro rfl; exact hs (by simp [taskOf, tinyCfg, tinySys])))
      exact hd t ht
    · simp [taskOf, tinyCfg, tinySys, Step] at ht

/-- **C79 fails for three systems.**  All hypotheses but `n ≤ 2` hold and there is a solution, but the
synthesizer answers that there is none: `revise_actions` goes on to the third system when nothing changes for
the second, without intersecting `common_dels` with what is redundant there (src/synthesis.cc:1381-1382,
1409-1410). -/
theorem C79_three_systems_incomplete : ∃ cfg : SynCfg (fun _ => Fin 4) (fun _ => Unit) Unit,
    Setting cfg 3 ∧ (∃ T, Solves (taskOf cfg 3) T) ∧ answer (synthesize cfg 3 60000 ()) = some none := by
  refine ⟨tinyCfg tinyAct [0, 1, 2, 3, 4] [0] noTrim false 0, tiny_setting (by decide) (by decide) (by decide),
    ⟨{0, 1, 2, 3}, ?_⟩, by decide +kernel⟩
  refine ⟨by decide, ?_, ?_, ?_, ?_⟩
  · intro i _ a ha
    refine .inl ?_
    simp only [Finset.mem_insert, Finset.mem_singleton] at ha
    simp only [taskOf, tinyCfg]
    rcases ha with rfl | rfl | rfl | rfl <;> decide
  · intro i _ a _ b _ _ h
    simp [taskOf, tinyCfg, noTrim] at h
  · rintro B ⟨i, _, ⟨l, hl, _⟩ | ⟨a, ha, _⟩⟩
    · simp [tinyCfg] at hl
    · simp [tinyCfg] at ha
  · intro i hi
    have hi : i < 3 := hi
    obtain rfl | rfl | rfl : i = 0 ∨ i = 1 ∨ i = 2 := by omega
    · exact tiny_meets (fun s => s.val) (by decide) (by decide) (by decide)
    · exact tiny_meets (fun s => s.val) (by decide) (by decide) (by decide)
    · exact tiny_meets (fun s => s.val) (by decide) (by decide) (by decide)

/-- Eight actions of two systems. -/
def deepAct : ℕ → ℕ → Finset (Fin 4 × Fin 4)
  | 0, 0 => {(2, 1)}
  | 0, 1 => {(2, 0)}
  | 0, 2 => {(3, 0)}
  | 0, 4 => {(1, 2)}
  | 0, 5 => {(3, 2)}
  | 0, 6 => {(3, 0)}
  | 0, 7 => {(1, 2)}
  | 1, 0 => {(2, 0)}
  | 1, 2 => {(3, 1)}
  | 1, 3 => {(3, 1)}
  | 1, 4 => {(3, 2)}
  | 1, 5 => {(3, 0)}
  | 1, 6 => {(1, 0)}
  | 1, 7 => {(2, 1)}
  | _, _ => ∅

/-- **C79 fails with the default `max_height` 3.**  The problem has a solution and with `max_height` 0 one is
found, but with the default the search forgets the older choices (src/search.cc:150-158) and gives up. -/
theorem C79_default_height_incomplete :
    Setting (tinyCfg deepAct [0, 1, 2, 4, 5, 6, 7] [] noTrim false 0) 2 ∧
    (∃ T, Solves (taskOf (tinyCfg deepAct [0, 1, 2, 4, 5, 6, 7] [] noTrim false 3) 2) T) ∧
    answer (synthesize (tinyCfg deepAct [0, 1, 2, 4, 5, 6, 7] [] noTrim false 3) 2 60000 ()) = some none := by
  refine ⟨tiny_setting (by decide) (by decide) (by decide), ⟨{6, 1, 7, 2}, ?_⟩, by decide +kernel⟩
  refine ⟨by decide, ?_, ?_, ?_, ?_⟩
  · intro i _ a ha
    refine .inl ?_
    simp only [Finset.mem_insert, Finset.mem_singleton] at ha
    simp only [taskOf, tinyCfg]
    rcases ha with rfl | rfl | rfl | rfl <;> decide
  · intro i _ a _ b _ _ h
    simp [taskOf, tinyCfg, noTrim] at h
  · rintro B ⟨i, _, ⟨l, hl, _⟩ | ⟨a, ha, _⟩⟩
    · simp [tinyCfg] at hl
    · simp [tinyCfg] at ha
  · intro i hi
    have hi : i < 2 := hi
    obtain rfl | rfl : i = 0 ∨ i = 1 := by omega
    · exact tiny_meets ![0, 2, 1, 3] (by decide) (by decide) (by decide)
    · exact tiny_meets (fun s => s.val) (by decide) (by decide) (by decide)

/-- **The answer may contain excluded pairs.**  Without `prep_conflicts` (the default) actions that are forced at
the same time are all added, even if they do not coexist: `tmp_dels -= adds` (src/synthesis.cc:1106-1112).  With
`prep_conflicts` the same problem has no solution. -/
theorem C79_clash_found :
    answer (synthesize (tinyCfg (fun _ a => {(Fin.ofNat 4 (a + 1), 0)}) [0, 1, 2] [] (fun _ _ _ => true) false 0) 1
      60000 ()) = some (some [0, 1, 2]) ∧
    answer (synthesize (tinyCfg (fun _ a => {(Fin.ofNat 4 (a + 1), 0)}) [0, 1, 2] [] (fun _ _ _ => true) true 0) 1
      60000 ()) = some none := by decide +kernel

end Verif.Props
