import Verif.Model.Drive
import Verif.Props.Synth

/-!
Invariants of the driver of the search (Model/Drive).
-/

set_option linter.unusedSectionVars false

namespace Verif.Proofs
open Verif.Spec Verif.Model Verif.Props

variable {σ τ : ℕ → Type} [∀ i, Fintype (σ i)] [∀ i, DecidableEq (σ i)] [∀ i, DecidableEq (τ i)] {ρ : Type}

/-! ### The same problem with further excluded sets -/

/-- The input in which the sets `R` are declared as conflicts. -/
def ban (cfg : SynCfg σ τ ρ) (t : ρ → ρ × List (Finset ℕ) × Bool) (R : List (List ℕ)) : SynCfg σ τ ρ :=
  { cfg with
    tick := t
    declared := fun i => if i = 0 then cfg.declared 0 ++ R else cfg.declared i }

theorem synEnv_ban (cfg : SynCfg σ τ ρ) (t : ρ → ρ × List (Finset ℕ) × Bool) (R : List (List ℕ))
    (base : List (SInst (SRest σ))) : synEnv (ban cfg t R) base = synEnv (cfg.withTick t) base := rfl

theorem fullEnv_ban (cfg : SynCfg σ τ ρ) (t : ρ → ρ × List (Finset ℕ) × Bool) (R : List (List ℕ))
    (base : List (SInst (SRest σ))) : fullEnv (ban cfg t R) base = fullEnv (cfg.withTick t) base := by
  have h : ∀ L st, smallLoop (ban cfg t R) base L st = smallLoop (cfg.withTick t) base L st := by
    intro L
    induction L with
    | nil => intro st; rfl
    | cons p L ih => intro st; unfold smallLoop; simp only [ih]; rfl
  have h2 : smallSet (ban cfg t R) base = smallSet (cfg.withTick t) base := by
    funext ps g
    unfold smallSet
    simp only [h]
    rfl
  unfold fullEnv
  rw [h2]
  rfl

section
variable {cfg : SynCfg σ τ ρ} {n : ℕ} {t t' : ρ → ρ × List (Finset ℕ) × Bool} {R R' : List (List ℕ)}

theorem banned_ban (h1 : 1 ≤ n) {B : Finset ℕ} :
    (taskOf (ban cfg t R) n).banned B ↔ (taskOf cfg n).banned B ∨ ∃ l ∈ R, B = l.toFinset := by
  constructor
  · rintro ⟨i, hi, ⟨l, hl, rfl⟩ | ⟨a, ha, rfl⟩⟩
    · simp only [ban] at hl
      split at hl
      · rcases List.mem_append.1 hl with hl | hl
        · exact .inl ⟨0, h1, .inl ⟨l, hl, rfl⟩⟩
        · exact .inr ⟨l, hl, rfl⟩
      · exact .inl ⟨i, hi, .inl ⟨l, hl, rfl⟩⟩
    · exact .inl ⟨i, hi, .inr ⟨a, ha, rfl⟩⟩
  · rintro (⟨i, hi, ⟨l, hl, rfl⟩ | ⟨a, ha, rfl⟩⟩ | ⟨l, hl, rfl⟩)
    · refine ⟨i, hi, .inl ⟨l, ?_, rfl⟩⟩
      simp only [ban]
      split
      · rename_i h; subst h; exact List.mem_append_left _ hl
      · exact hl
    · exact ⟨i, hi, .inr ⟨a, ha, rfl⟩⟩
    · exact ⟨0, h1, .inl ⟨l, by simp [ban, hl], rfl⟩⟩

theorem sol_ban (h1 : 1 ≤ n) {T : Finset ℕ} :
    SolOf (ban cfg t R) n T ↔ SolOf cfg n T ∧ ∀ l ∈ R, ¬ l.toFinset ⊆ T := by
  constructor
  · intro h
    exact ⟨⟨h.given, h.offered, h.apart, fun B hB => h.allowed B ((banned_ban h1).2 (.inl hB)), h.meets⟩,
      fun l hl => h.allowed _ ((banned_ban h1).2 (.inr ⟨l, hl, rfl⟩))⟩
  · rintro ⟨h, h2⟩
    refine ⟨h.given, h.offered, h.apart, fun B hB => ?_, h.meets⟩
    rcases (banned_ban h1).1 hB with h3 | ⟨l, hl, rfl⟩
    · exact h.allowed B h3
    · exact h2 l hl

theorem sol_mono (h1 : 1 ≤ n) (hR : R ⊆ R') {T : Finset ℕ} (h : SolOf (ban cfg t' R') n T) : SolOf (ban cfg t R) n T :=
  (sol_ban h1).2 ⟨((sol_ban h1).1 h).1, fun l hl => ((sol_ban h1).1 h).2 l (hR hl)⟩

theorem valid_mono (h1 : 1 ≤ n) (hR : R ⊆ R') {fam : CFam} (h : Valid (ban cfg t R) n fam) :
    Valid (ban cfg t' R') n fam := fun T hT => h T (sol_mono h1 hR hT)

theorem plain_ban (h : Plain cfg n) : Plain (ban cfg t R) n :=
  ⟨fun i hi =>
    have h := h.sys i hi
    ⟨h.ident, h.prob, h.direct, h.scope, h.style, h.behav, h.uniring, h.layers, h.legit, h.pick, h.shadowAct⟩, h.fast⟩

theorem honest_ban (ht : ∀ r, (t r).2.1 = []) : Honest (ban cfg t R) n := by
  intro r b hb
  have : b ∈ (t r).2.1 := hb
  rw [ht] at this
  simp at this

theorem instOk_ban {G : Finset ℕ} {i : ℕ} {acts : List ℕ} {np : Bool} {st : SynSt (σ i)}
    (h : InstOk (ban cfg t R) n G i acts np st) : InstOk (ban cfg t' R') n G i acts np st :=
  ⟨h.lt, h.nodup, h.cnodup, h.act, h.sup, h.loF, h.lo, h.hiInv, h.low, h.up⟩

theorem wok_ban {G : Finset ℕ} {i : ℕ} {x : SInst (SRest σ)} (h : WOk (ban cfg t R) n G i x) :
    WOk (ban cfg t' R') n G i x := by
  obtain ⟨st, h1, h2⟩ := h
  exact ⟨st, h1, instOk_ban h2⟩

theorem wdone_ban {G : Finset ℕ} {F : CFam} {i : ℕ} {x : SInst (SRest σ)} (h : WDone (ban cfg t R) n G F i x) :
    WDone (ban cfg t' R') n G F i x := by
  obtain ⟨st, h1, h2, h3⟩ := h
  exact ⟨st, h1, ⟨instOk_ban h2.toInstOk, fun h =>
    have q := h2.passed h
    ⟨q.closed, q.scc, q.silent⟩, h2.dl, h2.open_, h2.mcv⟩, h3⟩

theorem baseFit_ban (h1 : 1 ≤ n) (hR : R ⊆ R') {G : Finset ℕ} {base : List (SInst (SRest σ))}
    (h : BaseFit (ban cfg t R) n G base) : BaseFit (ban cfg t' R') n G base :=
  ⟨h.len, fun i x hx => wok_ban (h.w i x hx), h.same, h.act, fun T hT => h.fits T (sol_mono h1 hR hT)⟩

theorem ban_nil (hn : cfg.tick = t) : ban cfg t [] = cfg := by
  subst hn
  unfold ban
  have : (fun i => if i = 0 then cfg.declared 0 ++ [] else cfg.declared i) = cfg.declared := by
    funext i
    split
    · rename_i h; rw [h, List.append_nil]
    · rfl
  rw [this]

end

/-! ### Merging conflicts -/

section
variable {cfg : SynCfg σ τ ρ}

theorem trim_knows {k : ℕ} {fam : CFam} {S : Finset ℕ} (h : k = 0 ∨ S.card ≤ k) : Knows (trim k fam) S ↔ Knows fam S := by
  rcases h with rfl | h
  · rw [(C22_trim fam 0).2.2.2]
  · rw [← conflictCk_iff, ← conflictCk_iff, (C22_trim fam k).2.2.1 S h]

theorem family_knows {a b : CFam} {S : Finset ℕ} :
    Knows (addFamily (fun a b => cfg.le a b = true) a b) S ↔ Knows a S ∨ Knows b S := by
  have : addFamily (fun a b => cfg.le a b = true) a b =
      addAll (fun a b => cfg.le a b = true) (a.sets.filter fun x => x ∉ b.sets) b := rfl
  rw [this, addAll_knows]
  constructor
  · rintro (h | ⟨x, hx, h⟩)
    · exact .inr h
    · exact .inl ⟨x, (List.mem_filter.1 hx).1, h⟩
  · rintro (⟨x, hx, h⟩ | h)
    · by_cases hb : x ∈ b.sets
      · exact .inl ⟨x, hb, h⟩
      · exact .inr ⟨x, List.mem_filter.2 ⟨hx, by simpa using hb⟩, h⟩
    · exact .inl h

theorem merge_sub {a b : CFam} {S : Finset ℕ} (h : Knows (mergeFam cfg a b) S) : Knows a S ∨ Knows b S := by
  rw [← family_knows (cfg := cfg), ← conflictCk_iff]
  exact (C22_trim _ _).1 S (conflictCk_iff.2 h)

theorem merge_knows {a b : CFam} {S : Finset ℕ} (h : cfg.maxConflictSz = 0 ∨ S.card ≤ cfg.maxConflictSz) :
    Knows (mergeFam cfg a b) S ↔ Knows a S ∨ Knows b S := by
  rw [mergeFam, trim_knows h, family_knows]

theorem merge_anti {a b : CFam} (h : Anti b.sets) : Anti (mergeFam cfg a b).sets := by
  have h1 : Anti (addFamily (fun a b => cfg.le a b = true) a b).sets := addAll_anti _ h
  unfold mergeFam trim
  split
  · exact h1
  · exact h1.sublist List.filter_sublist

theorem merge_imp {a b : CFam} (h : ImpInv b) : ImpInv (mergeFam cfg a b) := by
  have h1 : ImpInv (addFamily (fun a b => cfg.le a b = true) a b) := ImpInv.addAll _ h _
  by_cases h0 : cfg.maxConflictSz = 0
  · unfold mergeFam
    rw [h0, (C22_trim _ 0).2.2.2]
    exact h1
  · intro hn e
    rw [mergeFam, trim_knows (.inr (by simp))] at hn
    rw [mergeFam, trim_knows (.inr (by rw [Finset.card_singleton]; omega)), ← h1 hn e]
    unfold trim
    rw [if_neg h0]

end

/-! ### The invariant -/

section
variable (cfg : SynCfg σ τ ρ) (n : ℕ) (opt : DriveOpt)

/-- The reported solutions that are conflicts now. -/
def repR (sh : Shared) : List (List ℕ) := if opt.asConflict then sh.reports else []

/-- `trim` does not remove what the user has declared. -/
def SizesOk : Prop := cfg.maxConflictSz = 0 ∨ ∀ B, (taskOf cfg n).banned B → B.card ≤ cfg.maxConflictSz

/-- A protocol that has been found. -/
structure FoundOk (acts : List ℕ) : Prop where
  nodup : acts.Nodup
  given : cfg.given.toFinset ⊆ acts.toFinset
  meets : ∀ i < n, Meets ((taskOf cfg n).demand i) (acts.toFinset.biUnion (cfg.actXn i))
  act : ∀ a ∈ acts, MayAdd cfg n a
  legal : SizesOk cfg n → ∀ B, (taskOf cfg n).banned B → ¬ B ⊆ acts.toFinset

/-- `base_partial` is as the search expects it. -/
structure ThBase (R : List (List ℕ)) (ps : PSyn (SRest σ)) : Prop where
  picks : ps.picks = []
  fit : BaseFit (ban cfg calmTick R) n cfg.given.toFinset ps.insts
  w : ∀ (i : ℕ) (x : SInst (SRest σ)), ps.insts[i]? = some x →
    WDone (ban cfg calmTick R) n cfg.given.toFinset CFam.empty i x ∧ x.noPartial = false

structure ThreadOk (sh : Shared) (l : Thread σ ρ) : Prop where
  noabort : l.phase ≠ .abort
  valid : Valid (ban cfg calmTick (repR opt sh)) n l.g.fam
  anti : Anti l.g.fam.sets
  imp : ImpInv l.g.fam
  known : SizesOk cfg n → ∀ B, (taskOf cfg n).banned B → Knows l.g.fam B
  optimal : l.g.optimal = 0 ∨ ∃ acts, l.phase = .tried (some acts)
  stop : l.g.stop = true → sh.done = true
  calm : l.phase = .search → l.g.stop = false
  base : ThBase cfg n (repR opt sh) l.ps ∨ (sh.done = true ∧ (l.phase = .head ∨ l.phase = .fin))
  out : ∀ acts, l.phase = .tried (some acts) → FoundOk cfg n acts

structure SharedOk (signal : Bool) (sh : Shared) : Prop where
  valid : Valid (ban cfg calmTick (repR opt sh)) n sh.fam
  anti : Anti sh.fam.sets
  imp : ImpInv sh.fam
  reports : ∀ acts ∈ sh.reports, FoundOk cfg n acts
  found : sh.found = true ↔ sh.reports ≠ []
  ret : sh.found = true → sh.reports.getLast? = some sh.ret
  why : sh.done = true → signal = true ∨ (sh.found = true ∧ opt.tryAll = false) ∨
    ∀ T, ¬ SolOf (ban cfg calmTick (repR opt sh)) n T

/-- What a step may do to the shared variables. -/
structure Grows (sh sh' : Shared) : Prop where
  done : sh.done = true → sh'.done = true
  reports : sh.reports ⊆ sh'.reports

end

section
variable {cfg : SynCfg σ τ ρ} {n : ℕ} {opt : DriveOpt}

theorem Grows.refl (sh : Shared) : Grows sh sh := ⟨id, fun _ h => h⟩

theorem Grows.repR {sh sh' : Shared} (h : Grows sh sh') : repR opt sh ⊆ repR opt sh' := by
  unfold Proofs.repR
  split
  · exact h.reports
  · exact fun _ h => h

theorem ThBase.mono (h1 : 1 ≤ n) {R R' : List (List ℕ)} (hR : R ⊆ R') {ps : PSyn (SRest σ)} (h : ThBase cfg n R ps) :
    ThBase cfg n R' ps :=
  ⟨h.picks, baseFit_ban h1 hR h.fit, fun i x hx => ⟨wdone_ban (h.w i x hx).1, (h.w i x hx).2⟩⟩

theorem ThreadOk.mono (h1 : 1 ≤ n) {sh sh' : Shared} (hg : Grows sh sh') {l : Thread σ ρ} (h : ThreadOk cfg n opt sh l) :
    ThreadOk cfg n opt sh' l :=
  ⟨h.noabort, valid_mono h1 hg.repR h.valid, h.anti, h.imp, h.known, h.optimal, fun hs => hg.done (h.stop hs), h.calm,
    h.base.imp (fun hb => hb.mono h1 hg.repR) fun hb => ⟨hg.done hb.1, hb.2⟩, h.out⟩

theorem SharedOk.mono_signal {sh : Shared} (h : SharedOk cfg n opt false sh) :
    SharedOk cfg n opt true { sh with done := true } :=
  ⟨h.valid, h.anti, h.imp, h.reports, h.found, h.ret, fun _ => .inl rfl⟩

/-- The call of `AddStabilization`. -/
theorem search_ok (hS : OpenSetting cfg n) (h1 : 1 ≤ n) (h2 : n ≤ 2) {t : ρ → ρ × List (Finset ℕ) × Bool}
    {R : List (List ℕ)} (hm : Honest (ban cfg t R) n) {ps : PSyn (SRest σ)} (hb : ThBase cfg n R ps) {g : SynG ρ}
    (ho : g.optimal = 0) (hs : g.stop = false) (hv : Valid (ban cfg calmTick R) n g.fam) (ha : Anti g.fam.sets)
    (hi : ImpInv g.fam) :
    TrialOk (ban cfg t R) n cfg.given.toFinset g.fam
      (addStabilization (fullEnv (cfg.withTick t) ps.insts) (3 ^ candTotal ps.insts + 2) g ps) := by
  rw [← fullEnv_ban cfg t R]
  refine trial_ok (plain_ban hS.plain) hm h1 h2 (baseFit_ban h1 (fun _ h => h) hb.fit)
    (fun i x hx => ⟨wdone_ban (hb.w i x hx).1, (hb.w i x hx).2⟩) hS.pick hS.verify
    ⟨ho, valid_mono h1 (fun _ h => h) hv, ⟨ha, hi, fun _ h => h⟩, fun _ => hs⟩ hb.picks ?_
  have : candSum (fullEnv (ban cfg t R) ps.insts) ps.insts ≤ candTotal ps.insts :=
    candSum_total (ban cfg t R) ps.insts _
  have := Nat.pow_le_pow_right (n := 3) (by omega) this
  omega

/-- The end of the loop. -/
theorem prune_ok (hS : OpenSetting cfg n) (h1 : 1 ≤ n) (h2 : n ≤ 2) {t : ρ → ρ × List (Finset ℕ) × Bool}
    {R : List (List ℕ)} (hm : Honest (ban cfg t R) n) {ps : PSyn (SRest σ)} (hb : ThBase cfg n R ps) {g : SynG ρ}
    (ho : g.optimal = 0) (hs : g.stop = false) (hv : Valid (ban cfg calmTick R) n g.fam) (ha : Anti g.fam.sets)
    (hi : ImpInv g.fam) {D : Finset ℕ} (hD : D ⊆ g.fam.impossible) :
    ∃ g' ok ps' m,
      reviseActions (synEnv (cfg.withTick t) ps.insts) (candTotal ps.insts + 1) g ps ∅ D = some (g', ok, ps', m) ∧
      VOk (ban cfg t R) n g.fam g' ∧
      (ok = false → g'.stop = true ∨ ∀ T, ¬ SolOf (ban cfg calmTick R) n T) ∧
      (ok = true → ThBase cfg n R ps') := by
  rw [← synEnv_ban cfg t R]
  have hfit := baseFit_ban (t' := t) h1 (fun _ h => h) hb.fit
  have hdel : ∀ T, SolOf (ban cfg t R) n T → ∀ d ∈ D, d ∉ T := by
    intro T hT d hd hdT
    have hv' : Valid (ban cfg t R) n g.fam := valid_mono h1 (fun _ h => h) hv
    by_cases h0 : Knows g.fam ∅
    · exact hv'.sub (Finset.empty_subset T) hT (conflictCk_iff.2 h0)
    · exact hv'.sub (Finset.singleton_subset_iff.2 hdT) hT (conflictCk_iff.2 ((hi h0 d).1 (hD hd)))
  obtain ⟨g', ok, ps', m, r1, r2, r3, r4, r5, r6⟩ := revActions
    (synCert (plain_ban hS.plain) hm cfg.given.toFinset g.fam ps.insts) (g := g) (ps := ps) (A := ∅) (D := D)
    (by rw [hb.fit.len]; exact h2) ⟨ho, valid_mono h1 (fun _ h => h) hv, ⟨ha, hi, fun _ h => h⟩, fun _ => hs⟩
    hfit.w hfit.same (by simp) (fun i x hx e he => by
      rw [Finset.mem_sdiff] at he
      exact hfit.act i x hx e (List.mem_toFinset.1 he.1)) (fuel := candTotal ps.insts + 1)
    (Nat.lt_succ_of_le (candSum_total _ _ _))
  refine ⟨g', ok, ps', m, r1, r2, fun h => ?_, fun h => ?_⟩
  · exact (r5 h).2.imp id fun hno T hT => hno T (sol_mono h1 (fun _ h => h) hT)
      (hfit.fits T (sol_mono h1 (fun _ h => h) hT)) (by simp) (hdel T (sol_mono h1 (fun _ h => h) hT))
  · subst h
    obtain ⟨e1, e2, e3, e4, e5⟩ := r6 rfl
    have hsame0 : Same (List.replicate n false) (∅ : Finset ℕ) ps.insts := by
      obtain ⟨S, hSm⟩ := hb.fit.same
      refine ⟨?_, fun x hx => ?_, S, by simp, fun x hx => hSm x hx⟩
      · rw [List.eq_replicate_iff]
        refine ⟨by simp [hb.fit.len], fun b hb' => ?_⟩
        obtain ⟨x, hx, rfl⟩ := List.mem_map.1 hb'
        obtain ⟨i, hi⟩ := List.getElem?_of_mem hx
        exact (hb.w i x hi).2
      · obtain ⟨i, hi⟩ := List.getElem?_of_mem hx
        obtain ⟨st, _, q, _⟩ := (hb.w i x hi).1
        exact q.nodup
    obtain ⟨s1, -, -⟩ := revise_sup hsame0 r1
    have hnp : ∀ (i : ℕ) (x : SInst (SRest σ)), ps'.insts[i]? = some x → x.noPartial = false := by
      intro i x hx
      have : x.noPartial ∈ ps'.insts.map SInst.noPartial := List.mem_map.2 ⟨x, List.mem_of_getElem? hx, rfl⟩
      rw [s1] at this
      exact List.eq_of_mem_replicate this
    have hw : ∀ (i : ℕ) (x : SInst (SRest σ)), ps'.insts[i]? = some x →
        WDone (ban cfg t R) n cfg.given.toFinset CFam.empty i x := by
      intro i x hx
      obtain ⟨st, q1, q2, -⟩ := e2 i x hx
      refine ⟨st, q1, q2, fun _ => ?_⟩
      rintro ⟨a, h, _⟩; simp [CFam.empty] at h
    refine ⟨r3.trans hb.picks, ⟨e1.trans hb.fit.len, fun i x hx => ?_, e3.imp fun _ h => h.2.2, fun i x hx e he => ?_,
      fun T hT => ?_⟩, fun i x hx => ⟨wdone_ban (hw i x hx), hnp i x hx⟩⟩
    · obtain ⟨st, q1, q2, -⟩ := hw i x hx
      exact ⟨st, q1, instOk_ban q2.toInstOk⟩
    · have hil : i < ps.insts.length := e1 ▸ (List.getElem?_eq_some_iff.1 hx).1
      have := e4 i _ x (List.getElem?_eq_getElem hil) hx (List.mem_toFinset.2 he)
      rw [Finset.mem_sdiff] at this
      exact hb.fit.act i _ (List.getElem?_eq_getElem hil) e (List.mem_toFinset.1 this.1)
    · have hT' : SolOf (ban cfg t R) n T := sol_mono h1 (fun _ h => h) hT
      exact e5 T hT' (hfit.fits T hT') (by simp) (hdel T hT')

/-- A step of a thread. -/
theorem threadStep_ok (hS : OpenSetting cfg n) (h1 : 1 ≤ n) (h2 : n ≤ 2) {t : ρ → ρ × List (Finset ℕ) × Bool}
    (ht : ∀ r, (t r).2.1 = []) {signal : Bool} {sh : Shared} {l : Thread σ ρ} (hsh : SharedOk cfg n opt signal sh)
    (hl : ThreadOk cfg n opt sh l) (htr : (threadStep cfg opt t sh l).2.g.stop = true → sh.done = true) :
    SharedOk cfg n opt signal (threadStep cfg opt t sh l).1 ∧
      ThreadOk cfg n opt (threadStep cfg opt t sh l).1 (threadStep cfg opt t sh l).2 ∧
      Grows sh (threadStep cfg opt t sh l).1 := by
  obtain ⟨phase, g, ps, trial⟩ := l
  revert htr
  unfold threadStep
  rcases phase with _ | _ | out | _ | _ | _ | _
  · -- head
    simp only
    split
    · intro _
      refine ⟨hsh, ?_, Grows.refl _⟩
      exact ⟨by simp, hl.valid, hl.anti, hl.imp, hl.known, hl.optimal.imp id (by simp), hl.stop, by simp,
        hl.base.imp id fun h => ⟨h.1, .inr rfl⟩, by simp⟩
    · rename_i hd
      rw [not_or] at hd
      intro _
      refine ⟨hsh, ?_, Grows.refl _⟩
      refine ⟨by simp, hl.valid, hl.anti, hl.imp, hl.known, hl.optimal.imp id (by simp), hl.stop, fun _ => ?_,
        .inl (hl.base.resolve_right fun h => hd.1 h.1), by simp⟩
      by_contra hst
      exact hd.1 (hl.stop (by simpa using hst))
  · -- search
    have hb := hl.base.resolve_right (by simp)
    have ho : g.optimal = 0 := hl.optimal.resolve_right (by simp)
    have htrial := search_ok hS h1 h2 (honest_ban ht) hb ho (hl.calm rfl) hl.valid hl.anti hl.imp
    simp only at htrial ⊢
    revert htrial
    generalize addStabilization (fullEnv (cfg.withTick t) ps.insts) (3 ^ candTotal ps.insts + 2) g ps = res
    intro htrial
    rcases res with _ | ⟨g' | ⟨g', acts⟩⟩
    · exact htrial.elim
    · intro hst
      obtain ⟨hV, -⟩ := htrial
      refine ⟨hsh, ?_, Grows.refl _⟩
      exact ⟨by simp, valid_mono h1 (fun _ h => h) hV.valid, hV.past.anti, hV.past.imp,
        fun hz B hB => hV.past.mono _ (hl.known hz B hB), .inl hV.opt, hst, by simp, .inl hb, by simp⟩
    · intro hst
      obtain ⟨-, v1, v2, v3, v4, v5, v6, v7, -⟩ := htrial
      refine ⟨hsh, ?_, Grows.refl _⟩
      refine ⟨by simp, valid_mono h1 (fun _ h => h) v1, v2.anti, v2.imp,
        fun hz B hB => v2.mono _ (hl.known hz B hB), .inr ⟨acts, rfl⟩, hst, by simp, .inl hb, ?_⟩
      intro acts' he
      simp only [DPhase.tried.injEq, Option.some.injEq] at he
      subst he
      refine ⟨v3, v4, v5, v7, fun hz B hB hsub => v6 ?_⟩
      exact conflictCk_iff.1 (ck_mono hsub (conflictCk_iff.2 (hl.known hz B hB)))
  · -- the first half of the critical section
    simp only
    intro hst
    have hb := hl.base.resolve_right (by simp)
    have key : SharedOk cfg n opt signal (critFound cfg opt out sh) ∧ Grows sh (critFound cfg opt out sh) := by
      unfold critFound
      rcases out with _ | acts
      · exact ⟨hsh, Grows.refl _⟩
      · have hf := hl.out acts rfl
        simp only
        split
        · exact ⟨hsh, Grows.refl _⟩
        split
        · exact ⟨hsh, Grows.refl _⟩
        · rename_i hd hk
          have hg : Grows sh ⟨!opt.tryAll, true, acts, sh.reports ++ [acts],
              if opt.asConflict then cfg.learn acts.toFinset sh.fam else sh.fam⟩ :=
            ⟨fun h => absurd h hd, List.subset_append_left _ _⟩
          refine ⟨⟨?_, ?_, ?_, ?_, by simp, by simp, fun h => .inr (.inl ⟨rfl, by simpa using h⟩)⟩, hg⟩
          · have hv := valid_mono (t' := calmTick) h1 (hg.repR (opt := opt)) hsh.valid
            simp only
            split
            · rename_i hc
              refine hv.learn fun T hT hsub => ((sol_ban h1).1 hT).2 acts ?_ hsub
              simp [repR, hc]
            · exact hv
          · simp only
            split
            · exact addConflict_anti _ hsh.anti
            · exact hsh.anti
          · simp only
            split
            · exact hsh.imp.add _ _
            · exact hsh.imp
          · intro a ha
            rcases List.mem_append.1 ha with ha | ha
            · exact hsh.reports a ha
            · rw [List.mem_singleton.1 ha]; exact hf
    refine ⟨key.1, ?_, key.2⟩
    exact ⟨by simp, valid_mono h1 key.2.repR hl.valid, hl.anti, hl.imp, hl.known, .inl rfl,
      fun h => key.2.done (hl.stop h), by simp, .inl (hb.mono h1 key.2.repR), by simp⟩
  · -- the second half
    have hb := hl.base.resolve_right (by simp)
    have ho : g.optimal = 0 := hl.optimal.resolve_right (by simp)
    simp only
    split
    · intro hst
      have hv : Valid (ban cfg calmTick (repR opt sh)) n (mergeFam cfg sh.fam g.fam) := by
        intro T hT
        rw [Bool.eq_false_iff]
        intro hc
        rcases merge_sub (conflictCk_iff.1 hc) with h | h
        · have := hsh.valid T hT
          rw [conflictCk_iff.2 h] at this
          cases this
        · have := hl.valid T hT
          rw [conflictCk_iff.2 h] at this
          cases this
      have ha : Anti (mergeFam cfg sh.fam g.fam).sets := merge_anti hl.anti
      have hi : ImpInv (mergeFam cfg sh.fam g.fam) := merge_imp hl.imp
      have hg : Grows sh { sh with
          done := sh.done || !satCk (mergeFam cfg sh.fam g.fam)
          fam := mergeFam cfg sh.fam g.fam } := ⟨fun h => by simp [h], fun _ h => h⟩
      refine ⟨⟨hv, ha, hi, hsh.reports, hsh.found, hsh.ret, fun h => ?_⟩, ?_, hg⟩
      · simp only [Bool.or_eq_true, Bool.not_eq_true'] at h
        rcases h with h | h
        · exact hsh.why h
        · refine .inr (.inr fun T hT => hv.sub (Finset.empty_subset T) hT (conflictCk_iff.2 ?_))
          exact knows_empty.2 ((satCk_iff ha).1 h)
      · refine ⟨by simp, hv, ha, hi, fun hz B hB => ?_, .inl ho, fun h => hg.done (hl.stop h), by simp, .inl hb, by simp⟩
        exact (merge_knows (hz.imp id fun h => h B hB)).2 (.inr (hl.known hz B hB))
    · intro _
      exact ⟨hsh, ⟨by simp, hl.valid, hl.anti, hl.imp, hl.known, .inl ho, hl.stop, by simp, .inl hb, by simp⟩,
        Grows.refl _⟩
  · -- the end of the loop
    have hb := hl.base.resolve_right (by simp)
    have ho : g.optimal = 0 := hl.optimal.resolve_right (by simp)
    simp only
    split
    · intro _
      exact ⟨hsh, ⟨by simp, hl.valid, hl.anti, hl.imp, hl.known, .inl ho, hl.stop, by simp, .inl hb, by simp⟩,
        Grows.refl _⟩
    · rename_i hd
      rw [not_or] at hd
      have hns : g.stop = false := by
        by_contra hst
        exact hd.1 (hl.stop (by simpa using hst))
      obtain ⟨g', ok, ps', m, r1, r2, r3, r4⟩ := prune_ok hS h1 h2 (honest_ban ht) hb ho hns hl.valid hl.anti hl.imp
        (D := g.fam.impossible ∩ (((ps.insts.head?).map fun x => x.rest.2.cands).getD []).toFinset)
        Finset.inter_subset_left
      rw [r1]
      simp only
      intro hst
      have hg : Grows sh { sh with done := sh.done || !ok } := ⟨fun h => by simp [h], fun _ h => h⟩
      have hno : ok = false → signal = true ∨ (sh.found = true ∧ opt.tryAll = false) ∨
          ∀ T, ¬ SolOf (ban cfg calmTick (repR opt sh)) n T := by
        intro hok
        rcases r3 hok with h | h
        · exact hsh.why (hst h)
        · exact .inr (.inr h)
      refine ⟨⟨hsh.valid, hsh.anti, hsh.imp, hsh.reports, hsh.found, hsh.ret, fun h => ?_⟩, ?_, hg⟩
      · simp only [Bool.or_eq_true, Bool.not_eq_true'] at h
        exact h.elim hsh.why hno
      · refine ⟨by simp, valid_mono h1 (fun _ h => h) r2.valid, r2.past.anti, r2.past.imp,
          fun hz B hB => r2.past.mono _ (hl.known hz B hB), .inl r2.opt, fun h => hg.done (hst h), by simp, ?_, by simp⟩
        rcases ok with _ | _
        · exact .inr ⟨by simp, .inl rfl⟩
        · exact .inl (r4 rfl)
  · intro _
    exact ⟨hsh, hl, Grows.refl _⟩
  · intro _
    exact ⟨hsh, hl, Grows.refl _⟩

end

/-! ### All threads -/

structure DInv {N : ℕ} (cfg : SynCfg σ τ ρ) (n : ℕ) (opt : DriveOpt) (s : DState σ ρ N) : Prop where
  sh : SharedOk cfg n opt s.signal s.sh
  th : ∀ p, ThreadOk cfg n opt s.sh (s.th p)

section
variable {cfg : SynCfg σ τ ρ} {n : ℕ} {opt : DriveOpt} {N : ℕ}

/-- The initialization with `done_ck` not called. -/
theorem open_calm (hS : OpenSetting cfg n) : OpenSetting (cfg.withTick calmTick) n where
  plain := ⟨fun i hi =>
    have h := hS.plain.sys i hi
    ⟨h.ident, h.prob, h.direct, h.scope, h.style, h.behav, h.uniring, h.layers, h.legit, h.pick, h.shadowAct⟩,
    hS.plain.fast⟩
  msgs := by
    intro r b hb
    have : b ∈ ([] : List (Finset ℕ)) := hb
    simp at this
  pick := hS.pick
  verify := hS.verify
  nodup := hS.nodup
  declared := hS.declared
  given := hS.given
  cand := hS.cand

theorem withTick_ban : ban cfg calmTick [] = cfg.withTick calmTick :=
  ban_nil (cfg := cfg.withTick calmTick) rfl

theorem initThread_ok (hS : OpenSetting cfg n) (h1 : 1 ≤ n) (h2 : n ≤ 2) (rng : ρ) {sh : Shared}
    (hd : (initThread cfg n rng).1 = false → sh.done = true) (hr : sh.reports = []) :
    ThreadOk cfg n opt sh (initThread cfg n rng).2 ∧ (initThread cfg n rng).2.phase = .head ∧
      (initThread cfg n rng).2.trial = 0 ∧
      ((initThread cfg n rng).1 = false → ∀ T, ¬ SolOf cfg n T) := by
  have hS' := open_calm hS
  have hR : repR opt sh = [] := by unfold repR; rw [hr]; simp
  obtain ⟨g, ok, ps, m, e, hV, hno, hyes⟩ := startUp_ok hS' h1 h2
    (fuel := ((List.range n).map fun i => (cfg.cands i).length).sum + 1) (Nat.lt_succ_self _) rng
  have hst : g.stop = false := hV.calm fun _ => rfl
  unfold initThread at hd ⊢
  rw [e] at hd ⊢
  simp only at hd ⊢
  have hban := (start_fam hS' h1 rfl).2.2.2.2
  refine ⟨⟨by simp, ?_, hV.past.anti, hV.past.imp, fun _ B hB => hV.past.mono _ (hban B hB), .inl hV.opt,
    fun h => absurd h (by rw [hst]; simp), by simp, ?_, by simp⟩, trivial, trivial, fun h T hT => ?_⟩
  · rw [hR, withTick_ban]; exact hV.valid
  · rcases ok with _ | _
    · exact .inr ⟨hd rfl, .inl rfl⟩
    · left
      have q := hyes rfl
      rw [hR]
      refine ⟨q.picks, ?_, ?_⟩
      · rw [withTick_ban]; exact q.base
      · rw [withTick_ban]; exact q.w
  · rcases hno h with h | h
    · rw [hst] at h; cases h
    · exact h T ⟨hT.given, hT.offered, hT.apart, hT.allowed, hT.meets⟩

theorem driveInit_ok (hS : OpenSetting cfg n) (h1 : 1 ≤ n) (h2 : n ≤ 2) (rng : Fin N → ρ) :
    DInv cfg n opt (driveInit cfg n N rng) := by
  refine ⟨⟨?_, anti_nil, ?_, by simp [driveInit], by simp [driveInit], by simp [driveInit], fun h => ?_⟩, fun p => ?_⟩
  · intro T _
    simp [driveInit, CFam.empty, conflictCk]
  · intro _ e
    simp [driveInit, CFam.empty, Knows]
  · right; right
    intro T hT
    have : decide (∃ p, (initThread cfg n (rng p)).1 = false) = true := h
    rw [decide_eq_true_eq] at this
    obtain ⟨p, hp⟩ := this
    exact (initThread_ok (opt := opt) hS h1 h2 (rng p) (sh := ⟨true, false, [], [], CFam.empty⟩) (fun _ => rfl) rfl).2.2.2 hp T
      ((sol_ban h1).1 hT).1
  · refine (initThread_ok hS h1 h2 (rng p) (fun h => ?_) rfl).1
    show decide (∃ p, (initThread cfg n (rng p)).1 = false) = true
    rw [decide_eq_true_eq]
    exact ⟨p, h⟩

theorem DStep.inv (hS : OpenSetting cfg n) (h1 : 1 ≤ n) (h2 : n ≤ 2) {s s' : DState σ ρ N} (hI : DInv cfg n opt s)
    (h : DStep cfg opt s s') : DInv cfg n opt s' ∧ Grows s.sh s'.sh := by
  cases h with
  | signal hs =>
    have hg : Grows s.sh { s.sh with done := true } := ⟨fun _ => rfl, fun _ h => h⟩
    refine ⟨⟨?_, fun p => (hI.th p).mono h1 hg⟩, hg⟩
    have := hI.sh
    rw [hs] at this
    exact this.mono_signal
  | run p t _ ht htr =>
    simp only [stepAt, Function.update_self] at htr
    obtain ⟨q1, q2, q3⟩ := threadStep_ok hS h1 h2 ht hI.sh (hI.th p) htr
    refine ⟨⟨q1, fun p' => ?_⟩, q3⟩
    simp only [stepAt]
    by_cases hp : p' = p
    · subst hp
      rw [Function.update_self]
      exact q2
    · rw [Function.update_of_ne hp]
      exact (hI.th p').mono h1 q3

theorem DReach.inv (hS : OpenSetting cfg n) (h1 : 1 ≤ n) (h2 : n ≤ 2) {rng : Fin N → ρ} {s : DState σ ρ N}
    (h : DReach cfg opt n N rng s) : DInv cfg n opt s := by
  induction h with
  | refl => exact driveInit_ok hS h1 h2 rng
  | tail _ h ih => exact (DStep.inv hS h1 h2 ih h).1

end

end Verif.Proofs
