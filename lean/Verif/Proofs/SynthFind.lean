import Verif.Proofs.SynthCert

/-!
Lemmas for property C79: the concrete search keeps the contracts of Proofs/Revise and Proofs/Complete.
-/

set_option linter.unusedSectionVars false

namespace Verif.Proofs
open Verif.Model Verif.Spec Verif.Props

variable {σ τ : ℕ → Type} [∀ i, Fintype (σ i)] [∀ i, DecidableEq (σ i)] [∀ i, DecidableEq (τ i)] {ρ : Type}

/-- `x` is a well-formed instance of system `i`. -/
def WOk (cfg : SynCfg σ τ ρ) (n : ℕ) (G : Finset ℕ) (i : ℕ) (x : SInst (SRest σ)) : Prop :=
  ∃ st, x.rest = ⟨i, st⟩ ∧ InstOk cfg n G i x.actions x.noPartial st

/-- It has passed the checks, and those against the conflicts `F`. -/
def WDone (cfg : SynCfg σ τ ρ) (n : ℕ) (G : Finset ℕ) (F : CFam) (i : ℕ) (x : SInst (SRest σ)) : Prop :=
  ∃ st, x.rest = ⟨i, st⟩ ∧ InstDone cfg n G i x.actions x.noPartial st ∧
    (x.noPartial = false → ¬ Knows F x.actions.toFinset)

/-- The database is in order, and everything that was known in `F` is still known. -/
structure Past (F fam : CFam) : Prop where
  anti : Anti fam.sets
  imp : ImpInv fam
  mono : ∀ S, Knows F S → Knows fam S

theorem Past.learn {F fam : CFam} (h : Past F fam) (cfg : SynCfg σ τ ρ) (b : Finset ℕ) : Past F (cfg.learn b fam) :=
  ⟨addConflict_anti _ h.anti, h.imp.add _ b, fun S hS => (addConflict_knows _).2 (.inl (h.mono S hS))⟩

/-- The database is valid and no solution has been found. -/
structure VOk (cfg : SynCfg σ τ ρ) (n : ℕ) (F : CFam) (g : SynG ρ) : Prop where
  opt : g.optimal = 0
  valid : Valid cfg n g.fam
  past : Past F g.fam
  calm : (∀ r, (cfg.tick r).2.2 = false) → g.stop = false

theorem VOk.learn {cfg : SynCfg σ τ ρ} {n : ℕ} {F : CFam} {g : SynG ρ} (h : VOk cfg n F g) {b : Finset ℕ}
    (hb : ∀ T, Solves (taskOf cfg n) T → ¬ b ⊆ T) : VOk cfg n F { g with fam := cfg.learn b g.fam } :=
  ⟨h.opt, h.valid.learn hb, h.past.learn cfg b, h.calm⟩

theorem VOk.self {cfg : SynCfg σ τ ρ} {n : ℕ} {F : CFam} {g : SynG ρ} (h : VOk cfg n F g) : VOk cfg n g.fam g :=
  ⟨h.opt, h.valid, ⟨h.past.anti, h.past.imp, fun _ h => h⟩, h.calm⟩

/-- The conflicts received from other processes are valid. -/
def Honest (cfg : SynCfg σ τ ρ) (n : ℕ) : Prop :=
  ∀ r, ∀ b ∈ (cfg.tick r).2.1, ∀ T, Solves (taskOf cfg n) T → ¬ b ⊆ T

/-- `done_ck`. -/
theorem poll_ok {cfg : SynCfg σ τ ρ} {n : ℕ} (hm : Honest cfg n) {F : CFam} {g : SynG ρ} (hV : VOk cfg n F g) :
    VOk cfg n F (pollG cfg g).1 ∧ (g.stop = true → pollG cfg g = (g, true)) ∧
      (pollG cfg g).1.stop = (pollG cfg g).2 := by
  have key : ∀ (l : List (Finset ℕ)) (fam : CFam), (∀ b ∈ l, ∀ T, Solves (taskOf cfg n) T → ¬ b ⊆ T) →
      Valid cfg n fam → Past F fam → Valid cfg n (l.foldl (fun f b => cfg.learn b f) fam) ∧
        Past F (l.foldl (fun f b => cfg.learn b f) fam) := by
    intro l
    induction l with
    | nil => intro fam _ h1 h2; exact ⟨h1, h2⟩
    | cons b l ih =>
      intro fam hl h1 h2
      exact ih _ (fun c hc => hl c (List.mem_cons_of_mem _ hc)) (h1.learn (hl b (List.mem_cons_self ..))) (h2.learn cfg b)
  unfold pollG
  by_cases hs : g.stop = true
  · rw [if_pos hs]
    exact ⟨hV, fun _ => rfl, hs⟩
  · rw [if_neg hs]
    obtain ⟨h1, h2⟩ := key _ g.fam (hm g.rng) hV.valid hV.past
    exact ⟨⟨hV.opt, h1, h2, fun h => h _⟩, fun h => absurd h hs, rfl⟩

/-- `RedIn` for an instance. -/
def RedOf (cfg : SynCfg σ τ ρ) (i : ℕ) (x : SInst (SRest σ)) (a : ℕ) : Prop := RedIn cfg i x.actions.toFinset a

/-- The solutions of the problem. -/
abbrev SolOf (cfg : SynCfg σ τ ρ) (n : ℕ) (T : Finset ℕ) : Prop := Solves (taskOf cfg n) T

/-- The covered case of the synthesizer. -/
structure Plain (cfg : SynCfg σ τ ρ) (n : ℕ) : Prop where
  sys : ∀ i < n, PlainSys cfg i
  fast : cfg.fast = false

theorem fits_iff {cfg : SynCfg σ τ ρ} {base : List (SInst (SRest σ))} {T : Finset ℕ} {i : ℕ} {acts : List ℕ} {np : Bool}
    {st : SynSt (σ i)} : FitsInst (synEnv cfg base) (RedOf cfg) T i ⟨acts, np, ⟨i, st⟩⟩ ↔
      Fit cfg i T acts.toFinset st.cands := by
  unfold FitsInst Fit RedOf synEnv
  simp only [List.mem_toFinset]
  constructor
  · rintro ⟨h1, h2⟩; exact ⟨fun a ha => h1 a (List.mem_toFinset.1 ha), h2⟩
  · rintro ⟨h1, h2⟩; exact ⟨fun a ha => h1 (List.mem_toFinset.2 ha), h2⟩

/-- The call of `revise_actions_alone` for instance `i`. -/
theorem aloneAll_eq (cfg : SynCfg σ τ ρ) {g g' : SynG ρ} {i : ℕ} {L : List (SInst (SRest σ))} {acts : List ℕ} {np : Bool}
    {st : SynSt (σ i)} (hx : L[i]? = some ⟨acts, np, ⟨i, st⟩⟩) (A D : Finset ℕ) (hp : pollG cfg g = (g', false)) :
    aloneAll cfg g 0 i L A D =
      ({ g' with fam := (aloneOne cfg i g'.fam acts np { st with nlayers := 0 } A D).1 },
        (aloneOne cfg i g'.fam acts np { st with nlayers := 0 } A D).2.res ⟨acts, np, ⟨i, st⟩⟩) := by
  unfold aloneAll
  have : layerLimit 0 i L = some (0, true) := by unfold layerLimit; simp
  simp only [hx, this, hp]

theorem aloneAll_stop (cfg : SynCfg σ τ ρ) {g g' : SynG ρ} {i : ℕ} {L : List (SInst (SRest σ))} {x : SInst (SRest σ)}
    (hx : L[i]? = some x) (A D : Finset ℕ) (hp : pollG cfg g = (g', true)) :
    aloneAll cfg g 0 i L A D = (g', .fail x) := by
  unfold aloneAll
  have : layerLimit 0 i L = some (0, true) := by unfold layerLimit; simp
  simp only [hx, this, hp]

theorem synCert {cfg : SynCfg σ τ ρ} {n : ℕ} (hP : Plain cfg n) (hm : Honest cfg n) (G : Finset ℕ) (F : CFam)
    (base : List (SInst (SRest σ))) :
    RevCert (synEnv cfg base) (SolOf cfg n) (VOk cfg n F) (fun g => g.stop = true) (WOk cfg n G) (WDone cfg n G F)
      (RedOf cfg) (MayAdd cfg n) := by
  have key : ∀ (g : SynG ρ) (i : ℕ) (L : List (SInst (SRest σ))) (x : SInst (SRest σ)) (A D : Finset ℕ), VOk cfg n F g →
      L[i]? = some x → WOk cfg n G i x → (∀ e ∈ A, MayAdd cfg n e) →
      (∃ g', VOk cfg n F g' ∧ g'.stop = true ∧ (synEnv cfg base).alone g 0 i L A D = (g', .fail x)) ∨
      ∃ (g' : SynG ρ) (acts : List ℕ) (np : Bool) (st : SynSt (σ i)), VOk cfg n F g' ∧
        x = ⟨acts, np, ⟨i, st⟩⟩ ∧ acts.Nodup ∧
        VOk cfg n F { g' with fam := (aloneOne cfg i g'.fam acts np { st with nlayers := 0 } A D).1 } ∧
        AloneOk cfg n G i acts np { st with nlayers := 0 } A D
          (aloneOne cfg i g'.fam acts np { st with nlayers := 0 } A D).2 ∧
        (∀ st' A' D' R', (aloneOne cfg i g'.fam acts np { st with nlayers := 0 } A D).2 = .ok st' A' D' R' →
          np = false → ¬ Knows F (addActs acts A).toFinset) ∧
        (synEnv cfg base).alone g 0 i L A D =
      ({ g' with fam := (aloneOne cfg i g'.fam acts np { st with nlayers := 0 } A D).1 },
        (aloneOne cfg i g'.fam acts np { st with nlayers := 0 } A D).2.res ⟨acts, np, ⟨i, st⟩⟩) := by
    intro g i L x A D hV hx hW hA
    obtain ⟨p1, -, p3⟩ := poll_ok hm hV
    rcases hp : pollG cfg g with ⟨g', b⟩
    rw [hp] at p1 p3
    rcases b with _ | _
    swap
    · exact .inl ⟨g', p1, p3, aloneAll_stop cfg hx A D hp⟩
    right
    obtain ⟨acts, np, rest⟩ := x
    obtain ⟨st, h1, h2⟩ := hW
    simp only at h1 h2
    subst h1
    have h := alone_ok (hP.sys i h2.lt) hP.fast p1.valid (st := { st with nlayers := 0 }) (D := D)
      ⟨h2.lt, h2.nodup, h2.cnodup, h2.act, h2.sup, h2.loF, h2.lo, h2.hiInv, h2.low, h2.up⟩ rfl hA
    refine ⟨g', acts, np, st, p1, rfl, h2.nodup, ⟨p1.opt, h.1, ?_, p1.calm⟩, h.2, ?_, aloneAll_eq cfg hx A D hp⟩
    · simp only
      rcases aloneOne_fam cfg i g'.fam acts np { st with nlayers := 0 } A D with e | ⟨s, e⟩
      · rw [e]; exact p1.past
      · rw [e]; exact p1.past.learn cfg s
    · rintro st' A' D' R' he rfl hk
      exact aloneOne_free he (p1.past.mono _ hk)
  refine ⟨fun g h => h.opt, fun _ _ => rfl, ?_, ?_, ?_, ?_, ?_⟩
  · rintro i x ⟨st, h1, h2, _⟩; exact ⟨st, h1, h2.toInstOk⟩
  · rintro i x ⟨st, h1, h2⟩; exact h2.nodup
  · intro g i L x A D hV hx hW hA g1 h
    rcases key g i L x A D hV hx hW hA with ⟨g', h1, h2, h3⟩ | ⟨g', acts, np, st, -, rfl, hnd, h1, h2, -, h3⟩
    · rw [h3] at h; simp at h
    rw [h3] at h
    revert h2 h
    generalize (aloneOne cfg i g'.fam acts np { st with nlayers := 0 } A D).2 = r
    intro h h2
    rcases r with _ | _ | ⟨st', A', D', R'⟩
    · exact h2
    · simp [AOne.res] at h
    · simp [AOne.res] at h
  · intro g i L x A D hV hx hW hA g1 y h
    rcases key g i L x A D hV hx hW hA with ⟨g', h1, h2, h3⟩ | ⟨g', acts, np, st, -, rfl, hnd, h1, h2, -, h3⟩
    · rw [h3] at h
      simp only [Prod.mk.injEq, AloneRes.fail.injEq] at h
      obtain ⟨rfl, rfl⟩ := h
      exact ⟨h1, hW, .inl h2⟩
    rw [h3] at h
    revert h1 h2 h
    generalize (aloneOne cfg i g'.fam acts np { st with nlayers := 0 } A D).2 = r
    intro h h1 h2
    rcases r with _ | _ | ⟨st', A', D', R'⟩
    · exact h2.elim
    · simp only [AOne.res, Prod.mk.injEq, AloneRes.fail.injEq] at h
      obtain ⟨rfl, rfl⟩ := h
      exact ⟨h1, hW, .inr fun T hT hF hAT hD => h2 T hT ((fits_iff (np := np) (st := st) (base := base)).1 hF) hAT hD⟩
    · simp [AOne.res] at h
  · intro g i L x A D hV hx hW hA g1 r A' D' R' h
    rcases key g i L x A D hV hx hW hA with ⟨g', h1, h2, h3⟩ | ⟨g', acts, np, st, -, rfl, hnd, h1, h2, h4, h3⟩
    · rw [h3] at h; simp at h
    rw [h3] at h
    revert h1 h2 h4 h
    generalize (aloneOne cfg i g'.fam acts np { st with nlayers := 0 } A D).2 = r'
    intro h h1 h2 h4
    have hact := (addActs_spec acts A hnd).2
    rcases r' with _ | _ | ⟨st', A'', D'', R''⟩
    · exact h2.elim
    · simp [AOne.res] at h
    · simp only [AOne.res, Prod.mk.injEq, AloneRes.ok.injEq] at h
      obtain ⟨rfl, rfl, rfl, rfl, rfl⟩ := h
      obtain ⟨e1, e2, e3, e4, e5, e6, e7⟩ := h2
      refine ⟨h1, ⟨st', rfl, e1, h4 _ _ _ _ rfl⟩, e2, ?_, e3, e4, e5, ?_, ?_⟩
      · intro a ha
        exact RedIn.mono ha (by simp only [hact]; exact Finset.subset_union_left)
      · intro a ha
        unfold RedOf
        simp only [hact]
        exact e6 a ha
      · intro T hT hF hAT hD
        obtain ⟨q1, q2, q3, q4⟩ := e7 T hT ((fits_iff (np := np) (st := st) (base := base)).1 hF) hAT hD
        refine ⟨fits_iff.2 (by rw [hact]; exact q1), q2, q3, ?_⟩
        unfold RedOf
        simp only [hact]
        exact q4

/-! ### Initial conflicts, small conflicts -/

/-- Solutions can be found from the base. -/
structure BaseFit (cfg : SynCfg σ τ ρ) (n : ℕ) (G : Finset ℕ) (base : List (SInst (SRest σ))) : Prop where
  len : base.length = n
  w : ∀ (i : ℕ) (x : SInst (SRest σ)), base[i]? = some x → WOk cfg n G i x
  same : SameActs base
  act : ∀ (i : ℕ) (x : SInst (SRest σ)), base[i]? = some x → ∀ e ∈ x.rest.2.cands, MayAdd cfg n e
  fits : ∀ T, SolOf cfg n T → FitsAll (synEnv cfg base) (RedOf cfg) T base

theorem smallBase_get {cfg : SynCfg σ τ ρ} {base : List (SInst (SRest σ))} {i : ℕ} {x : SInst (SRest σ)}
    (h : (smallBase cfg base)[i]? = some x) : ∃ y, base[i]? = some y ∧ x.actions = y.actions ∧ x.rest = y.rest ∧
      (x.noPartial = false → y.noPartial = false) := by
  unfold smallBase at h
  simp only [List.getElem?_map, Option.map_eq_some_iff] at h
  obtain ⟨y, hy, rfl⟩ := h
  refine ⟨y, hy, rfl, rfl, ?_⟩
  simp only [Bool.or_eq_false_iff]
  exact fun h => h.1

theorem candSum_total (cfg : SynCfg σ τ ρ) (base : List (SInst (SRest σ))) :
    ∀ L : List (SInst (SRest σ)), candSum (synEnv cfg base) L ≤ candTotal L := by
  intro L
  unfold candSum candTotal
  induction L with
  | nil => simp
  | cons x L ih =>
    rw [List.length_cons, Finset.sum_range_succ', List.map_cons, List.sum_cons]
    simp only [List.getElem?_cons_succ, List.getElem?_cons_zero]
    have : (candSet (synEnv cfg base) x).card ≤ x.rest.2.cands.length := List.toFinset_card_le _
    omega

theorem candSum_le {cfg : SynCfg σ τ ρ} (base : List (SInst (SRest σ))) :
    candSum (synEnv cfg base) (smallBase cfg base) ≤ candTotal base := by
  refine (candSum_total cfg base _).trans (le_of_eq ?_)
  unfold candTotal smallBase
  rw [List.map_map]
  rfl

theorem smallLoop_ok {cfg : SynCfg σ τ ρ} {n : ℕ} (hP : Plain cfg n) (hm : Honest cfg n) (hn : n ≤ 2) {G : Finset ℕ}
    {base : List (SInst (SRest σ))} (hb : BaseFit cfg n G base) {F : CFam} : ∀ (L : List ℕ) (st : SynG ρ × Finset ℕ),
    (∀ p ∈ L, MayAdd cfg n p) → VOk cfg n F st.1 → (∀ T, SolOf cfg n T → ¬ st.2 ⊆ T) →
    (∀ e ∈ st.2, MayAdd cfg n e) → VOk cfg n F (smallLoop cfg base L st) := by
  intro L
  induction L with
  | nil => intro st _ hV _ _; exact hV
  | cons p L ih =>
    intro st hL hV hS hA
    have hp := hL p (List.mem_cons_self ..)
    have hL' : ∀ q ∈ L, MayAdd cfg n q := fun q hq => hL q (List.mem_cons_of_mem _ hq)
    obtain ⟨g', ok, ps', m, h1, h2, -, -, h5, -⟩ := revActions (synCert hP hm G F base) (g := st.1)
      (ps := ⟨0, [], smallBase cfg base⟩) (A := st.2.erase p) (D := {p})
      (by simp only [smallBase, List.length_map, hb.len]; exact hn) hV (by
        intro i x hx
        obtain ⟨y, hy, e1, e2, e3⟩ := smallBase_get hx
        obtain ⟨st, q1, q2⟩ := hb.w i y hy
        refine ⟨st, e2.trans q1, ?_⟩
        rw [e1]
        exact ⟨q2.lt, q2.nodup, q2.cnodup, q2.act, q2.sup, q2.loF, fun h => q2.lo (e3 h), fun h => q2.hiInv (e3 h),
          fun h => q2.low (e3 h), fun h => q2.up (e3 h)⟩) (by
        obtain ⟨S, hS⟩ := hb.same
        refine ⟨S, fun x hx => ?_⟩
        obtain ⟨i, hi⟩ := List.getElem?_of_mem hx
        obtain ⟨y, hy, e1, _⟩ := smallBase_get hi
        rw [e1]
        exact hS y (List.mem_of_getElem? hy)) (fun e he => hA e (Finset.mem_of_mem_erase he)) (by
        intro i x hx e he
        obtain ⟨y, hy, e1, e2, e3⟩ := smallBase_get hx
        refine hb.act i y hy e ?_
        rw [← e2]
        exact List.mem_toFinset.1 (Finset.mem_sdiff.1 he).1)
      (fuel := candTotal base + 1) (Nat.lt_succ_of_le (candSum_le base))
    unfold smallLoop
    simp only [h1]
    rcases ok with _ | _
    · simp only
      obtain ⟨-, hno'⟩ := h5 rfl
      obtain ⟨p1, p2, p3⟩ := poll_ok hm h2
      rcases hpl : pollG cfg g' with ⟨g2, b⟩
      rw [hpl] at p1 p2 p3
      rcases b with _ | _
      swap
      · exact p1
      have hns : ¬ g'.stop = true := fun h => by
        have := p2 h
        simp at this
      have hno : ∀ T, SolOf cfg n T → ¬ st.2.erase p ⊆ T := by
        intro T hT hsub
        by_cases hpT : p ∈ T
        · apply hS T hT
          intro a ha
          by_cases h : a = p
          · rw [h]; exact hpT
          · exact hsub (Finset.mem_erase.2 ⟨h, ha⟩)
        · refine hno'.resolve_left hns T hT ?_ hsub (by simpa using hpT)
          intro i x hx
          obtain ⟨y, hy, e1, e2, _⟩ := smallBase_get hx
          have := hb.fits T hT i y hy
          unfold FitsInst RedOf at this ⊢
          rw [e1, e2]; exact this
      exact ih _ hL' (p1.learn hno) hno fun e he => hA e (Finset.mem_of_mem_erase he)
    · refine ih _ hL' h2 (fun T hT hsub => hS T hT ?_) ?_
      · intro a ha
        by_cases h : a = p
        · rw [h]; exact hsub (Finset.mem_insert_self _ _)
        · exact hsub (Finset.mem_insert_of_mem (Finset.mem_erase.2 ⟨h, ha⟩))
      · intro e he
        rcases Finset.mem_insert.1 he with rfl | he
        · exact hp
        · exact hA e (Finset.mem_of_mem_erase he)

theorem smallSet_ok {cfg : SynCfg σ τ ρ} {n : ℕ} (hP : Plain cfg n) (hm : Honest cfg n) (hn : n ≤ 2) {G : Finset ℕ}
    {base : List (SInst (SRest σ))} (hb : BaseFit cfg n G base) {F : CFam} {g : SynG ρ} {ps : PSyn (SRest σ)}
    (hV : VOk cfg n F g) (hA : ∀ p ∈ ps.picks, MayAdd cfg n p)
    (hS : g.stop = true ∨ ∀ T, SolOf cfg n T → ps.picks.toFinset ⊆ T → False) :
    VOk cfg n F (smallSet cfg base ps g) ∧ (g.stop = true → (smallSet cfg base ps g).stop = true) ∧
      (cfg.maxConflictSz = 0 → (∃ x ∈ ps.insts, cfg.noConflict x.rest.1 = false) →
        (smallSet cfg base ps g).stop = true ∨ Knows (smallSet cfg base ps g).fam ps.picks.toFinset) := by
  unfold smallSet
  obtain ⟨p1, p2, p3⟩ := poll_ok hm hV
  rcases hpl : pollG cfg g with ⟨g2, b⟩
  rw [hpl] at p1 p2 p3
  rcases b with _ | _
  swap
  · exact ⟨p1, fun _ => p3, fun _ _ => .inl p3⟩
  have hns : ¬ g.stop = true := fun h => by
    have := p2 h
    simp at this
  have hS' := hS.resolve_left hns
  simp only
  split
  · rename_i hall
    refine ⟨p1, fun h => absurd h hns, ?_⟩
    rintro - ⟨x, hx, hc⟩
    rw [List.all_eq_true] at hall
    rw [hall x hx] at hc
    cases hc
  split
  · rename_i hsz
    exact ⟨p1, fun h => absurd h hns, fun h => by omega⟩
  split
  · rename_i hk
    rw [Bool.and_eq_true] at hk
    exact ⟨p1, fun h => absurd h hns, fun _ _ => .inr (conflictCk_iff.1 hk.1)⟩
  have hV' : VOk cfg n F { g2 with fam := cfg.learn ps.picks.toFinset g2.fam } := p1.learn hS'
  have hk : Knows (cfg.learn ps.picks.toFinset g2.fam) ps.picks.toFinset :=
    (addConflict_knows _).2 (.inr (Finset.Subset.refl _))
  split
  · exact ⟨hV', fun h => absurd h hns, fun _ _ => .inr hk⟩
  have hacts : ∀ e ∈ ps.picks.toFinset, MayAdd cfg n e := fun e he => hA e (List.mem_toFinset.1 he)
  refine ⟨smallLoop_ok hP hm hn hb _ _ hA hV' hS' hacts, fun h => absurd h hns, fun _ _ => .inr ?_⟩
  exact (smallLoop_ok hP hm hn hb _ _ hA hV'.self hS' hacts).past.mono _ hk

/-! ### The search -/

/-- The actions of an instance without deadlocks meet the requirements. -/
theorem done_meets {cfg : SynCfg σ τ ρ} {n : ℕ} {G : Finset ℕ} {i : ℕ} (hP : PlainSys cfg i) {acts : List ℕ}
    {st : SynSt (σ i)} (h : InstDone cfg n G i acts false st) (hd : st.deadlock = ∅) :
    Meets ((taskOf cfg n).demand i) (cfg.union i acts.toFinset) := by
  have hlo := h.lo rfl
  have hA : Closed st.lo (cfg.sys i).closedAssume := by
    rw [hlo]; exact closed_union h.lt fun a ha => h.act a (List.mem_toFinset.1 ha)
  have hp := h.passed rfl
  have hdom : need cfg i ⊆ dom st.lo := by
    rw [← Finset.sdiff_eq_empty_iff_subset, ← h.dl rfl, hd]
  rw [← hlo]
  refine ⟨⟨hP.legit, Finset.inter_subset_right, hA, hp.closed, fun e he h0 => ?_⟩, ?_, ?_, ?_⟩
  · refine converge_of hA hp.closed (fun s h1 h2 => hdom ?_) (fun s h1 h2 => ?_) he h0
    · exact (mem_need (n := n)).2 ⟨h1, .inl h2⟩
    · exact Finset.mem_inter.2 ⟨hp.scc (mem_sccOf_of_cycle h1 h2), h1⟩
  · intro s hs hss
    rw [hlo] at hss
    obtain ⟨a, ha, h1⟩ := mem_union.1 hss
    exact ((h.act a (List.mem_toFinset.1 ha)).2 i h.lt).2 s hs h1
  · intro hb e he h0
    obtain ⟨m, _, hm⟩ := recurrent (k := 0) (fun n _ => he n)
    have hmA := maxExec_closed hA (fun n => Or.inl (he n)) h0 m (Nat.zero_le _)
    have := mem_sccOf_of_cycle hmA hm
    rw [hp.silent hb] at this
    simp at this
  · intro s hs hdl
    obtain ⟨t, ht⟩ := mem_dom.1 (hdom (mem_need.2 hs))
    exact hdl t ht

theorem stab_done {cfg : SynCfg σ τ ρ} {n i : ℕ} (hP : PlainSys cfg i) {acts : List ℕ}
    (h : Meets ((taskOf cfg n).demand i) (cfg.union i acts.toFinset)) :
    (stabRes cfg i acts).ok = true ∧ 0 < (stabRes cfg i acts).nlayers := by
  obtain ⟨I, k, hk⟩ := (C12_direct_accept_iff (cfg.sys i) hP.ident hP.prob hP.direct hP.scope (cfg.opt i) hP.uniring
    hP.layers (cfg.union i acts.toFinset) [] (stFuel σ i) (by unfold stFuel; omega)).2
    ⟨h.stab, h.noSelf, fun hc => absurd hP.style hc, h.quiet, fun hc => by
      rcases hc with hc | hc
      · exact absurd hc hP.behav
      · rw [hP.style] at hc; cases hc⟩
  obtain ⟨⟨k0, _, _, rfl, _⟩, _⟩ := (accepted hP.ident hP.prob hP.uniring (by unfold stFuel; omega)).1 hk
  unfold stabRes
  simp only [hk]
  exact ⟨trivial, Nat.succ_pos _⟩

/-- The choice of the next action: if some instance has a candidate, and `mcv_deadlocks` is up to date in all
instances that are not only verified, then some candidate is picked. -/
def PicksCand (cfg : SynCfg σ τ ρ) : Prop :=
  ∀ rng fam ps, (∀ x ∈ ps.insts, x.rest.2.cands.Nodup ∧ (x.noPartial = false →
      x.rest.2.mcv = rankDeadlocksMRV (fun a => dom (cfg.actXn x.rest.1 a)) x.rest.2.cands x.rest.2.deadlock)) →
    (∃ x ∈ ps.insts, x.rest.2.cands ≠ []) →
    ∃ a, (cfg.pickMRV rng fam ps).2 = some a ∧ ∃ x ∈ ps.insts, a ∈ x.rest.2.cands

theorem findCert {cfg : SynCfg σ τ ρ} {n : ℕ} (hP : Plain cfg n) (hm : Honest cfg n) (hn : n ≤ 2) {G : Finset ℕ}
    {base : List (SInst (SRest σ))} (hb : BaseFit cfg n G base) (hpick : PicksCand cfg) (hv : cfg.verifyFound = true)
    (F : CFam) :
    FindCert (fullEnv cfg base) (SolOf cfg n) (VOk cfg n F) (fun g => g.stop = true)
      (fun i x => WOk cfg n G i x ∧ x.noPartial = false)
      (fun i x => WDone cfg n G F i x ∧ x.noPartial = false) (RedOf cfg) (MayAdd cfg n) := by
  have C := synCert hP hm G F base
  refine ⟨⟨C.optimal, C.changes, fun i x h => ⟨C.weaken i x h.1, h.2⟩, fun i x h => C.nodup i x h.1,
    fun g i L x A D h1 h2 h3 => C.noabort g i L x A D h1 h2 h3.1, ?_, ?_⟩, ?_, hv,
    fun _ _ h => h.2, ?_, fun g ps h1 h2 h3 => (smallSet_ok hP hm hn hb h1 h2 h3).1, ?_, ?_, ?_, ?_⟩
  · intro g i L x A D h1 h2 h3 h4 g' y h5
    obtain ⟨q1, q2, q3⟩ := C.fails g i L x A D h1 h2 h3.1 h4 g' y h5
    refine ⟨q1, ⟨q2, ?_⟩, q3⟩
    have hy : y = x := by
      have h5 : aloneAll cfg g 0 i L A D = (g', .fail y) := h5
      rcases hp : pollG cfg g with ⟨g2, b⟩
      rcases b with _ | _
      · obtain ⟨acts, np, rest⟩ := x
        obtain ⟨⟨st, e1, e2⟩, -⟩ := h3
        simp only at e1
        subst e1
        rw [aloneAll_eq cfg h2 A D hp] at h5
        revert h5
        generalize (aloneOne cfg i g2.fam acts np { st with nlayers := 0 } A D).2 = r
        intro h5
        rcases r with _ | _ | ⟨st', A', D', R'⟩
        · simp [AOne.res] at h5
        · simp only [AOne.res, Prod.mk.injEq, AloneRes.fail.injEq] at h5
          exact h5.2.symm
        · simp [AOne.res] at h5
      · rw [aloneAll_stop cfg h2 A D hp] at h5
        simp only [Prod.mk.injEq, AloneRes.fail.injEq] at h5
        exact h5.2.symm
    rw [hy]; exact h3.2
  · intro g i L x A D h1 h2 h3 h4 g' r A' D' R' h5
    obtain ⟨q1, q2, q3⟩ := C.oks g i L x A D h1 h2 h3.1 h4 g' r A' D' R' h5
    exact ⟨q1, ⟨q2, h3.2⟩, q3⟩
  · intro g hV
    obtain ⟨p1, p2, p3⟩ := poll_ok hm hV
    exact ⟨p1, fun h => by
      show (pollG cfg g).2 = true
      rw [p2 h], fun h => p3.trans h⟩
  · intro g ps hV hw hdl
    unfold deadlocksCk at hdl
    rw [List.any_eq_true] at hdl
    obtain ⟨x, hx, hdx⟩ := hdl
    obtain ⟨i, hi⟩ := List.getElem?_of_mem hx
    obtain ⟨⟨st, h1, h2, -⟩, h3⟩ := hw i x hi
    have hne : x.rest.2.cands ≠ [] := by
      simp only [fullEnv, synEnv, decide_eq_true_eq] at hdx
      rw [h1] at hdx ⊢
      exact h2.open_ h3 hdx
    obtain ⟨a, ha1, ha2⟩ := hpick g.rng g.fam ps (fun y hy => by
      obtain ⟨j, hj⟩ := List.getElem?_of_mem hy
      obtain ⟨⟨st', q1, q2, -⟩, q3⟩ := hw j y hj
      rw [q1]
      exact ⟨q2.cnodup, fun h => q2.mcv h⟩) ⟨x, hx, hne⟩
    refine ⟨{ g with rng := (cfg.pickMRV g.rng g.fam ps).1 }, a, ?_, ⟨hV.opt, hV.valid, hV.past, hV.calm⟩, ha2⟩
    simp only [fullEnv, synEnv, ← ha1]
  · intro g ps hs
    show (smallSet cfg base ps g).stop = true
    unfold smallSet pollG
    rw [if_pos hs]
    exact hs
  · intro g l hV hc T hT hsub
    exact hV.valid.sub hsub hT hc
  · intro g hV hno
    exact hV.learn fun T hT => absurd hT (hno T)
  · rintro i ⟨acts, np, rest⟩ ⟨⟨st, h1, h2, -⟩, h3⟩ hdl
    simp only at h1 h2 h3
    subst h1 h3
    simp only [fullEnv, synEnv, decide_eq_false_iff_not, Finset.not_nonempty_iff_eq_empty] at hdl
    exact stab_done (hP.sys i h2.lt) (done_meets (hP.sys i h2.lt) h2 hdl)

/-- What a call of `AddStabilization` may answer when the conflicts `F` are known at its start. -/
def TrialOk (cfg : SynCfg σ τ ρ) (n : ℕ) (G : Finset ℕ) (F : CFam) : Option (AddOut (SynG ρ)) → Prop
  | none => False
  | some (.fail g) => VOk cfg n F g ∧ (g.stop = true ∨ 0 < cfg.maxDepth ∨
      ((∀ T, ¬ SolOf cfg n T) ∧ Knows g.fam ∅) ∨
      ((cfg.maxHeight = 0 → ∀ T, ¬ SolOf cfg n T) ∧
        (cfg.maxConflictSz = 0 → (∃ i < n, cfg.noConflict i = false) →
          ∃ S, (∀ e ∈ S, MayAdd cfg n e) ∧ ¬ Knows F S ∧ Knows g.fam S)))
  | some (.found g acts) => 0 < g.optimal ∧ Valid cfg n g.fam ∧ Past F g.fam ∧ acts.Nodup ∧ G ⊆ acts.toFinset ∧
      (∀ i < n, Meets ((taskOf cfg n).demand i) (acts.toFinset.biUnion (cfg.actXn i))) ∧
      ¬ Knows F acts.toFinset ∧ (∀ a ∈ acts, MayAdd cfg n a) ∧
      ((∀ r, (cfg.tick r).2.2 = false) → g.stop = false)

theorem trial_ok {cfg : SynCfg σ τ ρ} {n : ℕ} (hP : Plain cfg n) (hm : Honest cfg n) (h1 : 1 ≤ n) (hn : n ≤ 2)
    {G : Finset ℕ} {ps : PSyn (SRest σ)} (hb : BaseFit cfg n G ps.insts)
    (hw : ∀ (i : ℕ) (x : SInst (SRest σ)), ps.insts[i]? = some x → WDone cfg n G CFam.empty i x ∧ x.noPartial = false)
    (hpick : PicksCand cfg) (hv : cfg.verifyFound = true) {g : SynG ρ} (hV : VOk cfg n g.fam g) (hp : ps.picks = [])
    {fuel : ℕ} (hfuel : 3 ^ candSum (fullEnv cfg ps.insts) ps.insts + 1 < fuel) :
    TrialOk cfg n G g.fam (addStabilization (fullEnv cfg ps.insts) fuel g ps) := by
  have C := findCert hP hm hn hb hpick hv g.fam
  obtain ⟨x0, hx0⟩ : ∃ x, ps.insts[0]? = some x :=
    ⟨_, List.getElem?_eq_getElem (by rw [hb.len]; omega)⟩
  obtain ⟨l0, hl0⟩ : ∃ l, ps.insts = x0 :: l := by
    rcases hl : ps.insts with _ | ⟨y, l⟩
    · rw [hl] at hx0; simp at hx0
    · rw [hl] at hx0; simp at hx0; exact ⟨l, by rw [hx0]⟩
  by_cases hc : conflictCk g.fam x0.actions.toFinset = true
  · -- the base is already in conflict
    have hnone : ∀ T, ¬ SolOf cfg n T := by
      intro T hT
      refine hV.valid.sub ?_ hT hc
      intro e he
      exact (hb.fits T hT 0 x0 hx0).1 e (List.mem_toFinset.1 he)
    have : addStabilization (fullEnv cfg ps.insts) fuel g ps =
        some (.fail ((fullEnv cfg ps.insts).addConflict [] g)) := by
      unfold addStabilization
      simp only [hl0]
      exact if_pos hc
    rw [this]
    refine ⟨C.none g hV hnone, .inr (.inr (.inl ⟨hnone, ?_⟩))⟩
    exact (addConflict_knows _).2 (.inr (by simp))
  · obtain ⟨S0, hS0⟩ := hb.same
    have hnode : NodeOk (fullEnv cfg ps.insts) (SolOf cfg n) (fun i x => WDone cfg n G g.fam i x ∧ x.noPartial = false)
        (RedOf cfg) (MayAdd cfg n) n ps := by
      refine ⟨hb.len, fun i x hx => ?_, hb.same, hb.act, fun T hT _ => hb.fits T hT, fun x _ => by rw [hp]; simp⟩
      obtain ⟨⟨st, q1, q2, -⟩, q3⟩ := hw i x hx
      refine ⟨⟨st, q1, q2, fun _ => ?_⟩, q3⟩
      rw [hS0 x (List.mem_of_getElem? hx), ← hS0 x0 (List.mem_of_getElem? hx0), ← conflictCk_iff]
      exact hc
    have hend := find_spec C h1 hn (g := g) (ps := ps) hV hnode hp (fuel := fuel) hfuel
    revert hend
    generalize addStabilization (fullEnv cfg ps.insts) fuel g ps = res
    intro hend
    rcases res with _ | ⟨g2 | ⟨g2, acts⟩⟩
    · exact hend
    · refine ⟨hend.1, ?_⟩
      rcases hend.2 with h | h | ⟨g0, -, rfl, h⟩ | ⟨g0, ps2, q, v1, v2, rfl, v3, v4, v5, v6, v7⟩
      · exact .inl h
      · exact .inr (.inl h)
      · exact .inr (.inr (.inl ⟨h, (addConflict_knows _).2 (.inr (by simp))⟩))
      · obtain ⟨y, hy⟩ : ∃ y, q.insts[0]? = some y := ⟨_, List.getElem?_eq_getElem (by rw [v4.len]; omega)⟩
        obtain ⟨⟨st, y1, y2, y3⟩, y4⟩ := v4.w 0 y hy
        have hsub := v4.picked y (List.mem_of_getElem? hy)
        rw [v5] at hsub
        have hacts : ∀ p ∈ ps2.picks, MayAdd cfg n p := fun p hp =>
          y2.act p (List.mem_toFinset.1 (hsub (List.mem_toFinset.2 hp)))
        have hsm := smallSet_ok hP hm hn hb v1 hacts (.inr v6)
        by_cases hmc : cfg.maxConflictSz = 0 ∧ ∃ i < n, cfg.noConflict i = false
        · obtain ⟨hmc, i, hi, hci⟩ := hmc
          obtain ⟨z, hz⟩ : ∃ z, ps2.insts[i]? = some z := ⟨_, List.getElem?_eq_getElem (by rw [v3.1]; exact hi)⟩
          obtain ⟨⟨st', z1, -⟩, -⟩ := v3.2 i z hz
          rcases hsm.2.2 hmc ⟨z, List.mem_of_getElem? hz, by rw [z1]; exact hci⟩ with h | h
          · exact .inl h
          · refine .inr (.inr (.inr ⟨fun hh T hT => v6 T hT (by rw [v7 hh]; simp), fun _ _ => ⟨_, ?_, ?_, h⟩⟩))
            · exact fun e he => hacts e (List.mem_toFinset.1 he)
            · intro hk
              exact y3 y4 (conflictCk_iff.1 (ck_mono hsub (conflictCk_iff.2 hk)))
        · exact .inr (.inr (.inr ⟨fun hh T hT => v6 T hT (by rw [v7 hh]; simp), fun e1 e2 => absurd ⟨e1, e2⟩ hmc⟩))
    · obtain ⟨g0, k, ps2, v1, v2, rfl, v3, v4, x, v5, rfl⟩ := hend
      obtain ⟨S2, hS2⟩ := v3.same
      have hx0 : ps2.insts[0]? = some x := by rw [← List.head?_eq_getElem?]; exact v5
      have hxm := List.mem_of_getElem? hx0
      have hnodl : ∀ y ∈ ps2.insts, y.rest.2.deadlock = ∅ := by
        intro y hy
        unfold deadlocksCk at v4
        rw [List.any_eq_false] at v4
        have := v4 y hy
        simpa [fullEnv, synEnv] using this
      obtain ⟨⟨st0, z0, z1, z2⟩, z3⟩ := v3.w 0 x hx0
      refine ⟨v2, v1.valid, v1.past, z1.nodup, z1.sup, fun i hi => ?_, z2 z3, z1.act, v1.calm⟩
      obtain ⟨y, hy⟩ : ∃ y, ps2.insts[i]? = some y := ⟨_, List.getElem?_eq_getElem (v3.len ▸ hi)⟩
      obtain ⟨⟨st, q1, q2, -⟩, q3⟩ := v3.w i y hy
      have hym := List.mem_of_getElem? hy
      rw [q3] at q2
      have hd := hnodl y hym
      rw [q1] at hd
      have := done_meets (hP.sys i hi) q2 hd
      rw [hS2 y hym, ← hS2 x hxm] at this
      exact this

end Verif.Proofs
