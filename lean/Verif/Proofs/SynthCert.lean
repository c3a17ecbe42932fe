import Verif.Proofs.SynthStab
import Verif.Proofs.Complete
import Verif.Model.Synth
import Verif.Props.Rank
import Verif.Props.Conflict
import Verif.Props.Stab

/-!
Lemmas for property C79: `revise_actions_alone` keeps the contract of Proofs/Revise.
-/

set_option linter.unusedSectionVars false

namespace Verif.Proofs
open Verif.Model Verif.Spec Verif.Props

variable {σ τ : ℕ → Type} [∀ i, Fintype (σ i)] [∀ i, DecidableEq (σ i)] [∀ i, DecidableEq (τ i)] {ρ : Type}

/-- The synthesis problem posed by an input of the synthesizer with `n` systems. -/
def taskOf (cfg : SynCfg σ τ ρ) (n : ℕ) : Task σ where
  n := n
  demand i := ⟨(cfg.sys i).invariant ∩ (cfg.sys i).closedAssume, (cfg.sys i).closedAssume, (cfg.sys i).shadowXn,
    (cfg.sys i).behav = .silent⟩
  act := cfg.actXn
  offered i a := a ∈ cfg.cands i
  given := cfg.given.toFinset
  clash i a b := cfg.trims i a b = true
  banned B := ∃ i < n, (∃ l ∈ cfg.declared i, B = l.toFinset) ∨ ∃ a ∈ cfg.rejs i, B = {a}

/-- The states of system `i` in which the protocol must be able to move. -/
def need (cfg : SynCfg σ τ ρ) (i : ℕ) : Finset (σ i) :=
  ((cfg.sys i).invariantᶜ ∪ dom (cfg.sys i).shadowXn) ∩ (cfg.sys i).closedAssume

theorem mem_need {cfg : SynCfg σ τ ρ} {n i : ℕ} {s : σ i} : s ∈ need cfg i ↔ ((taskOf cfg n).demand i).Must s := by
  unfold need taskOf Demand.Must
  simp only [Finset.mem_inter, Finset.mem_union, Finset.mem_compl, mem_dom, Step]
  constructor
  · rintro ⟨h | h, hA⟩
    · exact ⟨hA, .inl fun h' => h h'.1⟩
    · exact ⟨hA, .inr h⟩
  · rintro ⟨hA, h | h⟩
    · exact ⟨.inl fun h' => h ⟨h', hA⟩, hA⟩
    · exact ⟨.inr h, hA⟩

/-- The action stays in the considered states and has no self-loop there. -/
def Harmless (cfg : SynCfg σ τ ρ) (n : ℕ) (a : ℕ) : Prop :=
  ∀ i < n, Closed (cfg.actXn i a) (cfg.sys i).closedAssume ∧
    ∀ s ∈ (cfg.sys i).closedAssume, ¬ Step (cfg.actXn i a) s s

/-- An action may be added: it is given or a candidate of some system, and it is harmless. -/
def MayAdd (cfg : SynCfg σ τ ρ) (n : ℕ) (a : ℕ) : Prop :=
  (a ∈ cfg.given ∨ ∃ i < n, a ∈ cfg.cands i) ∧ Harmless cfg n a

/-- The case of the synthesizer that the completeness theorem covers, for system `i`. -/
structure PlainSys (cfg : SynCfg σ τ ρ) (i : ℕ) : Prop where
  ident : ∀ e, e ∈ (cfg.sys i).identXn ↔ e.1 = e.2
  prob : (cfg.sys i).probabilistic = false
  direct : (cfg.sys i).shadowPuppet = false
  scope : (cfg.sys i).scope ≠ .future
  style : (cfg.sys i).style = .closed
  behav : (cfg.sys i).behav ≠ .activeShadow
  uniring : (cfg.opt i).uniring = false
  layers : (cfg.opt i).maxNlayers = 0
  legit : ((cfg.sys i).invariant ∩ (cfg.sys i).closedAssume).Nonempty
  pick : ∀ S : Finset (σ i), S.Nonempty → ∃ s ∈ S, cfg.pick i S = some s
  shadowAct : ∀ a, cfg.shadowAct i a = false

/-- Action `a` is redundant in system `i` beside the actions `S`: they can move wherever it is needed. -/
def RedIn (cfg : SynCfg σ τ ρ) (i : ℕ) (S : Finset ℕ) (a : ℕ) : Prop :=
  ∀ s ∈ need cfg i, s ∈ dom (cfg.actXn i a) → s ∈ dom (cfg.union i S)

/-- The solution `T` can still be found from the actions `S` and the candidates `C`. -/
def Fit (cfg : SynCfg σ τ ρ) (i : ℕ) (T S : Finset ℕ) (C : List ℕ) : Prop :=
  S ⊆ T ∧ ∀ a ∈ T, a ∈ S ∨ a ∈ C ∨ RedIn cfg i S a

theorem mem_union {cfg : SynCfg σ τ ρ} {i : ℕ} {S : Finset ℕ} {e : σ i × σ i} :
    e ∈ cfg.union i S ↔ ∃ a ∈ S, e ∈ cfg.actXn i a := by
  unfold SynCfg.union; rw [Finset.mem_biUnion]

theorem union_mono {cfg : SynCfg σ τ ρ} {i : ℕ} {S T : Finset ℕ} (h : S ⊆ T) : cfg.union i S ⊆ cfg.union i T := by
  intro e he
  obtain ⟨a, ha, h1⟩ := mem_union.1 he
  exact mem_union.2 ⟨a, h ha, h1⟩

theorem union_union {cfg : SynCfg σ τ ρ} {i : ℕ} {S T : Finset ℕ} :
    cfg.union i (S ∪ T) = cfg.union i S ∪ cfg.union i T := by
  unfold SynCfg.union; exact Finset.union_biUnion

theorem dom_sub {S : Type} [Fintype S] [DecidableEq S] {x y : Finset (S × S)} (h : x ⊆ y) : dom x ⊆ dom y := by
  intro s hs
  obtain ⟨t, ht⟩ := mem_dom.1 hs
  exact mem_dom.2 ⟨t, h ht⟩

theorem RedIn.mono {cfg : SynCfg σ τ ρ} {i : ℕ} {S S' : Finset ℕ} {a : ℕ} (h : RedIn cfg i S a) (hS : S ⊆ S') :
    RedIn cfg i S' a := fun s h1 h2 => dom_sub (union_mono hS) (h s h1 h2)

/-- A state that needs a move and has none gets it from a candidate. -/
theorem Fit.resolve {cfg : SynCfg σ τ ρ} {n i : ℕ} (hi : i < n) {T S : Finset ℕ} {C : List ℕ} (hF : Fit cfg i T S C)
    (hT : Solves (taskOf cfg n) T) {s : σ i} (hs : s ∈ need cfg i) (hS : s ∉ dom (cfg.union i S)) :
    ∃ a ∈ C, a ∈ T ∧ s ∈ dom (cfg.actXn i a) := by
  have h1 := (hT.meets i hi).awake s (mem_need.1 hs)
  unfold Deadlock at h1
  push Not at h1
  obtain ⟨t, ht⟩ := h1
  obtain ⟨a, ha, hst⟩ := Finset.mem_biUnion.1 ht
  have hd : s ∈ dom (cfg.actXn i a) := mem_dom.2 ⟨t, hst⟩
  rcases hF.2 a ha with h | h | h
  · exact absurd (mem_dom.2 ⟨t, mem_union.2 ⟨a, h, hst⟩⟩) hS
  · exact ⟨a, h, ha, hd⟩
  · exact absurd (h s hs hd) hS

/-- Leaving the redundant actions out. -/
theorem Fit.part {cfg : SynCfg σ τ ρ} {n i : ℕ} (hi : i < n) {T S : Finset ℕ} {C : List ℕ} (hF : Fit cfg i T S C)
    (hT : Solves (taskOf cfg n) T) :
    ∃ yn, Meets ((taskOf cfg n).demand i) yn ∧ yn ⊆ cfg.union i S ∪ cfg.union i C.toFinset := by
  refine ⟨cfg.union i (T.filter fun a => a ∈ S ∨ a ∈ C), meets_part (hT.meets i hi) ?_ ?_, ?_⟩
  · exact union_mono (Finset.filter_subset _ _)
  · intro s hs hdl
    by_cases hS : s ∈ dom (cfg.union i S)
    · obtain ⟨t, ht⟩ := mem_dom.1 hS
      obtain ⟨a, ha, hst⟩ := mem_union.1 ht
      exact hdl t (mem_union.2 ⟨a, Finset.mem_filter.2 ⟨hF.1 ha, .inl ha⟩, hst⟩)
    · obtain ⟨a, h1, h2, h3⟩ := hF.resolve hi hT (mem_need.2 hs) hS
      obtain ⟨t, ht⟩ := mem_dom.1 h3
      exact hdl t (mem_union.2 ⟨a, Finset.mem_filter.2 ⟨h2, .inr h1⟩, ht⟩)
  · intro e he
    obtain ⟨a, ha, h1⟩ := mem_union.1 he
    rw [Finset.mem_union]
    rcases (Finset.mem_filter.1 ha).2 with h | h
    · exact .inl (mem_union.2 ⟨a, h, h1⟩)
    · exact .inr (mem_union.2 ⟨a, List.mem_toFinset.2 h, h1⟩)

/-- The known conflicts are valid. -/
def Valid (cfg : SynCfg σ τ ρ) (n : ℕ) (fam : CFam) : Prop :=
  ∀ T, Solves (taskOf cfg n) T → conflictCk fam T = false

theorem ck_mono {fam : CFam} {S T : Finset ℕ} (h : S ⊆ T) (hS : conflictCk fam S = true) :
    conflictCk fam T = true := by
  rw [conflictCk_iff] at *
  obtain ⟨a, h1, h2⟩ := hS
  exact ⟨a, h1, h2.trans h⟩

theorem Valid.sub {cfg : SynCfg σ τ ρ} {n : ℕ} {fam : CFam} (h : Valid cfg n fam) {S T : Finset ℕ} (hS : S ⊆ T)
    (hT : Solves (taskOf cfg n) T) : conflictCk fam S ≠ true := by
  intro h'
  have := ck_mono hS h'
  rw [h T hT] at this
  cases this

theorem Valid.learn {cfg : SynCfg σ τ ρ} {n : ℕ} {fam : CFam} (h : Valid cfg n fam) {b : Finset ℕ}
    (hb : ∀ T, Solves (taskOf cfg n) T → ¬ b ⊆ T) : Valid cfg n (cfg.learn b fam) := by
  intro T hT
  rw [Bool.eq_false_iff]
  intro hc
  rcases (C18_add _ _ _ _).1 hc with h' | h'
  · rw [h T hT] at h'; cases h'
  · exact hb T hT h'

theorem Valid.membs {cfg : SynCfg σ τ ρ} {n : ℕ} {fam : CFam} (h : Valid cfg n fam) {S C T : Finset ℕ}
    (hT : Solves (taskOf cfg n) T) (hS : S ⊆ T) :
    (conflictMembs fam ∅ S C).1 = true ∧ ∀ c ∈ (conflictMembs fam ∅ S C).2, c ∉ T := by
  obtain ⟨h1, h2⟩ := C21_conflict_membs fam ∅ S C
  have h3 : (conflictMembs fam ∅ S C).1 = true := by
    by_contra hc
    rw [Bool.not_eq_true] at hc
    exact h.sub hS hT (h1.1 hc)
  refine ⟨h3, fun c hc hcT => ?_⟩
  rcases (h2 h3 c).1 hc with h4 | h4
  · simp at h4
  · exact h.sub (Finset.insert_subset hcT hS) hT h4.2

theorem membs_sub {fam : CFam} {S C : Finset ℕ} (h : (conflictMembs fam ∅ S C).1 = true) :
    (conflictMembs fam ∅ S C).2 ⊆ C := by
  intro c hc
  rcases (((C21_conflict_membs fam ∅ S C).2 h) c).1 hc with h4 | h4
  · simp at h4
  · exact h4.1

/-! ### `check_forward` -/

/-- What `check_forward` and the functions around it may answer, for the actions `S`; `st` is the state of the
instance before the call. -/
def OneOk (cfg : SynCfg σ τ ρ) (n i : ℕ) (S : Finset ℕ) (st : SynSt (σ i)) : AOne (σ i) → Prop
  | .abort => False
  | .fail => ∀ T, Solves (taskOf cfg n) T → Fit cfg i T S st.cands → False
  | .ok st' A' D' R' => st'.lo = st.lo ∧ st'.loF = st.loF ∧ st'.hi = st.hi ∧ st'.hiInv = st.hiInv ∧
    st'.deadlock = st.deadlock ∧
    (st'.cands = st.cands ∨ (st'.cands = [] ∧ st.deadlock = ∅)) ∧
    (st.deadlock.Nonempty → st'.cands ≠ []) ∧
    R' ⊆ D' ∧ A' ⊆ st'.cands.toFinset ∧ R' ⊆ st'.cands.toFinset ∧ (∀ a ∈ A', ¬ RedIn cfg i S a) ∧
    ∀ T, Solves (taskOf cfg n) T → Fit cfg i T S st.cands →
      A' ⊆ T ∧ (∀ d ∈ R', d ∉ T) ∧ ∀ d ∈ D', d ∉ T ∨ RedIn cfg i S d

theorem forward_ok {cfg : SynCfg σ τ ρ} {n i : ℕ} (hi : i < n) (hP : PlainSys cfg i) {fam : CFam}
    (hV : Valid cfg n fam) {S : Finset ℕ} {st : SynSt (σ i)} (hlo : st.lo = cfg.union i S)
    (hdl : st.deadlock = need cfg i \ dom st.lo)
    (hcov : ∀ s ∈ st.deadlock, ∃ c ∈ st.cands, s ∈ dom (cfg.actXn i c))
    (hmcv : st.mcv = rankDeadlocksMRV (fun a => dom (cfg.actXn i a)) st.cands st.deadlock) :
    OneOk cfg n i S st (checkForward cfg i fam S st) := by
  obtain ⟨k1, k2, k3, k4⟩ := C43_rank (fun a => dom (cfg.actXn i a)) st.cands st.deadlock
  rw [← hmcv] at k1 k2 k3 k4
  have hnd : ∀ s ∈ st.deadlock, s ∈ need cfg i ∧ s ∉ dom (cfg.union i S) := by
    intro s hs
    rw [hdl, Finset.mem_sdiff, hlo] at hs; exact hs
  unfold checkForward
  by_cases hsz : st.mcv.sz ≤ 1
  · rw [if_pos hsz]
    have hemp : st.deadlock = ∅ := by
      rw [Finset.eq_empty_iff_forall_notMem]
      intro s hs
      obtain ⟨h1, h2⟩ := (k1 (st.cands.countP fun a => decide (s ∈ dom (cfg.actXn i a))) s).2 ⟨hs, rfl⟩
      obtain ⟨c, hc, hsc⟩ := hcov s hs
      have : 0 < st.cands.countP fun a => decide (s ∈ dom (cfg.actXn i a)) :=
        List.countP_pos_iff.2 ⟨c, hc, by simpa using hsc⟩
      omega
    rw [if_neg (by rw [hemp]; simp)]
    split
    · rename_i hc
      intro T hT hF
      exact hV.sub hF.1 hT hc
    · rename_i hc
      refine ⟨rfl, rfl, rfl, rfl, rfl, .inr ⟨rfl, hemp⟩, ?_, ?_, ?_, ?_, ?_, ?_⟩
      · intro h; rw [hemp] at h; simp at h
      · simp
      · simp
      · simp
      · simp
      · intro T _ _; simp
  · rw [if_neg hsz]
    obtain ⟨s0, hs0⟩ := k4 (by omega)
    have hne : st.deadlock.Nonempty := ⟨s0, ((k1 _ s0).1 ⟨by omega, hs0⟩).1⟩
    have hcands : st.cands ≠ [] := by
      obtain ⟨s, hs⟩ := hne
      obtain ⟨c, hc, _⟩ := hcov s hs
      exact List.ne_nil_of_mem hc
    have hadd : ∀ a ∈ st.mcv.cands 1, a ∈ st.cands ∧ ∃ s ∈ st.deadlock,
        st.cands.countP (fun a => decide (s ∈ dom (cfg.actXn i a))) = 1 ∧ s ∈ dom (cfg.actXn i a) := by
      intro a ha
      obtain ⟨h1, s, h2, h3⟩ := (k2 1 (by omega) a).1 ha
      obtain ⟨h4, h5⟩ := (k1 1 s).1 ⟨by omega, h2⟩
      exact ⟨h1, s, h4, h5, h3⟩
    have haT : ∀ T, Solves (taskOf cfg n) T → Fit cfg i T S st.cands → st.mcv.cands 1 ⊆ T := by
      intro T hT hF a ha
      obtain ⟨h1, s, h2, h3, h4⟩ := hadd a ha
      obtain ⟨b, hb1, hb2, hb3⟩ := hF.resolve hi hT (hnd s h2).1 (hnd s h2).2
      by_cases hab : a = b
      · rw [hab]; exact hb2
      · exfalso
        rw [List.countP_eq_length_filter] at h3
        obtain ⟨x, hx⟩ := List.length_eq_one_iff.1 h3
        have e1 : a ∈ [x] := hx ▸ List.mem_filter.2 ⟨h1, by simpa using h4⟩
        have e2 : b ∈ [x] := hx ▸ List.mem_filter.2 ⟨hb1, by simpa using hb3⟩
        rw [List.mem_singleton] at e1 e2
        exact hab (e1.trans e2.symm)
    simp only
    split
    · rename_i hr
      refine ⟨rfl, rfl, rfl, rfl, rfl, .inl rfl, fun _ => hcands, Finset.subset_union_right, ?_,
        membs_sub hr, ?_, ?_⟩
      · intro a ha; exact List.mem_toFinset.2 (hadd a ha).1
      · intro a ha hred
        obtain ⟨_, s, h2, _, h4⟩ := hadd a ha
        exact (hnd s h2).2 (hred s (hnd s h2).1 h4)
      · intro T hT hF
        obtain ⟨_, e2⟩ := hV.membs (C := st.cands.toFinset) hT (Finset.union_subset hF.1 (haT T hT hF))
        refine ⟨haT T hT hF, e2, fun d hd => ?_⟩
        rcases Finset.mem_union.1 hd with hd | hd
        · right
          rw [List.mem_toFinset, List.mem_filter, hP.shadowAct, Bool.false_and, Bool.or_false,
            decide_eq_true_eq, hlo] at hd
          exact fun s _ hs => hd.2 hs
        · exact .inl (e2 d hd)
    · rename_i hr
      intro T hT hF
      exact hr (hV.membs hT (Finset.union_subset hF.1 (haT T hT hF))).1

/-- What the last part of `revise_actions_alone` has checked. -/
structure Passed (cfg : SynCfg σ τ ρ) (i : ℕ) (lo : Finset (σ i × σ i)) : Prop where
  closed : Closed lo (cfg.sys i).shInv
  scc : sccOf lo (cfg.sys i).closedAssume ⊆ (cfg.sys i).invariant
  silent : (cfg.sys i).behav = .silent → sccOf lo (cfg.sys i).closedAssume = ∅

/-- `check_forward` keeps the ranks of the deadlocks up to date. -/
theorem checkForward_mcv {cfg : SynCfg σ τ ρ} {i : ℕ} {fam : CFam} {S : Finset ℕ} {st st' : SynSt (σ i)}
    {A D R : Finset ℕ} (h : st.mcv = rankDeadlocksMRV (fun a => dom (cfg.actXn i a)) st.cands st.deadlock)
    (hr : checkForward cfg i fam S st = .ok st' A D R) :
    st'.mcv = rankDeadlocksMRV (fun a => dom (cfg.actXn i a)) st'.cands st'.deadlock := by
  unfold checkForward at hr
  split at hr
  · split at hr
    · cases hr
    · rename_i hd
      split at hr
      · cases hr
      · cases hr
        rw [h]
        simp only [rankDeadlocksMRV, if_neg hd]
  · simp only at hr
    split at hr
    · cases hr; exact h
    · cases hr

/-- The same for `aloneTail`. -/
def TailOk (cfg : SynCfg σ τ ρ) (n i : ℕ) (S : Finset ℕ) (st : SynSt (σ i)) (r : AOne (σ i)) : Prop :=
  OneOk cfg n i S { st with deadlock := need cfg i \ dom st.lo } r ∧
    ((∃ st' A' D' R', r = .ok st' A' D' R') → Passed cfg i st.lo) ∧
    ∀ st' A' D' R', r = .ok st' A' D' R' →
      st'.mcv = rankDeadlocksMRV (fun a => dom (cfg.actXn i a)) st'.cands st'.deadlock

theorem tail_ok {cfg : SynCfg σ τ ρ} {n i : ℕ} (hi : i < n) (hP : PlainSys cfg i) (hfast : cfg.fast = false)
    {fam : CFam} (hV : Valid cfg n fam) {S : Finset ℕ} {st : SynSt (σ i)} (hlo : st.lo = cfg.union i S)
    (hA : Closed st.lo (cfg.sys i).closedAssume) (hinv : st.hiInv = (cfg.sys i).shInv)
    (hlow : st.lo ⊆ st.hi ∧ cfg.union i st.cands.toFinset ⊆ st.hi)
    (hup : need cfg i ⊆ dom st.lo ∨ st.hi ⊆ st.lo ∪ cfg.union i st.cands.toFinset)
    (hscc : sccOf st.lo (cfg.sys i).closedAssume ⊆ (cfg.sys i).invariant) (contain : Bool) (adds dels : Finset ℕ) :
    TailOk cfg n i S st (aloneTail cfg i fam S 0 (sccOf st.lo (cfg.sys i).closedAssume) contain adds dels st) := by
  have hneed : (((cfg.sys i).shInvᶜ ∪ dom (cfg.sys i).shadowXn) ∩ (cfg.sys i).closedAssume) = need cfg i := by
    ext s
    simp only [need, Sys.shInv, Finset.mem_inter, Finset.mem_union, Finset.mem_compl]
    tauto
  have hTlo : ∀ T, Fit cfg i T S st.cands → st.lo ⊆ T.biUnion (cfg.actXn i) := by
    intro T hF; rw [hlo]; exact union_mono hF.1
  have hfail : (∀ T, Solves (taskOf cfg n) T → Fit cfg i T S st.cands → False) →
      TailOk cfg n i S st .fail := fun h => ⟨h, (by rintro ⟨_, _, _, _, h⟩; cases h), (by rintro _ _ _ _ h; cases h)⟩
  unfold aloneTail shadowCk
  by_cases hsil : (cfg.sys i).behav = .silent ∧ (sccOf st.lo (cfg.sys i).closedAssume).Nonempty
  · rw [if_pos hsil]
    apply hfail
    intro T hT hF
    obtain ⟨hb, s, hs⟩ := hsil
    obtain ⟨⟨c, hcA, hc, _⟩, _⟩ := mem_sccOf.1 hs
    obtain ⟨e, he, h0⟩ := infExec_of_cycle (onCycle_mono (hTlo T hF) hc)
    exact (hT.meets i hi).quiet hb e he (by rw [h0]; exact hcA)
  rw [if_neg hsil, if_pos ⟨hP.direct, hP.scope⟩]
  have hsil' : (cfg.sys i).behav = .silent → sccOf st.lo (cfg.sys i).closedAssume = ∅ := by
    intro hb
    by_contra hc
    exact hsil ⟨hb, Finset.nonempty_iff_ne_empty.2 hc⟩
  unfold shadowDirect
  by_cases hcl : img st.lo (cfg.sys i).shInv ⊆ (cfg.sys i).shInv
  swap
  · rw [if_pos hcl]
    apply hfail
    intro T hT hF
    apply hcl
    intro t ht
    obtain ⟨s, hs, hst⟩ := mem_img.1 ht
    exact (hT.meets i hi).stab.closed s hs t (hTlo T hF hst)
  rw [if_neg (not_not.2 hcl), if_neg (by rintro ⟨h, _⟩; exact h hP.style),
    if_neg (by rintro ⟨h | h, _⟩; exacts [hP.behav h, by rw [hP.style] at h; cases h])]
  have hpass : Passed cfg i st.lo := ⟨fun s hs t hst => hcl (mem_img.2 ⟨s, hs, hst⟩), hscc, hsil'⟩
  simp only
  rw [if_neg (not_not.2 (by rw [hinv])), hneed]
  by_cases hdh : need cfg i \ dom st.lo ⊆ dom st.hi
  swap
  · rw [if_pos hdh]
    apply hfail
    intro T hT hF
    apply hdh
    intro s hs
    rw [Finset.mem_sdiff] at hs
    obtain ⟨a, h1, _, h3⟩ := hF.resolve hi hT hs.1 (by rw [← hlo]; exact hs.2)
    obtain ⟨t, ht⟩ := mem_dom.1 h3
    exact mem_dom.2 ⟨t, hlow.2 (mem_union.2 ⟨a, List.mem_toFinset.2 h1, ht⟩)⟩
  rw [if_neg (not_not.2 hdh)]
  obtain ⟨b, nl, hw1, hw2⟩ := weakConv4_none (xn := st.hi) (A := (cfg.sys i).closedAssume) (I := (cfg.sys i).shInv)
    (fuel := stFuel σ i) (some 0) (Or.inr rfl) (by unfold stFuel; omega)
  rw [hw1]
  rcases b with _ | _
  · simp only
    apply hfail
    intro T hT hF
    obtain ⟨yn, hy1, hy2⟩ := hF.part hi hT
    have := hw2.2 (meets_weak hy1 (hy2.trans (Finset.union_subset (by rw [← hlo]; exact hlow.1) hlow.2)))
    cases this
  · simp only
    rw [if_pos (Or.inl hfast)]
    refine ⟨?_, fun _ => hpass, fun st' A' D' R' he => checkForward_mcv rfl he⟩
    have := forward_ok (cfg := cfg) (n := n) (i := i) hi hP hV (S := S) (st := { st with
      hiInv := (cfg.sys i).shInv
      deadlock := need cfg i \ dom st.lo
      nlayers := max st.nlayers nl
      mcv := rankDeadlocksMRV (fun a => dom (cfg.actXn i a)) st.cands (need cfg i \ dom st.lo) }) hlo rfl (by
        intro s hs
        simp only at hs ⊢
        obtain ⟨t, ht⟩ := mem_dom.1 (hdh hs)
        rw [Finset.mem_sdiff] at hs
        rcases hup with h | h
        · exact absurd (h hs.1) hs.2
        · rcases Finset.mem_union.1 (h ht) with h | h
          · exact absurd (mem_dom.2 ⟨t, h⟩) hs.2
          · obtain ⟨c, hc, h1⟩ := mem_union.1 h
            exact ⟨c, List.mem_toFinset.1 hc, mem_dom.2 ⟨t, h1⟩⟩) rfl
    revert this
    generalize checkForward cfg i fam S _ = r
    intro this
    rcases r with _ | _ | ⟨st', A', D', R'⟩
    · exact this
    · exact this
    · obtain ⟨h1, h2, h3, h4, h5⟩ := this
      exact ⟨h1, h2, h3, h4.trans hinv.symm, h5⟩

/-! ### `revise_actions_alone` -/

theorem eraseAll_spec : ∀ (L cands : List ℕ), cands.Nodup →
    (L.foldl List.erase cands).Nodup ∧ ∀ c, c ∈ L.foldl List.erase cands ↔ c ∈ cands ∧ c ∉ L := by
  intro L
  induction L with
  | nil => intro cands h; exact ⟨h, by simp⟩
  | cons a L ih =>
    intro cands h
    obtain ⟨h1, h2⟩ := ih (cands.erase a) (h.erase a)
    refine ⟨h1, fun c => ?_⟩
    rw [List.foldl_cons, h2, h.mem_erase_iff, List.mem_cons]
    tauto

theorem dropAll_spec {cands : List ℕ} (h : cands.Nodup) (s : Finset ℕ) :
    (dropAll cands s).Nodup ∧ ∀ c, c ∈ dropAll cands s ↔ c ∈ cands ∧ c ∉ s := by
  obtain ⟨h1, h2⟩ := eraseAll_spec (arr s) cands h
  exact ⟨h1, fun c => by rw [dropAll, h2, mem_arr]⟩

theorem addOne_spec {cfg : SynCfg σ τ ρ} {i : ℕ} {A : Finset ℕ} : ∀ (L : List ℕ) (st : List ℕ × Finset ℕ × Bool),
    (∀ a ∈ L, a ∈ A) → (L.foldl (addOne cfg i A) st).1 = L.foldl List.erase st.1 ∧
      st.2.1 ⊆ (L.foldl (addOne cfg i A) st).2.1 ∧
      (∀ d ∈ (L.foldl (addOne cfg i A) st).2.1, d ∈ st.2.1 ∨
        (d ∉ A ∧ ∃ a ∈ A, a ≠ d ∧ cfg.trims i a d = true)) ∧
      ((L.foldl (addOne cfg i A) st).2.2 = true → st.2.2 = true ∧ ∀ a ∈ L, a ∈ st.1) := by
  intro L
  induction L with
  | nil => intro st _; exact ⟨rfl, Finset.Subset.refl _, fun d hd => .inl hd, fun h => ⟨h, by simp⟩⟩
  | cons a L ih =>
    intro st hL
    obtain ⟨h1, h2, h3, h4⟩ := ih (addOne cfg i A st a) fun b hb => hL b (List.mem_cons_of_mem _ hb)
    rw [List.foldl_cons, List.foldl_cons]
    have haA := hL a (List.mem_cons_self ..)
    have hsub : st.2.1 ⊆ (addOne cfg i A st a).2.1 := by
      unfold addOne
      simp only
      split
      · exact Finset.Subset.refl _
      · exact Finset.subset_union_left
    refine ⟨h1, hsub.trans h2, fun d hd => ?_, fun h => ?_⟩
    · rcases h3 d hd with h | h
      · unfold addOne at h
        simp only at h
        split at h
        · exact .inl h
        · rcases Finset.mem_union.1 h with h | h
          · exact .inl h
          · rw [Finset.mem_sdiff] at h
            have hq := h.1
            unfold quickTrim at hq
            rw [List.mem_toFinset, List.mem_filter, decide_eq_true_eq] at hq
            exact .inr ⟨h.2, a, haA, fun e => hq.2.1 e.symm, hq.2.2⟩
      · exact .inr h
    · obtain ⟨h5, h6⟩ := h4 h
      unfold addOne at h5 h6
      simp only [Bool.and_eq_true, decide_eq_true_eq] at h5
      refine ⟨h5.1, fun b hb => ?_⟩
      rcases List.mem_cons.1 hb with rfl | hb
      · exact h5.2
      · exact List.mem_of_mem_erase (h6 b hb)

/-- An instance of system `i` is well formed. -/
structure InstOk (cfg : SynCfg σ τ ρ) (n : ℕ) (G : Finset ℕ) (i : ℕ) (acts : List ℕ) (np : Bool) (st : SynSt (σ i)) :
    Prop where
  lt : i < n
  nodup : acts.Nodup
  cnodup : st.cands.Nodup
  act : ∀ a ∈ acts, MayAdd cfg n a
  sup : G ⊆ acts.toFinset
  loF : st.loF = cfg.union i acts.toFinset
  lo : np = false → st.lo = cfg.union i acts.toFinset
  hiInv : np = false → st.hiInv = (cfg.sys i).shInv
  low : np = false → st.lo ⊆ st.hi ∧ cfg.union i st.cands.toFinset ⊆ st.hi
  up : np = false → need cfg i ⊆ dom st.lo ∨ st.hi ⊆ st.lo ∪ cfg.union i st.cands.toFinset

/-- It has also passed the checks of `revise_actions_alone`. -/
structure InstDone (cfg : SynCfg σ τ ρ) (n : ℕ) (G : Finset ℕ) (i : ℕ) (acts : List ℕ) (np : Bool) (st : SynSt (σ i)) :
    Prop extends InstOk cfg n G i acts np st where
  passed : np = false → Passed cfg i st.lo
  dl : np = false → st.deadlock = need cfg i \ dom st.lo
  open_ : np = false → st.deadlock.Nonempty → st.cands ≠ []
  mcv : np = false → st.mcv = rankDeadlocksMRV (fun a => dom (cfg.actXn i a)) st.cands st.deadlock

/-- The contract of `revise_actions_alone` for one system; `acts` and `st` describe the instance before the
call. -/
def AloneOk (cfg : SynCfg σ τ ρ) (n : ℕ) (G : Finset ℕ) (i : ℕ) (acts : List ℕ) (np : Bool) (st : SynSt (σ i))
    (A D : Finset ℕ) : AOne (σ i) → Prop
  | .abort => False
  | .fail => ∀ T, Solves (taskOf cfg n) T → Fit cfg i T acts.toFinset st.cands → A ⊆ T →
      (∀ d ∈ D, d ∉ T ∨ (RedIn cfg i acts.toFinset d ∧ d ∉ A)) → False
  | .ok st' A' D' R' => InstDone cfg n G i (addActs acts A) np st' ∧ R' ⊆ D' ∧
      st'.cands.toFinset ⊆ st.cands.toFinset \ (A ∪ D) ∧ A' ⊆ st'.cands.toFinset ∧ R' ⊆ st'.cands.toFinset ∧
      (∀ a ∈ A', ¬ RedIn cfg i (acts.toFinset ∪ A) a) ∧
      ∀ T, Solves (taskOf cfg n) T → Fit cfg i T acts.toFinset st.cands → A ⊆ T →
        (∀ d ∈ D, d ∉ T ∨ (RedIn cfg i acts.toFinset d ∧ d ∉ A)) →
        Fit cfg i T (acts.toFinset ∪ A) st'.cands ∧ A' ⊆ T ∧ (∀ d ∈ R', d ∉ T) ∧
        ∀ d ∈ D', d ∉ T ∨ RedIn cfg i (acts.toFinset ∪ A) d

theorem closed_union {cfg : SynCfg σ τ ρ} {n i : ℕ} (hi : i < n) {S : Finset ℕ} (h : ∀ a ∈ S, MayAdd cfg n a) :
    Closed (cfg.union i S) (cfg.sys i).closedAssume := by
  intro s hs t hst
  obtain ⟨a, ha, h1⟩ := mem_union.1 hst
  exact ((h a ha).2 i hi).1 s hs t h1

/-- The candidates after removing `A` and some that cannot be used. -/
theorem fit_drop {cfg : SynCfg σ τ ρ} {i : ℕ} {T S A : Finset ℕ} {C C' : List ℕ} (hF : Fit cfg i T S C) (hA : A ⊆ T)
    (h : ∀ c ∈ C, c ∈ T → c ∈ A ∨ c ∈ C' ∨ RedIn cfg i S c) : Fit cfg i T (S ∪ A) C' := by
  refine ⟨Finset.union_subset hF.1 hA, fun a ha => ?_⟩
  rcases hF.2 a ha with h1 | h1 | h1
  · exact .inl (Finset.mem_union_left _ h1)
  · rcases h a h1 ha with h2 | h2 | h2
    · exact .inl (Finset.mem_union_right _ h2)
    · exact .inr (.inl h2)
    · exact .inr (.inr (h2.mono Finset.subset_union_left))
  · exact .inr (.inr (h1.mono Finset.subset_union_left))

theorem alone_ok {cfg : SynCfg σ τ ρ} {n : ℕ} {G : Finset ℕ} {i : ℕ} (hP : PlainSys cfg i) (hfast : cfg.fast = false)
    {fam : CFam} (hV : Valid cfg n fam) {acts : List ℕ} {np : Bool} {st : SynSt (σ i)}
    (hW : InstOk cfg n G i acts np st) (hnl : st.nlayers = 0) {A D : Finset ℕ} (hAct : ∀ a ∈ A, MayAdd cfg n a) :
    Valid cfg n (aloneOne cfg i fam acts np st A D).1 ∧
      AloneOk cfg n G i acts np st A D (aloneOne cfg i fam acts np st A D).2 := by
  have hi := hW.lt
  obtain ⟨ad1, ad2⟩ := addActs_spec acts A hW.nodup
  unfold aloneOne
  obtain ⟨r, hr⟩ : ∃ r, r = (if cfg.prep then conflictMembs fam ∅ (acts.toFinset ∪ A) st.cands.toFinset
    else ((true : Bool), (∅ : Finset ℕ))) := ⟨_, rfl⟩
  rw [← hr]
  have hr1 : ∀ T, Solves (taskOf cfg n) T → acts.toFinset ⊆ T → A ⊆ T → r.1 = true ∧ ∀ c ∈ r.2, c ∉ T := by
    intro T hT h1 h2
    rw [hr]
    split
    · exact hV.membs hT (Finset.union_subset h1 h2)
    · simp
  simp only
  by_cases hr0 : r.1 = false
  · rw [if_pos hr0]
    refine ⟨hV, fun T hT hF hA _ => ?_⟩
    have := (hr1 T hT hF.1 hA).1
    rw [hr0] at this; cases this
  rw [if_neg hr0]
  have hact' : ∀ a ∈ acts.toFinset ∪ A, MayAdd cfg n a := by
    intro a ha
    rcases Finset.mem_union.1 ha with h | h
    · exact hW.act a (List.mem_toFinset.1 h)
    · exact hAct a h
  have hact2 : ∀ a ∈ addActs acts A, MayAdd cfg n a := fun a ha =>
    hact' a (by rw [← ad2]; exact List.mem_toFinset.2 ha)
  have hG : G ⊆ (addActs acts A).toFinset := by rw [ad2]; exact hW.sup.trans Finset.subset_union_left
  have hloF : st.loF ∪ cfg.union i A = cfg.union i (addActs acts A).toFinset := by
    rw [ad2, union_union, hW.loF]
  rcases np with _ | _
  swap
  · -- only verified
    rw [if_pos rfl]
    refine ⟨hV, ?_⟩
    obtain ⟨d1, d2⟩ := dropAll_spec hW.cnodup A
    obtain ⟨d3, d4⟩ := dropAll_spec d1 (D ∪ r.2)
    have hfit : ∀ T, Solves (taskOf cfg n) T → Fit cfg i T acts.toFinset st.cands → A ⊆ T →
        (∀ d ∈ D, d ∉ T ∨ (RedIn cfg i acts.toFinset d ∧ d ∉ A)) →
        Fit cfg i T (acts.toFinset ∪ A) (dropAll (dropAll st.cands A) (D ∪ r.2)) := by
      intro T hT hF hA hD
      apply fit_drop hF hA
      intro c hc hcT
      by_cases h1 : c ∈ A
      · exact .inl h1
      by_cases h2 : c ∈ D
      · rcases hD c h2 with h | h
        · exact absurd hcT h
        · exact .inr (.inr h.1)
      by_cases h3 : c ∈ r.2
      · exact absurd hcT ((hr1 T hT hF.1 hA).2 c h3)
      · exact .inr (.inl ((d4 c).2 ⟨(d2 c).2 ⟨hc, h1⟩, fun h => (Finset.mem_union.1 h).elim h2 h3⟩))
    unfold aloneVerify
    simp only
    split
    · refine ⟨⟨⟨hi, ad1, d3, hact2, hG, hloF, nofun, nofun, nofun, nofun⟩, nofun, nofun, nofun, nofun⟩,
        Finset.Subset.refl _, ?_, by simp, by simp, by simp, fun T hT hF hA hD =>
          ⟨hfit T hT hF hA hD, by simp, by simp, by simp⟩⟩
      intro c hc
      rw [List.mem_toFinset, d4, d2] at hc
      rw [Finset.mem_sdiff, List.mem_toFinset, Finset.mem_union]
      refine ⟨hc.1.1, ?_⟩
      rintro (h | h)
      · exact hc.1.2 h
      · exact hc.2 (Finset.mem_union_left _ h)
    · rename_i hc
      push Not at hc
      intro T hT hF hA hD
      obtain ⟨s, hs⟩ := hc.2
      rw [hloF, ad2, Finset.mem_sdiff] at hs
      obtain ⟨a, h1, _⟩ := (hfit T hT hF hA hD).resolve hi hT hs.1 hs.2
      rw [hc.1] at h1
      simp at h1
  · rw [if_neg (by simp)]
    obtain ⟨f, hf⟩ : ∃ f, f = (arr A).foldl (addOne cfg i A) (st.cands, D ∪ r.2, true) := ⟨_, rfl⟩
    obtain ⟨f1, f2, f3, f4⟩ := addOne_spec (cfg := cfg) (i := i) (A := A) (arr A) (st.cands, D ∪ r.2, true)
      (fun a ha => mem_arr.1 ha)
    rw [← hf] at f1 f2 f3 f4 ⊢
    simp only at f1 f2 f3 f4
    -- what is deleted cannot be in a solution, or is redundant
    have hdelT : ∀ T, Solves (taskOf cfg n) T → acts.toFinset ⊆ T → A ⊆ T →
        (∀ d ∈ D, d ∉ T ∨ (RedIn cfg i acts.toFinset d ∧ d ∉ A)) →
        ∀ d ∈ f.2.1, d ∉ T ∨ (RedIn cfg i acts.toFinset d ∧ d ∉ A) := by
      intro T hT hF hA hD d hd
      rcases f3 d hd with h | ⟨_, a, h2, h3, h4⟩
      · rcases Finset.mem_union.1 h with h | h
        · exact hD d h
        · exact .inl ((hr1 T hT hF hA).2 d h)
      · exact .inl fun hdT => hT.apart i hi a (hA h2) d hdT h3 h4
    by_cases hov : (A ∩ f.2.1).Nonempty
    · rw [if_pos hov]
      refine ⟨hV, fun T hT hF hA hD => ?_⟩
      obtain ⟨a, ha⟩ := hov
      rw [Finset.mem_inter] at ha
      rcases hdelT T hT hF.1 hA hD a ha.2 with h | h
      · exact h (hA ha.1)
      · exact h.2 ha.1
    rw [if_neg hov]
    have hdr : f.1 = dropAll st.cands A := f1
    obtain ⟨d1, d2⟩ := dropAll_spec hW.cnodup A
    rw [hdr]
    obtain ⟨d3, d4⟩ := dropAll_spec d1 f.2.1
    obtain ⟨cands, hcands⟩ : ∃ c, c = dropAll (dropAll st.cands A) f.2.1 := ⟨_, rfl⟩
    rw [← hcands] at d3 d4 ⊢
    obtain ⟨lo, hlo⟩ : ∃ x, x = st.lo ∪ cfg.union i A := ⟨_, rfl⟩
    rw [← hlo]
    have hloS : lo = cfg.union i (acts.toFinset ∪ A) := by rw [hlo, hW.lo rfl, union_union]
    have hA0 : Closed lo (cfg.sys i).closedAssume := by rw [hloS]; exact closed_union hi hact'
    have hmax : (if 0 < st.nlayers ∧ ((cfg.opt i).maxNlayers = 0 ∨ st.nlayers < (cfg.opt i).maxNlayers)
        then st.nlayers else (cfg.opt i).maxNlayers) = 0 := by
      rw [hnl, if_neg (by simp), hP.layers]
    rw [hmax]
    obtain ⟨c, hc1, hc2⟩ := cycleCk_closed hA0 (some st.hiInv) (some 0) (fuel := stFuel σ i) (by unfold stFuel; omega)
    rw [hc1]
    have hc3 : c.scc = some (sccOf lo (cfg.sys i).closedAssume) := by
      rcases hc2 with ⟨m, h1, h2, _⟩ | h
      · cases h1; omega
      · exact h.1
    simp only [hc3, Option.getD_some]
    rw [if_neg (by simp)]
    have hfit : ∀ T, Solves (taskOf cfg n) T → Fit cfg i T acts.toFinset st.cands → A ⊆ T →
        (∀ d ∈ D, d ∉ T ∨ (RedIn cfg i acts.toFinset d ∧ d ∉ A)) → Fit cfg i T (acts.toFinset ∪ A) cands := by
      intro T hT hF hA hD
      apply fit_drop hF hA
      intro c hc hcT
      by_cases h1 : c ∈ A
      · exact .inl h1
      by_cases h2 : c ∈ f.2.1
      · rcases hdelT T hT hF.1 hA hD c h2 with h | h
        · exact absurd hcT h
        · exact .inr (.inr h.1)
      · exact .inr (.inl ((d4 c).2 ⟨(d2 c).2 ⟨hc, h1⟩, h2⟩))
    by_cases hscc : sccOf lo (cfg.sys i).closedAssume ⊆ (cfg.sys i).invariant
    swap
    · rw [if_pos hscc]
      obtain ⟨R, l1, l2, l3⟩ := livelock_conflict hP.pick hA0 (act := cfg.actXn i) (actions := addActs acts A)
        (fun s t hst => by
          rw [hloS] at hst
          obtain ⟨a, ha, h1⟩ := mem_union.1 hst
          rw [← ad2] at ha
          exact ⟨a, List.mem_toFinset.1 ha, h1⟩) hscc (fuel := stFuel σ i) (by unfold stFuel; omega)
      rw [l1]
      have hbad : ∀ T, Solves (taskOf cfg n) T → ¬ R ⊆ T := by
        intro T hT hRT
        refine l3 (T.biUnion (cfg.actXn i)) _ (fun a ha => ?_) (hT.meets i hi).stab Finset.inter_subset_left
        intro e he
        exact Finset.mem_biUnion.2 ⟨a, hRT ha, he⟩
      refine ⟨hV.learn hbad, fun T hT hF hA _ => hbad T hT (l2.trans ?_)⟩
      rw [ad2]; exact Finset.union_subset hF.1 hA
    rw [if_neg (not_not.2 hscc)]
    refine ⟨hV, ?_⟩
    simp only
    obtain ⟨hi1, hhi1⟩ : ∃ x, x = (if f.2.2 = true then st.hi else st.hi ∪ cfg.union i A) := ⟨_, rfl⟩
    rw [← hhi1]
    obtain ⟨hi2, hhi2⟩ : ∃ x, x = hi1 \ ((cfg.union i f.2.1 \ lo) \ cfg.union i cands.toFinset) := ⟨_, rfl⟩
    rw [← hhi2]
    have hsub1 : st.hi ⊆ hi1 := by
      rw [hhi1]; split
      · exact Finset.Subset.refl _
      · exact Finset.subset_union_left
    have hAhi : cfg.union i A ⊆ hi1 := by
      by_cases hb : f.2.2 = true
      · refine Finset.Subset.trans ?_ hsub1
        refine Finset.Subset.trans (union_mono ?_) (hW.low rfl).2
        intro a ha
        exact List.mem_toFinset.2 ((f4 hb).2 a (mem_arr.2 ha))
      · rw [hhi1, if_neg hb]; exact Finset.subset_union_right
    have hlow : lo ⊆ hi2 ∧ cfg.union i cands.toFinset ⊆ hi2 := by
      constructor
      · intro e he
        rw [hhi2, Finset.mem_sdiff, Finset.mem_sdiff, Finset.mem_sdiff]
        refine ⟨?_, fun h => h.1.2 he⟩
        rw [hlo] at he
        rcases Finset.mem_union.1 he with h | h
        · exact hsub1 ((hW.low rfl).1 h)
        · exact hAhi h
      · intro e he
        rw [hhi2, Finset.mem_sdiff, Finset.mem_sdiff]
        refine ⟨hsub1 ((hW.low rfl).2 (union_mono ?_ he)), fun h => h.2 he⟩
        intro c hc
        rw [List.mem_toFinset, d4, d2] at hc
        exact List.mem_toFinset.2 hc.1.1
    have hup : need cfg i ⊆ dom lo ∨ hi2 ⊆ lo ∪ cfg.union i cands.toFinset := by
      rcases hW.up rfl with h | h
      · left
        exact h.trans (dom_sub (by rw [hlo]; exact Finset.subset_union_left))
      · right
        intro e he
        rw [hhi2, Finset.mem_sdiff] at he
        have he1 : e ∈ st.hi ∨ e ∈ cfg.union i A := by
          have := he.1
          rw [hhi1] at this
          split at this
          · exact .inl this
          · exact Finset.mem_union.1 this
        have hloA : cfg.union i A ⊆ lo := by rw [hlo]; exact Finset.subset_union_right
        rw [Finset.mem_union]
        rcases he1 with h1 | h1
        · rcases Finset.mem_union.1 (h h1) with h2 | h2
          · left; rw [hlo]; exact Finset.mem_union_left _ h2
          · obtain ⟨c, hc, h3⟩ := mem_union.1 h2
            by_cases q1 : c ∈ A
            · exact .inl (hloA (mem_union.2 ⟨c, q1, h3⟩))
            by_cases q2 : c ∈ f.2.1
            · by_contra hc
              push Not at hc
              exact he.2 (Finset.mem_sdiff.2 ⟨Finset.mem_sdiff.2 ⟨mem_union.2 ⟨c, q2, h3⟩, hc.1⟩, hc.2⟩)
            · right
              exact mem_union.2 ⟨c, List.mem_toFinset.2 ((d4 c).2 ⟨(d2 c).2 ⟨List.mem_toFinset.1 hc, q1⟩, q2⟩), h3⟩
        · exact .inl (hloA h1)
    obtain ⟨st1, hst1⟩ : ∃ x : SynSt (σ i), x = { st with
      cands := cands
      lo := lo
      loF := st.loF ∪ cfg.union i A
      hi := hi2
      nlayers := c.nlayers } := ⟨_, rfl⟩
    rw [← hst1, ad2]
    have hlo1 : st1.lo = lo := by rw [hst1]
    have hca1 : st1.cands = cands := by rw [hst1]
    have hhi1' : st1.hi = hi2 := by rw [hst1]
    have htail := tail_ok (st := st1) (S := acts.toFinset ∪ A) hi hP hfast hV (by rw [hlo1, hloS]) (by rw [hlo1]; exact hA0)
      (by rw [hst1]; exact hW.hiInv rfl) (by rw [hlo1, hca1, hhi1']; exact hlow)
      (by rw [hlo1, hca1, hhi1']; exact hup) (by rw [hlo1]; exact hscc) f.2.2 A f.2.1
    rw [hlo1] at htail
    revert htail
    generalize aloneTail cfg i fam (acts.toFinset ∪ A) 0 (sccOf lo (cfg.sys i).closedAssume) f.2.2 A f.2.1 st1 = res
    rintro ⟨t1, t2, t3⟩
    rw [hlo1] at t1 t2
    rcases res with _ | _ | ⟨st', A', D', R'⟩
    · exact t1
    · intro T hT hF hA hD
      refine t1 T hT ?_
      simp only [hca1]
      exact hfit T hT hF hA hD
    · obtain ⟨e1, e2, e3, e4, e5, e6, e7, e9, e10, e11, e12, e13⟩ := t1
      simp only at e1 e2 e3 e4 e5 e6 e7 e13
      rw [hca1] at e6 e13
      have hcs : st'.cands.toFinset ⊆ cands.toFinset := by
        rcases e6 with h | h
        · rw [h]
        · rw [h.1]; simp
      refine ⟨⟨⟨hi, ad1, ?_, hact2, hG, ?_, fun _ => ?_, fun _ => ?_, fun _ => ⟨?_, ?_⟩, fun _ => ?_⟩, fun _ => ?_,
        fun _ => ?_, fun _ h => ?_, fun _ => t3 _ _ _ _ rfl⟩, e9, ?_, e10, e11, e12, ?_⟩
      · rcases e6 with h | h
        · rw [h]; exact d3
        · rw [h.1]; exact List.nodup_nil
      · rw [e2, hst1]; exact hloF
      · rw [e1, ad2, hloS]
      · rw [e4, hst1]; exact hW.hiInv rfl
      · rw [e1, e3, hhi1']; exact hlow.1
      · rw [e3, hhi1']; exact (union_mono hcs).trans hlow.2
      · rw [e1, e3, hhi1']
        rcases e6 with h | h
        · rw [h]; exact hup
        · left
          exact Finset.sdiff_eq_empty_iff_subset.1 h.2
      · rw [e1]; exact t2 ⟨_, _, _, _, rfl⟩
      · rw [e5, e1]
      · rw [e5] at h; exact e7 h
      · refine hcs.trans ?_
        intro c hc
        rw [List.mem_toFinset, d4, d2] at hc
        rw [Finset.mem_sdiff, List.mem_toFinset, Finset.mem_union]
        refine ⟨hc.1.1, ?_⟩
        rintro (h | h)
        · exact hc.1.2 h
        · exact hc.2 (f2 (Finset.mem_union_left _ h))
      · intro T hT hF hA hD
        have hF' := hfit T hT hF hA hD
        refine ⟨?_, e13 T hT hF'⟩
        rcases e6 with h | h
        · rw [h]; exact hF'
        · refine ⟨hF'.1, fun a ha => ?_⟩
          right; right
          intro s hs _
          rw [← hloS]
          exact Finset.sdiff_eq_empty_iff_subset.1 h.2 hs

/-! ### What the conflicts have to do with the result -/

theorem checkForward_free {cfg : SynCfg σ τ ρ} {i : ℕ} {fam : CFam} {S : Finset ℕ} {st st' : SynSt (σ i)}
    {A D R : Finset ℕ} (h : checkForward cfg i fam S st = .ok st' A D R) : ¬ Knows fam S := by
  unfold checkForward at h
  split at h
  · split at h
    · cases h
    · split at h
      · cases h
      · rename_i hc
        rwa [conflictCk_iff] at hc
  · simp only at h
    split at h
    · rename_i hr
      intro hk
      have := ck_mono (T := S ∪ st.mcv.cands 1) Finset.subset_union_left (conflictCk_iff.2 hk)
      rw [(C21_conflict_membs fam ∅ _ _).1.2 this] at hr
      cases hr
    · cases h

theorem aloneTail_free {cfg : SynCfg σ τ ρ} {i : ℕ} {fam : CFam} {S : Finset ℕ} {mx : ℕ} {scc : Finset (σ i)}
    {b : Bool} {st st' : SynSt (σ i)} {A D A' D' R' : Finset ℕ}
    (h : aloneTail cfg i fam S mx scc b A D st = .ok st' A' D' R') : ¬ Knows fam S := by
  unfold aloneTail at h
  split at h
  · cases h
  · cases h
  · cases h
  · split at h
    · cases h
    · simp only at h
      split at h
      · cases h
      · split at h
        · cases h
        · cases h
        · split at h
          · exact checkForward_free h
          · split at h
            · cases h
            · exact checkForward_free h

/-- A set of actions that passes all checks contains no known conflict. -/
theorem aloneOne_free {cfg : SynCfg σ τ ρ} {i : ℕ} {fam : CFam} {acts : List ℕ} {st st' : SynSt (σ i)}
    {A D A' D' R' : Finset ℕ} (h : (aloneOne cfg i fam acts false st A D).2 = .ok st' A' D' R') :
    ¬ Knows fam (addActs acts A).toFinset := by
  unfold aloneOne at h
  simp only at h
  generalize (if cfg.prep then conflictMembs fam ∅ (acts.toFinset ∪ A) st.cands.toFinset
    else ((true : Bool), (∅ : Finset ℕ))) = r at h
  by_cases h0 : r.1 = false
  · rw [if_pos h0] at h; cases h
  rw [if_neg h0, if_neg (by simp)] at h
  split at h
  · cases h
  generalize (if 0 < st.nlayers ∧ ((cfg.opt i).maxNlayers = 0 ∨ st.nlayers < (cfg.opt i).maxNlayers)
    then st.nlayers else (cfg.opt i).maxNlayers) = mx at h
  split at h
  · cases h
  rename_i c _
  by_cases h1 : 0 < mx ∧ mx < c.nlayers
  · rw [if_pos h1] at h; cases h
  rw [if_neg h1] at h
  by_cases h2 : c.scc.getD ∅ ⊆ (cfg.sys i).invariant
  swap
  · rw [if_pos h2] at h
    split at h <;> cases h
  rw [if_neg (not_not.2 h2)] at h
  exact aloneTail_free h

/-- At most one conflict is learned. -/
theorem aloneOne_fam (cfg : SynCfg σ τ ρ) (i : ℕ) (fam : CFam) (acts : List ℕ) (np : Bool) (st : SynSt (σ i))
    (A D : Finset ℕ) : (aloneOne cfg i fam acts np st A D).1 = fam ∨
      ∃ s, (aloneOne cfg i fam acts np st A D).1 = cfg.learn s fam := by
  unfold aloneOne
  simp only
  generalize (if cfg.prep then conflictMembs fam ∅ (acts.toFinset ∪ A) st.cands.toFinset
    else ((true : Bool), (∅ : Finset ℕ))) = r
  by_cases h0 : r.1 = false
  · rw [if_pos h0]; exact .inl rfl
  rw [if_neg h0]
  by_cases hnp : np = true
  · rw [if_pos hnp]; exact .inl rfl
  rw [if_neg hnp]
  split
  · exact .inl rfl
  generalize (if 0 < st.nlayers ∧ ((cfg.opt i).maxNlayers = 0 ∨ st.nlayers < (cfg.opt i).maxNlayers)
    then st.nlayers else (cfg.opt i).maxNlayers) = mx
  split
  · exact .inl rfl
  rename_i c _
  by_cases h1 : 0 < mx ∧ mx < c.nlayers
  · rw [if_pos h1]; exact .inl rfl
  rw [if_neg h1]
  by_cases h2 : c.scc.getD ∅ ⊆ (cfg.sys i).invariant
  · rw [if_neg (not_not.2 h2)]; exact .inl rfl
  · rw [if_pos h2]
    split
    · exact .inl rfl
    · exact .inr ⟨_, rfl⟩

end Verif.Proofs
