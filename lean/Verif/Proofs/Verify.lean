import Verif.Model.Verify
import Verif.Spec.Verify
import Verif.Proofs.SynthStab
import Verif.Proofs.Conflict

/-!
Lemmas for property C108.
-/

set_option linter.unusedSectionVars false

namespace Verif.Proofs
open Verif.Model Verif.Spec

section
variable {σ : Type} [Fintype σ] [DecidableEq σ] {τ : Type} [DecidableEq τ]

theorem stabCycles_plain {sys : Sys σ τ} (hnp : sys.probabilistic = false) {opt : StabOpt} (hnu : opt.uniring = false)
    {lo : Finset (σ × σ)} (ps : List (Finset (σ × σ))) {fuel : ℕ} (hf : 2 * Fintype.card σ + 1 < fuel)
    (hcl : Closed lo sys.closedAssume) : ∃ scc n, stabCycles fuel sys opt lo ps = some (.ok (scc, n)) ∧
      ((0 < opt.maxNlayers ∧ opt.maxNlayers < n) ∨ scc = sccOf lo sys.closedAssume) := by
  obtain ⟨r, hr, hp⟩ := cycleCk_closed hcl (opt.layerInv sys) (some opt.maxNlayers) (fuel := fuel) (by omega)
  refine ⟨r.scc.getD ∅, r.nlayers, ?_, ?_⟩
  · unfold stabCycles
    rw [hnp, hnu]
    simp only [Bool.false_eq_true, if_false]
    unfold StabOpt.layerInv at hr
    rw [hr]; rfl
  · rcases hp with ⟨m, hm, h0, hrr, hst⟩ | ⟨h1, h2, h3⟩
    · cases hm
      rw [hrr]
      exact .inl ⟨h0, Nat.lt_succ_self _⟩
    · right; rw [h1]; rfl

theorem findLivelock_total {pick : Finset σ → Option σ} (hp : ∀ S : Finset σ, S.Nonempty → ∃ s ∈ S, pick S = some s)
    {xn : Finset (σ × σ)} {A inv : Finset σ} (hne : ¬ sccOf xn A ⊆ inv) {act : ℕ → Finset (σ × σ)} {actions : List ℕ}
    {fuel : ℕ} (hf : Fintype.card σ < fuel) :
    ∃ R, findLivelockActions fuel pick xn (sccOf xn A) inv act actions = some R ∧ R ⊆ actions.toFinset := by
  have hne' : (sccOf xn A \ inv).Nonempty := by
    rw [Finset.nonempty_iff_ne_empty]
    exact fun h => hne (Finset.sdiff_eq_empty_iff_subset.1 h)
  obtain ⟨c, t, h1, h2, h3, h4⟩ := findOneCycle_spec hp (xn := xn) (scc := sccOf xn A)
    (initial := sccOf xn A \ inv) (fun s hs => scc_succ hs) hne'
    (fun s hs => scc_succ (Finset.mem_sdiff.1 hs).1) fuel hf
  unfold findLivelockActions
  rw [h1]
  simp only
  split
  · exact ⟨_, rfl, fun a ha => (Finset.mem_filter.1 ha).1⟩
  · exact ⟨_, rfl, fun a ha => (Finset.mem_filter.1 ha).1⟩

theorem stabInfo_spec {sys : Sys σ τ} (hid : ∀ e, e ∈ sys.identXn ↔ e.1 = e.2) (hnp : sys.probabilistic = false)
    {opt : StabOpt} (hnu : opt.uniring = false) {xn : Finset (σ × σ)} (ps : List (Finset (σ × σ))) {fuel : ℕ}
    (hf : 2 * Fintype.card σ + 1 < fuel) {pick : Finset σ → Option σ}
    (hp : ∀ S : Finset σ, S.Nonempty → ∃ s ∈ S, pick S = some s) {act : ℕ → Finset (σ × σ)} {actions : List ℕ} :
    ∃ c, stabInfo fuel pick sys opt xn xn ps true act actions = some c ∧
      (∀ R, c = some R → R ⊆ actions.toFinset ∧
        ((∀ s t, (s, t) ∈ xn → ∃ a ∈ actions, (s, t) ∈ act a) → Excludes act sys.closedAssume sys.invariant R)) ∧
      (opt.maxNlayers = 0 → Livelocked xn sys.closedAssume sys.invariant → ∃ R, c = some R) := by
  unfold stabInfo
  split
  · rename_i h
    exact ⟨none, rfl, by simp, fun _ hL => absurd hL.legit (by rw [h]; simp)⟩
  split
  · rename_i h
    obtain ⟨-, e, he⟩ := h
    obtain ⟨h1, h2⟩ := mem_restr.1 he
    obtain ⟨h3, h4⟩ := Finset.mem_inter.1 h1
    refine ⟨none, rfl, by simp, fun _ hL => absurd ?_ (hL.noSelf e.1 h2)⟩
    have := (hid e).1 h4
    unfold Step
    rw [show (e.1, e.1) = e from Prod.ext rfl this]
    exact h3
  split
  · rename_i h
    obtain ⟨-, t, ht⟩ := h
    obtain ⟨h1, h2⟩ := Finset.mem_sdiff.1 ht
    obtain ⟨s, hs, hst⟩ := mem_img.1 h1
    exact ⟨none, rfl, by simp, fun _ hL => absurd (hL.closed s hs t hst) h2⟩
  rename_i hcl
  have hcl' : Closed xn sys.closedAssume := by
    intro s hs t hst
    by_contra hc
    apply hcl
    refine ⟨?_, t, Finset.mem_sdiff.2 ⟨mem_img.2 ⟨s, hs, hst⟩, hc⟩⟩
    intro h; rw [h] at hc; simp at hc
  split
  · rename_i h
    refine ⟨none, rfl, by simp, fun _ hL => absurd (fun s hs => ?_) h⟩
    obtain ⟨h1, h2⟩ := Finset.mem_inter.1 hs
    have := hL.progress s h2 (by simpa using h1)
    unfold Deadlock at this
    push Not at this
    exact mem_dom.2 this
  obtain ⟨scc, n, e, hscc⟩ := stabCycles_plain hnp hnu (opt := opt) ps hf hcl'
  rw [e]
  simp only
  split
  · rename_i h
    exact ⟨none, rfl, by simp, fun h0 _ => by omega⟩
  rename_i hlay
  have hscc : scc = sccOf xn sys.closedAssume := hscc.resolve_left hlay
  subst hscc
  split
  · rename_i h
    refine ⟨none, rfl, by simp, fun _ hL => ?_⟩
    obtain ⟨s, h1, h2, h3⟩ := hL.cycle
    exact absurd (h (mem_sccOf_of_cycle h1 h3)) h2
  rename_i hne
  rw [if_neg (by simp), hnp, if_neg (by simp)]
  obtain ⟨R, hR, hsub⟩ := findLivelock_total hp hne (act := act) (actions := actions) (fuel := fuel) (by omega)
  rw [hR]
  refine ⟨some R, rfl, fun R' h => ?_, fun _ _ => ⟨R, rfl⟩⟩
  cases h
  refine ⟨hsub, fun hxn T hT I hI hst => ?_⟩
  obtain ⟨R', hR', -, hno⟩ := livelock_conflict hp hcl' hxn hne (fuel := fuel) (by omega)
  rw [hR] at hR'
  cases hR'
  exact hno _ I (fun a ha => Finset.subset_biUnion_of_mem act (hT ha)) hst hI

/-- What is assumed of a file. -/
structure VFileOk (f : VFile σ τ) (opt : StabOpt) (fuel : ℕ) : Prop where
  ident : ∀ e, e ∈ f.sys.identXn ↔ e.1 = e.2
  plain : f.sys.probabilistic = false
  general : opt.uniring = false
  fuel : 2 * Fintype.card σ + 1 < fuel
  pick : ∀ S : Finset σ, S.Nonempty → ∃ s ∈ S, f.pick S = some s

/-- The check accepts the file. -/
def VAccepts (f : VFile σ τ) (opt : StabOpt) (sync light : Bool) (fuel : ℕ) : Prop :=
  ∃ r, stabCk fuel f.sys opt (f.rel sync light) (f.rel sync light) (f.parts sync light) = some (.accept r)

theorem VAccepts.stab {f : VFile σ τ} {opt : StabOpt} {fuel : ℕ} (h : VFileOk f opt fuel) {sync light : Bool}
    (ha : VAccepts f opt sync light fuel) :
    ∃ I, I ⊆ f.sys.invariant ∩ f.sys.closedAssume ∧ SelfStab (f.rel sync light) f.sys.closedAssume I := by
  obtain ⟨⟨I, n⟩, hr⟩ := ha
  obtain ⟨-, ha⟩ := (accepted h.ident h.plain h.general h.fuel).1 hr
  obtain ⟨-, -, hIs, -, hI, -⟩ := accept_converges h.plain ha
  exact ⟨I, hIs, hI⟩

theorem verifyFile_spec {f : VFile σ τ} {opt : StabOpt} {fuel : ℕ} (h : VFileOk f opt fuel) (sync light : Bool) :
    ∃ b c, verifyFile fuel opt sync light f = some (b, c) ∧ (b = true ↔ VAccepts f opt sync light fuel) ∧
      (∀ R, c = some R → light = false ∧ R ⊆ f.actions.toFinset ∧
        (sync = false → Excludes f.act f.sys.closedAssume f.sys.invariant R)) ∧
      (light = false → opt.maxNlayers = 0 → Livelocked (f.rel sync light) f.sys.closedAssume f.sys.invariant →
        b = false ∧ ∃ R, c = some R) := by
  have hno : ∀ {l}, Livelocked (f.rel sync l) f.sys.closedAssume f.sys.invariant → ¬ VAccepts f opt sync l fuel := by
    intro l hL ha
    obtain ⟨I, h1, h2⟩ := ha.stab h
    obtain ⟨s, h3, h4, h5⟩ := hL.cycle
    exact h4 (Finset.mem_inter.1 (h1 (cycle_legit h2 h3 h5))).1
  obtain ⟨v, e, hna, -⟩ := stabCk_spec h.ident h.plain h.general (lo := f.rel sync light) (hi := f.rel sync light)
    (f.parts sync light) h.fuel
  unfold verifyFile
  rw [e]
  rcases v with r | _ | _
  · exact ⟨true, none, rfl, ⟨fun _ => ⟨r, e⟩, fun _ => rfl⟩, by simp, fun _ _ hL => absurd ⟨r, e⟩ (hno hL)⟩
  · have hrej : (false = true ↔ VAccepts f opt sync light fuel) := by
      refine ⟨fun h => (by cases h), ?_⟩
      rintro ⟨r, hr⟩
      rw [e] at hr
      cases hr
    simp only
    rcases light with _ | _
    · obtain ⟨c, hc, h1, h2⟩ := stabInfo_spec h.ident h.plain h.general (xn := f.rel sync false) (f.parts sync false)
        h.fuel h.pick (act := f.act) (actions := f.actions)
      rw [if_neg (by simp), hc]
      refine ⟨false, c, rfl, hrej, fun R hR => ⟨rfl, (h1 R hR).1, fun hs => (h1 R hR).2 fun s t hst => ?_⟩,
        fun _ h0 hL => ⟨rfl, h2 h0 hL⟩⟩
      subst hs
      simp only [VFile.rel, Bool.false_eq_true, if_false, Finset.mem_biUnion, List.mem_toFinset] at hst
      exact hst
    · exact ⟨false, none, rfl, hrej, by simp, by simp⟩
  · exact absurd rfl hna

end

variable {σ τ : ℕ → Type} [∀ i, Fintype (σ i)] [∀ i, DecidableEq (σ i)] [∀ i, DecidableEq (τ i)]

/-- Where a learned conflict comes from. -/
def LearnedFrom (opt : VOpt σ τ) (i : ℕ) (c : Finset ℕ) : Prop :=
  ∃ f, opt.files i = some f ∧ opt.light = false ∧ c ⊆ f.actions.toFinset ∧
    (opt.sync = false → Excludes f.act f.sys.closedAssume f.sys.invariant c)

/-- What holds after the rounds `done` (thread, file, interrupted). -/
structure VInv (opt : VOpt σ τ) (fam0 : CFam) (past : List (ℕ × ℕ × Bool)) (s : VState) : Prop where
  found : s.found = true → ∃ x ∈ past, x.2.2 = false ∧ ∃ f, opt.files x.2.1 = some f ∧
    VAccepts f opt.stab opt.sync opt.light (opt.fuel x.2.1) ∧ s.ret = f.actions
  none : s.found = false → s.ret = []
  all : ∀ x ∈ past, x.2.2 = false → ∀ f, opt.files x.2.1 = some f →
    VAccepts f opt.stab opt.sync opt.light (opt.fuel x.2.1) → s.found = true
  anti : ∀ p, Anti (s.fams p).sets
  keep : ∀ p S, Knows fam0 S → Knows (s.fams p) S
  origin : ∀ p, ∀ c ∈ (s.fams p).sets, c ∈ fam0.sets ∨ ∃ x ∈ past, LearnedFrom opt x.2.1 c
  learn : ∀ x ∈ past, x.2.2 = false → ∀ f, opt.files x.2.1 = some f → opt.light = false → opt.stab.maxNlayers = 0 →
    Livelocked (f.rel opt.sync opt.light) f.sys.closedAssume f.sys.invariant → Knows (s.fams x.1) f.actions.toFinset

theorem VInv.same {opt : VOpt σ τ} {fam0 : CFam} {past : List (ℕ × ℕ × Bool)} {s : VState} (h : VInv opt fam0 past s)
    {x : ℕ × ℕ × Bool} (hx : x.2.2 = false → ∀ f, opt.files x.2.1 = some f →
      ¬ VAccepts f opt.stab opt.sync opt.light (opt.fuel x.2.1) ∧ (opt.light = false → opt.stab.maxNlayers = 0 →
        ¬ Livelocked (f.rel opt.sync opt.light) f.sys.closedAssume f.sys.invariant)) : VInv opt fam0 (x :: past) s where
  found hf := by
    obtain ⟨y, hy, h'⟩ := h.found hf
    exact ⟨y, List.mem_cons_of_mem _ hy, h'⟩
  none := h.none
  all y hy hd f hf ha := by
    rcases List.mem_cons.1 hy with rfl | hy
    · exact absurd ha (hx hd f hf).1
    · exact h.all y hy hd f hf ha
  anti := h.anti
  keep := h.keep
  origin p c hc := by
    rcases h.origin p c hc with h | ⟨y, hy, h⟩
    · exact .inl h
    · exact .inr ⟨y, List.mem_cons_of_mem _ hy, h⟩
  learn y hy hd f hf hl hm hL := by
    rcases List.mem_cons.1 hy with rfl | hy
    · exact absurd hL ((hx hd f hf).2 hl hm)
    · exact h.learn y hy hd f hf hl hm hL

theorem verifyRound_inv {opt : VOpt σ τ} (hok : ∀ i f, opt.files i = some f → VFileOk f opt.stab (opt.fuel i))
    {fam0 : CFam} {past : List (ℕ × ℕ × Bool)} {s : VState} (h : VInv opt fam0 past s) (x : ℕ × ℕ × Bool) :
    ∃ s', verifyRound opt x.1 x.2.1 x.2.2 s = some s' ∧ VInv opt fam0 (x :: past) s' := by
  obtain ⟨p, i, done⟩ := x
  unfold verifyRound
  rcases done with _ | _
  swap
  · exact ⟨s, rfl, h.same (by simp)⟩
  simp only [Bool.false_eq_true, if_false]
  rcases hfi : opt.files i with _ | f
  · exact ⟨s, rfl, h.same (by simp [hfi])⟩
  obtain ⟨b, c, e, hb, hc, hL⟩ := verifyFile_spec (hok i f hfi) opt.sync opt.light
  simp only
  rw [e]
  rcases b with _ | _
  · have hnb : ¬ VAccepts f opt.stab opt.sync opt.light (opt.fuel i) := fun h => by cases hb.2 h
    rcases c with _ | R
    · refine ⟨s, rfl, h.same fun _ f' hf' => ?_⟩
      simp only at hf'
      rw [hfi] at hf'
      cases hf'
      refine ⟨hnb, fun h1 h2 h3 => ?_⟩
      obtain ⟨-, R, hR⟩ := hL h1 h2 h3
      cases hR
    · obtain ⟨hl, hsub, hex⟩ := hc R rfl
      have hkn : ∀ q S, Knows (s.fams q) S →
          Knows (Function.update s.fams p (addConflict (fun a b => opt.le a b = true) R (s.fams p)) q) S := by
        intro q S hk
        by_cases hq : q = p
        · subst hq
          rw [Function.update_self]
          exact (addConflict_knows _).2 (.inl hk)
        · rw [Function.update_of_ne hq]; exact hk
      refine ⟨_, rfl, ⟨fun hf => ?_, h.none, fun y hy hd f' hf' ha => ?_, fun q => ?_,
        fun q S hk => hkn q S (h.keep q S hk), fun q c hcq => ?_, fun y hy hd f' hf' h1 h2 h3 => ?_⟩⟩
      · obtain ⟨y, hy, h'⟩ := h.found hf
        exact ⟨y, List.mem_cons_of_mem _ hy, h'⟩
      · rcases List.mem_cons.1 hy with rfl | hy
        · simp only at hf' ha
          rw [hfi] at hf'
          cases hf'
          exact absurd ha hnb
        · exact h.all y hy hd f' hf' ha
      · simp only
        by_cases hq : q = p
        · subst hq
          rw [Function.update_self]
          exact addConflict_anti _ (h.anti q)
        · rw [Function.update_of_ne hq]; exact h.anti q
      · have hcases : c ∈ (s.fams q).sets ∨ c = R := by
          simp only at hcq
          by_cases hq : q = p
          · subst hq
            rw [Function.update_self] at hcq
            exact addConflict_mem _ hcq
          · rw [Function.update_of_ne hq] at hcq; exact .inl hcq
        rcases hcases with hcq | rfl
        · rcases h.origin q c hcq with h | ⟨y, hy, h⟩
          · exact .inl h
          · exact .inr ⟨y, List.mem_cons_of_mem _ hy, h⟩
        · exact .inr ⟨_, List.mem_cons_self .., f, hfi, hl, hsub, hex⟩
      · rcases List.mem_cons.1 hy with rfl | hy
        · simp only at hf'
          rw [hfi] at hf'
          cases hf'
          simp only [Function.update_self]
          exact (addConflict_knows _).2 (.inr hsub)
        · exact hkn _ _ (h.learn y hy hd f' hf' h1 h2 h3)
  · have hacc := hb.1 rfl
    refine ⟨_, rfl, ⟨fun _ => ⟨_, List.mem_cons_self .., rfl, f, hfi, hacc, rfl⟩, by simp, fun _ _ _ _ _ _ => rfl, h.anti,
      h.keep, fun q c hcq => ?_, fun y hy hd f' hf' h1 h2 h3 => ?_⟩⟩
    · rcases h.origin q c hcq with h | ⟨y, hy, h⟩
      · exact .inl h
      · exact .inr ⟨y, List.mem_cons_of_mem _ hy, h⟩
    · rcases List.mem_cons.1 hy with rfl | hy
      · simp only at hf'
        rw [hfi] at hf'
        cases hf'
        cases (hL h1 h2 h3).1
      · exact h.learn y hy hd f' hf' h1 h2 h3

theorem verifyRounds_inv {opt : VOpt σ τ} (hok : ∀ i f, opt.files i = some f → VFileOk f opt.stab (opt.fuel i))
    {fam0 : CFam} : ∀ (l past : List (ℕ × ℕ × Bool)) (s : VState), VInv opt fam0 past s →
    ∃ s', verifyRounds opt l s = some s' ∧ VInv opt fam0 (l.reverse ++ past) s' := by
  intro l
  induction l with
  | nil => exact fun past s h => ⟨s, rfl, h⟩
  | cons x l ih =>
    intro past s h
    obtain ⟨s1, e1, h1⟩ := verifyRound_inv hok h x
    obtain ⟨s2, e2, h2⟩ := ih (x :: past) s1 h1
    obtain ⟨p, i, done⟩ := x
    refine ⟨s2, ?_, by simpa using h2⟩
    unfold verifyRounds
    rw [e1]
    exact e2

theorem addFamily_knows {r : Finset ℕ → Finset ℕ → Prop} [DecidableRel r] {a b : CFam} {S : Finset ℕ} :
    Knows (addFamily r a b) S ↔ Knows a S ∨ Knows b S := by
  have : addFamily r a b = addAll r (a.sets.filter fun x => x ∉ b.sets) b := rfl
  rw [this, addAll_knows]
  constructor
  · rintro (h | ⟨x, hx, h⟩)
    · exact .inr h
    · exact .inl ⟨x, (List.mem_filter.1 hx).1, h⟩
  · rintro (⟨x, hx, h⟩ | h)
    · by_cases hb : x ∈ b.sets
      · exact .inl ⟨x, hb, h⟩
      · exact .inr ⟨x, List.mem_filter.2 ⟨hx, by simpa using hb⟩, h⟩
    · exact .inl h

theorem addFamily_mem {r : Finset ℕ → Finset ℕ → Prop} [DecidableRel r] {a b : CFam} {c : Finset ℕ}
    (h : c ∈ (addFamily r a b).sets) : c ∈ a.sets ∨ c ∈ b.sets := by
  have : addFamily r a b = addAll r (a.sets.filter fun x => x ∉ b.sets) b := rfl
  rw [this] at h
  rcases addAll_mem r h with h | h
  · exact .inr h
  · exact .inl (List.mem_filter.1 h).1

theorem mergeAll {r : Finset ℕ → Finset ℕ → Prop} [DecidableRel r] {fams : ℕ → CFam} : ∀ (order : List ℕ) (sh : CFam),
    Anti sh.sets →
    Anti (order.foldl (fun sh p => addFamily r (fams p) sh) sh).sets ∧
    (∀ S, Knows (order.foldl (fun sh p => addFamily r (fams p) sh) sh) S ↔ Knows sh S ∨ ∃ p ∈ order, Knows (fams p) S) ∧
    ∀ c ∈ (order.foldl (fun sh p => addFamily r (fams p) sh) sh).sets, c ∈ sh.sets ∨ ∃ p ∈ order, c ∈ (fams p).sets := by
  intro order
  induction order with
  | nil => intro sh h; exact ⟨h, by simp, fun c hc => .inl hc⟩
  | cons p order ih =>
    intro sh h
    obtain ⟨h1, h2, h3⟩ := ih (addFamily r (fams p) sh) (addAll_anti r h)
    refine ⟨h1, fun S => ?_, fun c hc => ?_⟩
    · rw [List.foldl_cons, h2 S, addFamily_knows]
      simp only [List.mem_cons, exists_eq_or_imp]
      constructor
      · rintro ((h | h) | h)
        · exact .inr (.inl h)
        · exact .inl h
        · exact .inr (.inr h)
      · rintro (h | h | h)
        · exact .inl (.inr h)
        · exact .inl (.inl h)
        · exact .inr h
    · rcases h3 c hc with h | ⟨q, hq, h⟩
      · rcases addFamily_mem h with h | h
        · exact .inr ⟨p, List.mem_cons_self .., h⟩
        · exact .inl h
      · exact .inr ⟨q, List.mem_cons_of_mem _ hq, h⟩

end Verif.Proofs
