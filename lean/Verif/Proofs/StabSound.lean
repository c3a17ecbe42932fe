import Verif.Proofs.Stab

/-! Helper lemmas: consequences of acceptance. -/

set_option linter.unusedSectionVars false

namespace Verif.Model
open Verif.Spec

universe u v
variable {σ : Type u} [Fintype σ] [DecidableEq σ] {τ : Type v} [DecidableEq τ]

/-- An execution that takes real steps from position `k` on visits a state on a cycle after `k`. -/
theorem recurrent {xn : Finset (σ × σ)} {e : ℕ → σ} {k : ℕ}
    (h : ∀ n, k ≤ n → Step xn (e n) (e (n + 1))) : ∃ m, k ≤ m ∧ OnCycle xn (e m) := by
  have htrans : ∀ i d, k ≤ i → Relation.TransGen (Step xn) (e i) (e (i + d + 1)) := by
    intro i d hi
    induction d with
    | zero => exact Relation.TransGen.single (h i hi)
    | succ d ih => exact ih.tail (h (i + d + 1) (by omega))
  obtain ⟨i, j, hij, heq⟩ := Finite.exists_ne_map_eq_of_infinite (fun n => e (k + n))
  rcases Nat.lt_or_gt_of_ne hij with hlt | hlt
  · refine ⟨k + i, by omega, ?_⟩
    have := htrans (k + i) (j - i - 1) (by omega)
    rw [show k + i + (j - i - 1) + 1 = k + j by omega, ← heq] at this
    exact this
  · refine ⟨k + j, by omega, ?_⟩
    have := htrans (k + j) (i - j - 1) (by omega)
    rw [show k + j + (i - j - 1) + 1 = k + i by omega, heq] at this
    exact this

theorem maxExec_closed {xn : Finset (σ × σ)} {A : Finset σ} (hA : Closed xn A) {e : ℕ → σ}
    (he : MaxExec xn e) {n : ℕ} (h : e n ∈ A) : ∀ m, n ≤ m → e m ∈ A := by
  intro m hm
  induction m, hm using Nat.le_induction with
  | base => exact h
  | succ m _ ih =>
    rcases he m with h1 | ⟨_, h1⟩
    · exact hA _ ih _ h1
    · rw [h1]; exact ih

/-- Convergence from the absence of deadlocks and cycles outside `I`. -/
theorem converge_of {xn : Finset (σ × σ)} {A I : Finset σ} (hA : Closed xn A) (hI : Closed xn I)
    (hd : ∀ s ∈ A, s ∉ I → s ∈ dom xn) (hc : ∀ s ∈ A, OnCycle xn s → s ∈ I) {e : ℕ → σ}
    (he : MaxExec xn e) (h0 : e 0 ∈ A) : ∃ n, ∀ m, n ≤ m → e m ∈ I := by
  have hmem := maxExec_closed hA he h0
  by_cases hex : ∃ n, e n ∈ I
  · obtain ⟨n, hn⟩ := hex
    exact ⟨n, maxExec_closed hI he hn⟩
  · push Not at hex
    exfalso
    have hstep : ∀ n, 0 ≤ n → Step xn (e n) (e (n + 1)) := by
      intro n _
      rcases he n with h | ⟨h, _⟩
      · exact h
      · obtain ⟨t, ht⟩ := mem_dom.1 (hd (e n) (hmem n (Nat.zero_le _)) (hex n))
        exact absurd ht (h t)
    obtain ⟨m, _, hm⟩ := recurrent hstep
    exact hex m (hc _ (hmem m (Nat.zero_le _)) hm)

/-- From a state on a cycle there is an infinite execution. -/
theorem infExec_of_cycle {xn : Finset (σ × σ)} {c : σ} (h : OnCycle xn c) :
    ∃ e, InfExec xn e ∧ e 0 = c := by
  classical
  have hs : ∀ s : {s // OnCycle xn s}, ∃ t : {s // OnCycle xn s}, Step xn s.1 t.1 := by
    rintro ⟨s, hs⟩
    obtain ⟨d, h1, h2, _⟩ := onCycle_succ hs
    exact ⟨⟨d, h2⟩, h1⟩
  choose f hf using hs
  refine ⟨fun n => (f^[n] ⟨c, h⟩).1, ?_, rfl⟩
  intro n
  simp only [Function.iterate_succ_apply']
  exact hf _

theorem expandOf_sup {sys : Sys σ τ} {lo hi : Finset (σ × σ)} {H : Finset σ} (hH : Closed lo H) :
    H ⊆ expandOf sys lo hi H := by
  have hb : ∀ xn : Finset (σ × σ), H ⊆ bwd xn H := fun xn s hs =>
    mem_bwd.2 ⟨s, hs, Relation.ReflTransGen.refl⟩
  unfold expandOf
  cases sys.style
  · exact Finset.Subset.refl _
  · exact Finset.Subset.refl _
  · exact cls_greatest (hb _) hH
  · exact cls_greatest (hb _) hH

theorem expandOf_closed {sys : Sys σ τ} {lo hi : Finset (σ × σ)} {H : Finset σ}
    (hH : Closed lo H) : Closed lo (expandOf sys lo hi H) := by
  unfold expandOf
  cases sys.style
  · exact hH
  · exact hH
  · exact cls_closed
  · exact cls_closed

theorem self_src {sys : Sys σ τ} {e : σ × σ} (h : e ∈ sys.self) : e.1 ∈ sys.shInv :=
  (mem_restr.1 h).2

theorem live_src {sys : Sys σ τ} {e : σ × σ} (h : e ∈ sys.live) : e.1 ∈ sys.shInv :=
  (mem_restr.1 h).2

theorem expandOf_sub {sys : Sys σ τ} {lo hi : Finset (σ × σ)} {H : Finset σ}
    (hH : H ⊆ sys.shInv) : expandOf sys lo hi H ⊆ sys.shInv := by
  have key : ∀ R : Finset (σ × σ), (∀ e ∈ R, e.1 ∈ sys.shInv) → cls lo (bwd R H) ⊆ sys.shInv := by
    intro R hR s hs
    obtain ⟨t, ht, hr⟩ := mem_bwd.1 (cls_subset hs)
    rcases Relation.ReflTransGen.cases_head hr with rfl | ⟨u, hu, _⟩
    · exact hH ht
    · exact hR _ hu
  unfold expandOf
  cases sys.style
  · exact hH
  · exact hH
  · apply key
    intro e he
    rcases Finset.mem_union.1 (Finset.mem_inter.1 he).2 with h | h
    · exact self_src h
    · exact live_src h
  · apply key
    intro e he
    exact live_src (Finset.mem_inter.1 he).2

theorem ShFix.sub_inv {sys : Sys σ τ} {lo hi : Finset (σ × σ)} {H : Finset σ}
    (h : ShFix sys lo hi H) : H ⊆ sys.shInv := fun _ hs => (Finset.mem_sdiff.1 (h.sub hs)).1

/-- Every `lo` transition from `H` is an allowed one. -/
theorem ShFix.allowed {sys : Sys σ τ} {lo hi : Finset (σ × σ)} {H : Finset σ}
    (h : ShFix sys lo hi H) {s t : σ} (hs : s ∈ H) (hst : (s, t) ∈ lo) :
    (s, t) ∈ liveOf sys hi ∨ (s, t) ∈ selfOf sys hi := by
  have h3 := (Finset.mem_sdiff.1 (h.sub hs)).2
  by_contra hc
  rw [← Finset.mem_union] at hc
  exact h3 (mem_dom.2 ⟨t, Finset.mem_sdiff.2 ⟨hst, hc⟩⟩)

theorem projP_nonempty {sys : Sys σ τ} {P : Finset σ} : (projP sys P).Nonempty ↔ P.Nonempty := by
  constructor
  · rintro ⟨s, hs⟩
    obtain ⟨_, s', hs', _⟩ := Finset.mem_filter.1 hs
    exact ⟨s', hs'⟩
  · rintro ⟨s, hs⟩
    exact ⟨s, Finset.mem_filter.2 ⟨Finset.mem_univ _, s, hs, rfl⟩⟩

/-- The set to which an accepted protocol converges, with the properties common to both
branches. -/
theorem accept_core {sys : Sys σ τ} {lo hi : Finset (σ × σ)} {ps : List (Finset (σ × σ))}
    {scc I : Finset σ} (h : StabAcceptG sys lo hi ps scc I) (hsA : scc ⊆ sys.closedAssume) :
    ∃ H, H ⊆ I ∧ I ⊆ sys.shInv ∧ Closed lo H ∧ Closed lo I ∧ H.Nonempty ∧ CO sys ps scc H ∧
      ((sys.shadowPuppet = false ∧ sys.scope ≠ .future ∧ DirectOk sys lo hi ∧ I = sys.shInv ∧ H = I) ∨
       (¬ (sys.shadowPuppet = false ∧ sys.scope ≠ .future) ∧ GeneralOk sys lo hi ps scc H I)) := by
  rcases h.shadow.2 with ⟨h1, h2, h3, h4⟩ | ⟨h1, H, hg⟩
  · subst h4
    have hsub : scc ⊆ sys.shInv := fun s hs' => Finset.mem_inter.2 ⟨h.scc_inv hs', hsA hs'⟩
    refine ⟨_, Finset.Subset.refl _, Finset.Subset.refl _, h3.closed, h3.closed, h.nonempty,
      ?_, Or.inl ⟨h1, h2, h3, rfl, rfl⟩⟩
    unfold CO
    split
    · intro X hX
      have : scc \ sys.shInv = ∅ := Finset.sdiff_eq_empty_iff_subset.2 hsub
      rw [this] at hX
      exact Finset.subset_empty.1 hX.1
    · exact hsub
  · have hcl := hg.isH.1.closed
    have hsub := hg.isH.1.sub_inv
    refine ⟨H, ?_, ?_, hcl, ?_, ?_, hg.scc_sub, Or.inr ⟨h1, hg⟩⟩
    · rw [hg.final]; exact expandOf_sup hcl
    · rw [hg.final]; exact expandOf_sub hsub
    · rw [hg.final]; exact expandOf_closed hcl
    · by_cases hs : sys.scope = .future
      · exact hg.future hs
      · rw [← projP_nonempty (sys := sys), ← hg.projP hs, projP_nonempty]
        exact h.nonempty

/-- Deadlock-free outside `H`, given that there are none outside `I` and that states of `I \ H`
have a path to `H`. -/
theorem no_deadlock_outside_H {sys : Sys σ τ} {xn : Finset (σ × σ)} {H I : Finset σ}
    (hdI : ∀ s ∈ sys.closedAssume, s ∉ I → s ∈ dom xn)
    (hbr : H = I ∨ I = expandOf sys xn xn H) :
    ∀ s ∈ sys.closedAssume, s ∉ H → s ∈ dom xn := by
  intro s hsA hsH
  by_cases hsI : s ∈ I
  · rcases hbr with rfl | h
    · exact absurd hsI hsH
    · rw [h] at hsI
      have key : ∀ R : Finset (σ × σ), s ∈ cls xn (bwd (xn ∩ R) H) → s ∈ dom xn := by
        intro R hs
        obtain ⟨t, ht, hr⟩ := mem_bwd.1 (cls_subset hs)
        rcases Relation.ReflTransGen.cases_head hr with rfl | ⟨u, hu, _⟩
        · exact absurd ht hsH
        · exact mem_dom.2 ⟨u, (Finset.mem_inter.1 hu).1⟩
      unfold expandOf at hsI
      cases hst : sys.style <;> rw [hst] at hsI <;> simp only at hsI
      · exact absurd hsI hsH
      · exact absurd hsI hsH
      · exact key _ hsI
      · exact key _ hsI
  · exact hdI s hsA hsI

theorem exists_maxExec (xn : Finset (σ × σ)) (s : σ) : ∃ e, MaxExec xn e ∧ e 0 = s := by
  classical
  have h : ∀ s, ∃ t, Step xn s t ∨ (Deadlock xn s ∧ t = s) := by
    intro s
    by_cases hd : ∃ t, Step xn s t
    · obtain ⟨t, ht⟩ := hd; exact ⟨t, Or.inl ht⟩
    · push Not at hd; exact ⟨s, Or.inr ⟨hd, rfl⟩⟩
  choose f hf using h
  refine ⟨fun n => f^[n] s, ?_, rfl⟩
  intro n
  simp only [Function.iterate_succ_apply']
  exact hf _

theorem reachIn_of_maxExec {xn : Finset (σ × σ)} {A : Finset σ} (hA : Closed xn A) {e : ℕ → σ}
    (he : MaxExec xn e) (h0 : e 0 ∈ A) (n : ℕ) : ReachIn xn A (e 0) (e n) := by
  refine ⟨h0, ?_⟩
  induction n with
  | zero => exact Relation.ReflTransGen.refl
  | succ n ih =>
    rcases he n with h | ⟨_, h⟩
    · exact ih.tail ⟨h, hA _ (maxExec_closed hA he h0 n (Nat.zero_le _)) _ h⟩
    · rw [h]; exact ih

theorem reachIn_mono {xn yn : Finset (σ × σ)} (h : xn ⊆ yn) {A : Finset σ} {s t : σ}
    (hr : ReachIn xn A s t) : ReachIn yn A s t :=
  ⟨hr.1, Relation.ReflTransGen.mono
    (fun _ _ (he : _ ∧ _) => (⟨h he.1, he.2⟩ : Step yn _ _ ∧ _)) _ _ hr.2⟩

theorem imgN_mono {xn yn : Finset (σ × σ)} (h : xn ⊆ yn) {A : Finset σ} (k : ℕ) :
    imgN xn A k ⊆ imgN yn A k := by
  induction k with
  | zero => exact Finset.Subset.refl _
  | succ k ih =>
    intro t ht
    obtain ⟨s, hs, hst⟩ := mem_img.1 ht
    exact mem_img.2 ⟨s, ih hs, h hst⟩

/-- Convergence of an accepted protocol to `H`. -/
theorem accept_converges {sys : Sys σ τ} (hnp : sys.probabilistic = false) {xn : Finset (σ × σ)}
    {ps : List (Finset (σ × σ))} {I : Finset σ}
    (h : StabAcceptG sys xn xn ps (sccOf xn sys.closedAssume) I) :
    ∃ H, H ⊆ I ∧ I ⊆ sys.shInv ∧ SelfStab xn sys.closedAssume H ∧ SelfStab xn sys.closedAssume I ∧
      sccOf xn sys.closedAssume ⊆ H ∧
      ((sys.shadowPuppet = false ∧ sys.scope ≠ .future ∧ DirectOk sys xn xn ∧ I = sys.shInv ∧ H = I) ∨
       (¬ (sys.shadowPuppet = false ∧ sys.scope ≠ .future) ∧
         GeneralOk sys xn xn ps (sccOf xn sys.closedAssume) H I)) := by
  obtain ⟨H, h1, h2, h3, h4, h5, h6, h7⟩ := accept_core h (sccOf_subset h.closedA)
  have hco : sccOf xn sys.closedAssume ⊆ H := by simpa [CO, hnp] using h6
  have hIA : I ⊆ sys.closedAssume := h2.trans Finset.inter_subset_right
  have hdl := no_deadlock_outside_H (H := H) (I := I) h.deadlock' (by
    rcases h7 with ⟨_, _, _, _, h⟩ | ⟨_, hg⟩
    · exact Or.inl h
    · exact Or.inr hg.final)
  refine ⟨H, h1, h2, ⟨h5, h1.trans hIA, h.closedA, h3, ?_⟩, ⟨h5.mono h1, hIA, h.closedA, h4, ?_⟩,
    hco, h7⟩
  · intro e he h0
    exact converge_of h.closedA h3 hdl (fun s hs hc => hco (mem_sccOf_of_cycle hs hc)) he h0
  · intro e he h0
    exact converge_of h.closedA h4 h.deadlock' (fun s hs hc => h1 (hco (mem_sccOf_of_cycle hs hc)))
      he h0

/-- At a counted fixpoint all states are in the invariant. -/
theorem stop_sub {sys : Sys σ τ} {opt : StabOpt} {xn : Finset (σ × σ)} {H : Finset σ}
    (hA : Closed xn sys.closedAssume) (hH : Closed xn H) (hHi : H ⊆ sys.invariant)
    (hs : sccOf xn sys.closedAssume ⊆ H) {k : ℕ}
    (h : Stop xn (opt.layerInv sys) sys.closedAssume k) :
    imgN xn sys.closedAssume k ⊆ sys.invariant := by
  rcases h with h | ⟨I, hI, h⟩
  · intro s hs'
    obtain ⟨c, hc, hc1, hc2⟩ := fix_from_cycle h hs'
    obtain ⟨a, ha, hac⟩ := fix_cycle_from hc
    exact hHi (reach_closed hH (hs (mem_sccOf_of_cycle (reach_closed hA ha hac) hc1)) hc2)
  · have : I = sys.invariant := by
      unfold StabOpt.layerInv at hI
      split at hI
      · cases hI; rfl
      · cases hI
    rw [← this]; exact h

theorem cls_mono {xn yn : Finset (σ × σ)} (h : xn ⊆ yn) {p q : Finset σ} (hpq : p ⊆ q) :
    cls yn p ⊆ cls xn q := fun _ hs => mem_cls.2 fun t ht => hpq (mem_cls.1 hs t (reach_mono h ht))

theorem bwd_mono {xn yn : Finset (σ × σ)} (h : xn ⊆ yn) {p q : Finset σ} (hpq : p ⊆ q) :
    bwd xn p ⊆ bwd yn q := by
  intro s hs
  obtain ⟨t, ht, hr⟩ := mem_bwd.1 hs
  exact mem_bwd.2 ⟨t, hpq ht, reach_mono h hr⟩

theorem expandOf_mono {sys : Sys σ τ} {lo xn yn hi : Finset (σ × σ)} (h1 : lo ⊆ yn) (h2 : xn ⊆ hi)
    {H H' : Finset σ} (hH : H ⊆ H') : expandOf sys yn xn H ⊆ expandOf sys lo hi H' := by
  unfold expandOf
  cases sys.style
  · exact hH
  · exact hH
  · exact cls_mono h1 (bwd_mono (Finset.inter_subset_inter_right h2) hH)
  · exact cls_mono h1 (bwd_mono (Finset.inter_subset_inter_right h2) hH)

theorem exists_isH (sys : Sys σ τ) (lo hi : Finset (σ × σ)) : ∃ H, IsH sys lo hi H := by
  obtain ⟨H, _, h1, h2⟩ := shLoop_total (lo := lo) (L := liveOf sys hi) (S := selfOf sys hi)
    (T := candOf sys lo hi) (beg := sys.shInv \ rng sys.live) (fin := sys.shInv \ dom sys.live)
    (Nat.lt_succ_self (Fintype.card σ))
  exact ⟨H, h1, h2⟩

theorem projP_mono {sys : Sys σ τ} {P Q : Finset σ} (h : P ⊆ Q) : projP sys P ⊆ projP sys Q := by
  intro s hs
  obtain ⟨_, s', hs', h2⟩ := Finset.mem_filter.1 hs
  exact Finset.mem_filter.2 ⟨Finset.mem_univ _, s', h hs', h2⟩

theorem projX_mono {sys : Sys σ τ} {P Q : Finset (σ × σ)} (h : P ⊆ Q) :
    projX sys P ⊆ projX sys Q := by
  intro s hs
  obtain ⟨_, s', hs', h2⟩ := Finset.mem_filter.1 hs
  exact Finset.mem_filter.2 ⟨Finset.mem_univ _, s', h hs', h2⟩

/-- Monotonicity of the trimming fixpoint. -/
theorem shFix_mono {sys : Sys σ τ} {lo xn hi : Finset (σ × σ)} (h1 : lo ⊆ xn) (h2 : xn ⊆ hi)
    {H : Finset σ} (h : ShFix sys xn xn H) : ShFix sys lo hi H := by
  refine Fix.mono h h1 (liveOf_mono sys h2) (selfOf_mono sys h2) ?_
  intro s hs
  obtain ⟨h3, h4⟩ := Finset.mem_sdiff.1 hs
  refine Finset.mem_sdiff.2 ⟨h3, ?_⟩
  intro h5
  obtain ⟨t, ht⟩ := mem_dom.1 h5
  obtain ⟨h6, h7⟩ := Finset.mem_sdiff.1 ht
  apply h4
  refine mem_dom.2 ⟨t, Finset.mem_sdiff.2 ⟨h1 h6, fun h8 => h7 ?_⟩⟩
  exact Finset.union_subset_union (liveOf_mono sys h2) (selfOf_mono sys h2) h8

/-- Acceptance of a completion implies acceptance of the partial protocol. -/
theorem accept_mono {sys : Sys σ τ} (hnp : sys.probabilistic = false)
    (hact : sys.behav ≠ .activeShadow ∨ (sys.shadowPuppet = false ∧ sys.scope ≠ .future))
    {lo xn hi : Finset (σ × σ)} (h1 : lo ⊆ xn) (h2 : xn ⊆ hi) {ps ps' : List (Finset (σ × σ))}
    {I : Finset σ} (h : StabAcceptG sys xn xn ps (sccOf xn sys.closedAssume) I) :
    ∃ J, I ⊆ J ∧ StabAcceptG sys lo hi ps' (sccOf lo sys.closedAssume) J := by
  have hsm : sccOf lo sys.closedAssume ⊆ sccOf xn sys.closedAssume :=
    sccOf_mono h1 (Finset.Subset.refl _)
  have hdm := dom_mono h2
  obtain ⟨H, hHI, hIs, hHst, hIst, hsccH, hbr⟩ := accept_converges hnp h
  have main : ∃ J, I ⊆ J ∧ ShAccept sys lo hi ps' (sccOf lo sys.closedAssume) J := by
    have hsil : ¬ (sys.behav = .silent ∧ (sccOf lo sys.closedAssume).Nonempty) :=
      fun ⟨h3, h4⟩ => h.shadow.1 ⟨h3, h4.mono hsm⟩
    rcases hbr with ⟨h3, h4, h5, h6, _⟩ | ⟨h3, hg⟩
    · refine ⟨sys.shInv, by rw [h6], hsil, Or.inl ⟨h3, h4, ⟨?_, ?_, ?_, ?_⟩, rfl⟩⟩
      · intro s hs t hst; exact h5.closed s hs t (h1 hst)
      · intro hst e he he1; exact h2 (h5.shadow_sub hst e he he1)
      · intro hst e he he1; exact h5.sub_shadow hst e (h1 he) he1
      · intro hb; exact (h5.active hb).trans hdm
    · obtain ⟨H', hH'⟩ := exists_isH sys lo hi
      have hHH : H ⊆ H' := hH'.2 H (shFix_mono h1 h2 hg.isH.1)
      have hexp : I ⊆ expandOf sys lo hi H' := by
        rw [hg.final]; exact expandOf_mono h1 h2 hHH
      refine ⟨expandOf sys lo hi H', hexp, hsil, Or.inr ⟨h3, H', ?_⟩⟩
      refine ⟨?_, hH', fun hs => (hg.future hs).mono hHH, ?_, ?_, ?_, ?_, rfl, ?_⟩
      · have := hg.noStutter
        simp only [NS, hnp, Bool.false_eq_true, if_false] at this ⊢
        intro a ha ha' c hc hcc
        exact this a (hsm ha) ha' c (reach_mono (Finset.inter_subset_inter_right h1) hc)
          (onCycle_mono (Finset.inter_subset_inter_right h1) hcc)
      · intro hs
        apply Finset.Subset.antisymm
        · rw [hg.projP hs]; exact projP_mono hHH
        · exact projP_mono hH'.1.sub_inv
      · intro hs
        apply Finset.Subset.antisymm
        · rw [hg.projX hs]; exact projX_mono (within_mono (liveOf_mono sys h2) hHH)
        · apply projX_mono
          intro e he
          exact (Finset.mem_inter.1 (liveOf_sub sys hi (mem_within.1 he).1)).2
      · simp only [CO, hnp, Bool.false_eq_true, if_false]
        exact hsm.trans (hsccH.trans hHH)
      · intro hb
        rcases hact with hact | hact
        · exact absurd hb hact
        · exact absurd hact h3
      · intro hs
        apply Finset.Subset.antisymm
        · exact expandOf_sub hH'.1.sub_inv
        · rw [← hg.direct hs]; exact hexp
  obtain ⟨J, hIJ, hJ⟩ := main
  refine ⟨J, hIJ, h.nonempty, ?_, ?_, ?_, ?_, hJ, ?_, ?_⟩
  · intro hp e he; exact h.noSelf hp e (h1 he)
  · intro s hs t hst; exact h.closedA s hs t (h1 hst)
  · intro s hs hs'; exact hdm (h.deadlock s hs hs')
  · exact hsm.trans h.scc_inv
  · intro s hs hs'; exact hdm (h.deadlock' s hs fun h3 => hs' (hIJ h3))
  · intro _ s hs
    obtain ⟨e, he, rfl⟩ := exists_maxExec xn s
    obtain ⟨n, hn⟩ := hIst.converges e he hs
    exact ⟨e n, hIJ (hn n (le_refl _)), reachIn_mono h2 (reachIn_of_maxExec h.closedA he hs n)⟩

/-- Extract acceptance conditions. -/
theorem accepted {sys : Sys σ τ} (hid : ∀ e, e ∈ sys.identXn ↔ e.1 = e.2)
    (hnp : sys.probabilistic = false) {opt : StabOpt} (hnu : opt.uniring = false)
    {lo hi : Finset (σ × σ)} {ps : List (Finset (σ × σ))} {fuel : ℕ}
    (hf : 2 * Fintype.card σ + 1 < fuel) {I : Finset σ} {n : ℕ} :
    stabCk fuel sys opt lo hi ps = some (.accept (I, n)) ↔
      Layers sys opt lo n ∧ StabAcceptG sys lo hi ps (sccOf lo sys.closedAssume) I := by
  obtain ⟨v, h1, _, h3⟩ := stabCk_spec hid hnp hnu (opt := opt) (lo := lo) (hi := hi) ps hf
  rw [h1, ← h3 I n, Option.some.injEq]

/-- Facts about the trimmed invariant `H` of an accepted protocol. -/
theorem general_sim {sys : Sys σ τ} (hid : ∀ e, e ∈ sys.identXn ↔ e.1 = e.2)
    {xn : Finset (σ × σ)} {H : Finset σ} (hH : ShFix sys xn xn H) :
    (∀ s ∈ H, ∀ t, Step xn s t →
      sys.proj t = sys.proj s ∨ ShadowStep sys.shadowXn sys.proj s t) ∧
    ∀ s ∈ H, Deadlock xn s → ¬ ShadowEnabled sys.shadowXn sys.proj s := by
  constructor
  · intro s hs t hst
    rcases hH.allowed hs hst with h | h
    · have := (Finset.mem_inter.1 (liveOf_sub sys xn h)).2
      exact Or.inr (mem_live.1 this).2
    · have := (Finset.mem_inter.1 (selfOf_sub sys xn h)).2
      exact Or.inl ((mem_self hid).1 this).2.symm
  · intro s hs hdl hen
    obtain ⟨f, hf, hr⟩ := hH.to_fin s hs
    have hsf : s = f := by
      rcases Relation.ReflTransGen.cases_head hr with h | ⟨u, hu, _⟩
      · exact h
      · exact absurd (Finset.mem_inter.1 (selfOf_sub sys xn (mem_within.1 hu).1)).1 (hdl u)
    subst hsf
    rcases Finset.mem_union.1 hf with h | h
    · exact (Finset.mem_sdiff.1 h).2 (mem_dom_live.2 ⟨hH.sub_inv hs, hen⟩)
    · obtain ⟨t, ht⟩ := mem_dom.1 h
      exact hdl t (Finset.mem_inter.1 (liveOf_sub sys xn (mem_within.1 ht).1)).1

theorem general_sim_exec {sys : Sys σ τ} (hid : ∀ e, e ∈ sys.identXn ↔ e.1 = e.2)
    {xn : Finset (σ × σ)} {H : Finset σ} (hH : ShFix sys xn xn H) (hHA : H ⊆ sys.closedAssume)
    (hns : NoStutter sys xn (sccOf xn sys.closedAssume)) {e : ℕ → σ} (he : MaxExec xn e) {n : ℕ}
    (hn : ∀ m, n ≤ m → e m ∈ H) :
    (∀ m, n ≤ m → Step xn (e m) (e (m + 1)) →
      sys.proj (e (m + 1)) = sys.proj (e m) ∨
        ShadowStep sys.shadowXn sys.proj (e m) (e (m + 1))) ∧
    ∀ k, n ≤ k → (∀ m, k ≤ m → sys.proj (e (m + 1)) = sys.proj (e m)) →
      ¬ ShadowEnabled sys.shadowXn sys.proj (e k) := by
  obtain ⟨h1, h2⟩ := general_sim hid hH
  refine ⟨fun m hm hst => h1 _ (hn m hm) _ hst, ?_⟩
  intro k hk hconst hen
  have hview : ∀ m, k ≤ m → sys.proj (e m) = sys.proj (e k) := by
    intro m hm
    induction m, hm using Nat.le_induction with
    | base => rfl
    | succ m hm ih => rw [hconst m hm, ih]
  have hen' : ∀ m, k ≤ m → ShadowEnabled sys.shadowXn sys.proj (e m) := by
    intro m hm
    obtain ⟨f, hf, hf'⟩ := hen
    exact ⟨f, hf, by rw [hf', hview m hm]⟩
  have hreal : ∀ m, k ≤ m → Step xn (e m) (e (m + 1)) := by
    intro m hm
    rcases he m with h | ⟨h, _⟩
    · exact h
    · exact absurd (hen' m hm) (h2 _ (hn m (hk.trans hm)) h)
  obtain ⟨m, hm, hc⟩ := recurrent (xn := xn ∩ sys.self) (k := k) (fun m hm =>
    Finset.mem_inter.2 ⟨hreal m hm, (mem_self hid).2
      ⟨hH.sub_inv (hn m (hk.trans hm)), (hconst m hm).symm⟩⟩)
  have hmH := hn m (hk.trans hm)
  exact hns (e m) (mem_sccOf_of_cycle (hHA hmH) (onCycle_mono Finset.inter_subset_left hc))
    (mem_dom_live.2 ⟨hH.sub_inv hmH, hen' m hm⟩) _ Relation.ReflTransGen.refl hc

end Verif.Model
