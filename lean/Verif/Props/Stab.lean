import Verif.Proofs.StabSound

/-!
# Properties C11–C14, C50–C52, C54: the stabilization check of `src/stabilization.cc`

Throughout, `hid` says that the system has no random-read variables (then `identity_xn` is the
diagonal), `hnp` that no variable is assigned randomly, and `hnu` that the special cycle check for
unidirectional rings is not requested.
-/

set_option linter.unusedSectionVars false

namespace Verif.Props
open Verif.Spec Verif.Model

universe u v
variable {σ : Type u} [Fintype σ] [DecidableEq σ] {τ : Type v} [DecidableEq τ]

/-- **C51.** The check terminates and none of its `Claim`s fails, for every protocol. -/
theorem C51_stabilization_ck_total (sys : Sys σ τ) (hid : ∀ e, e ∈ sys.identXn ↔ e.1 = e.2)
    (hnp : sys.probabilistic = false) (opt : StabOpt) (hnu : opt.uniring = false)
    (lo hi : Finset (σ × σ)) (ps : List (Finset (σ × σ))) (fuel : ℕ)
    (hf : 2 * Fintype.card σ + 1 < fuel) :
    ∃ v, stabCk fuel sys opt lo hi ps = some v ∧ v ≠ .abort := by
  obtain ⟨v, h1, h2, _⟩ := stabCk_spec hid hnp hnu (opt := opt) (lo := lo) (hi := hi) ps hf
  exact ⟨v, h1, h2⟩

/-- **C13.** Any accepted protocol (direct or shadow/puppet, any invariant style, scope and
behaviour) self-stabilizes to the reported invariant, which is part of the specified one; and
after `n - 1` steps, where `n` is the reported number of layers, every execution is inside the
specified invariant. -/
theorem C13_accept_selfstab (sys : Sys σ τ) (hid : ∀ e, e ∈ sys.identXn ↔ e.1 = e.2)
    (hnp : sys.probabilistic = false) (opt : StabOpt) (hnu : opt.uniring = false)
    (xn : Finset (σ × σ)) (ps : List (Finset (σ × σ))) (fuel : ℕ)
    (hf : 2 * Fintype.card σ + 1 < fuel) (I : Finset σ) (n : ℕ)
    (h : stabCk fuel sys opt xn xn ps = some (.accept (I, n))) :
    I ⊆ sys.invariant ∩ sys.closedAssume ∧ SelfStab xn sys.closedAssume I ∧
      (opt.maxNlayers = 0 ∨ n ≤ opt.maxNlayers) ∧
      ∀ s ∈ sys.closedAssume, ∀ t, StepN xn (n - 1) s t → t ∈ sys.invariant := by
  obtain ⟨⟨k, hk, _, rfl, hm⟩, ha⟩ := (accepted hid hnp hnu hf).1 h
  obtain ⟨H, hHI, hIs, hH, hI, hs, _⟩ := accept_converges hnp ha
  refine ⟨hIs, hI, hm, ?_⟩
  intro s hsA t hst
  exact stop_sub ha.closedA hI.closed (hIs.trans Finset.inter_subset_left) (hs.trans hHI) hk
    (mem_imgN.2 ⟨s, hsA, by simpa using hst⟩)

/-- **C11.** An accepted direct protocol self-stabilizes to the specified invariant (within the
assumed states), and does so within `n - 1` steps. -/
theorem C11_direct_accept_selfstab (sys : Sys σ τ) (hid : ∀ e, e ∈ sys.identXn ↔ e.1 = e.2)
    (hnp : sys.probabilistic = false) (hd : sys.shadowPuppet = false) (hs : sys.scope ≠ .future)
    (opt : StabOpt) (hnu : opt.uniring = false)
    (xn : Finset (σ × σ)) (ps : List (Finset (σ × σ))) (fuel : ℕ)
    (hf : 2 * Fintype.card σ + 1 < fuel) (I : Finset σ) (n : ℕ)
    (h : stabCk fuel sys opt xn xn ps = some (.accept (I, n))) :
    I = sys.invariant ∩ sys.closedAssume ∧
      SelfStab xn sys.closedAssume (sys.invariant ∩ sys.closedAssume) ∧
      ∀ s ∈ sys.closedAssume, ∀ m ≥ n - 1, ∀ t, StepN xn m s t →
        t ∈ sys.invariant ∩ sys.closedAssume := by
  obtain ⟨_, h2, _, h4⟩ := C13_accept_selfstab sys hid hnp opt hnu xn ps fuel hf I n h
  obtain ⟨_, ha⟩ := (accepted hid hnp hnu hf).1 h
  have hI : I = sys.shInv := by
    rcases ha.shadow.2 with ⟨_, _, _, h⟩ | ⟨h, _⟩
    · exact h
    · exact absurd ⟨hd, hs⟩ h
  subst hI
  refine ⟨rfl, h2, ?_⟩
  intro s hsA m hm
  induction m, hm using Nat.le_induction with
  | base =>
    intro t hst
    refine Finset.mem_inter.2 ⟨h4 s hsA t hst, ?_⟩
    obtain ⟨s, hs, hst⟩ : ∃ s ∈ sys.closedAssume, StepN xn (n - 1) s t := ⟨s, hsA, hst⟩
    have : t ∈ imgN xn sys.closedAssume (n - 1) := mem_imgN.2 ⟨s, hs, hst⟩
    clear hst
    have hanti : ∀ k, imgN xn sys.closedAssume k ⊆ sys.closedAssume := by
      intro k
      induction k with
      | zero => exact Finset.Subset.refl _
      | succ k ih => exact (imgN_anti ha.closedA k).trans ih
    exact hanti _ this
  | succ m _ ih =>
    intro t hst
    obtain ⟨u, hu, hut⟩ := stepN_succ'.1 hst
    exact h2.closed _ (ih u hu) _ hut

/-- A direct protocol on four states: `3 → 2 → 0`, `1 → 0`, `0 ⇄ 1` specified inside the
invariant `{0, 1}`; accepted with three layers (two steps). -/
def exDirect (style : Style) (behav : Behav) : Sys (Fin 4) (Fin 4) where
  invariant := {0, 1}
  closedAssume := Finset.univ
  shadowXn := {(0, 1), (1, 0)}
  identXn := {(0, 0), (1, 1), (2, 2), (3, 3)}
  proj := id
  shadowPuppet := false
  probabilistic := false
  style := style
  scope := .direct
  behav := behav

example : (∀ e, e ∈ (exDirect .shadow .shadow).identXn ↔ e.1 = e.2) ∧
    stabCk 10 (exDirect .shadow .shadow) ⟨0, true, false⟩ {(3, 2), (2, 0), (1, 0), (0, 1)}
      {(3, 2), (2, 0), (1, 0), (0, 1)} [] = some (.accept ({0, 1}, 3)) := by decide +kernel

/-- **C12.** Without a layer limit, a direct protocol is accepted *exactly* if it
self-stabilizes to the specified invariant, has no self-loop at an assumed state, behaves inside
the invariant as specified (unless the style is "closed"), has no infinite execution if silence is
demanded, and has no deadlock in the invariant if activity is demanded. -/
theorem C12_direct_accept_iff (sys : Sys σ τ) (hid : ∀ e, e ∈ sys.identXn ↔ e.1 = e.2)
    (hnp : sys.probabilistic = false) (hd : sys.shadowPuppet = false) (hs : sys.scope ≠ .future)
    (opt : StabOpt) (hnu : opt.uniring = false) (hl : opt.maxNlayers = 0)
    (xn : Finset (σ × σ)) (ps : List (Finset (σ × σ))) (fuel : ℕ)
    (hf : 2 * Fintype.card σ + 1 < fuel) :
    (∃ I n, stabCk fuel sys opt xn xn ps = some (.accept (I, n))) ↔
      SelfStab xn sys.closedAssume (sys.invariant ∩ sys.closedAssume) ∧
      (∀ s ∈ sys.closedAssume, ¬ Step xn s s) ∧
      (sys.style ≠ .closed → ∀ s ∈ sys.invariant ∩ sys.closedAssume, ∀ t,
        Step xn s t ↔ Step sys.shadowXn s t) ∧
      (sys.behav = .silent → ∀ e, InfExec xn e → e 0 ∉ sys.closedAssume) ∧
      (sys.behav = .activeShadow ∨ sys.style = .activeShadow →
        ∀ s ∈ sys.invariant ∩ sys.closedAssume, ¬ Deadlock xn s) := by
  constructor
  · rintro ⟨I, n, h⟩
    obtain ⟨hI, hst, _⟩ := C11_direct_accept_selfstab sys hid hnp hd hs opt hnu xn ps fuel hf I n h
    obtain ⟨_, ha⟩ := (accepted hid hnp hnu hf).1 h
    rcases ha.shadow.2 with ⟨_, _, hok, _⟩ | ⟨h, _⟩
    · refine ⟨hst, ?_, ?_, ?_, ?_⟩
      · intro s hsA hss
        exact ha.noSelf hnp (s, s) hss ((hid _).2 rfl) hsA
      · intro hc s hsI t
        exact ⟨fun h => hok.sub_shadow hc (s, t) h hsI, fun h => hok.shadow_sub hc (s, t) h hsI⟩
      · intro hb e he h0
        obtain ⟨m, _, hm⟩ := recurrent (k := 0) (fun n _ => he n)
        have hmA := maxExec_closed ha.closedA (fun n => Or.inl (he n)) h0 m (Nat.zero_le _)
        exact ha.shadow.1 ⟨hb, _, mem_sccOf_of_cycle hmA hm⟩
      · intro hb s hsI hdl
        obtain ⟨t, ht⟩ := mem_dom.1 (hok.active hb hsI)
        exact hdl t ht
    · exact absurd ⟨hd, hs⟩ h
  · rintro ⟨hst, hns, hbeh, hsil, hact⟩
    have hcyc : ∀ c ∈ sys.closedAssume, OnCycle xn c → c ∈ sys.shInv := by
      intro c hcA hc
      obtain ⟨e, he, h0⟩ := infExec_of_cycle hc
      -- walk around the cycle: some later state is in the invariant; the invariant is closed
      obtain ⟨f, hf1, hf2, hf3⟩ : ∃ f : ℕ → σ, InfExec xn f ∧ f 0 = c ∧
          ∀ n, Reach xn (f n) c := by
        classical
        have hs : ∀ s : {s // Relation.TransGen (Step xn) s c},
            ∃ t : {s // Relation.TransGen (Step xn) s c}, Step xn s.1 t.1 := by
          rintro ⟨s, hs⟩
          obtain ⟨t, hst', htc⟩ := Relation.TransGen.head'_iff.1 hs
          rcases Relation.ReflTransGen.cases_head htc with rfl | ⟨u, hu, huc⟩
          · exact ⟨⟨_, hc⟩, hst'⟩
          · exact ⟨⟨t, Relation.TransGen.head' hu huc⟩, hst'⟩
        choose g hg using hs
        refine ⟨fun n => (g^[n] ⟨c, hc⟩).1, ?_, rfl, ?_⟩
        · intro n
          simp only [Function.iterate_succ_apply']
          exact hg _
        · intro n
          exact (g^[n] ⟨c, hc⟩).2.to_reflTransGen
      obtain ⟨n, hn⟩ := hst.converges f (fun n => Or.inl (hf1 n)) (by rw [hf2]; exact hcA)
      exact reach_closed hst.closed (hn n (le_refl _)) (hf3 n)
    have hscc : sccOf xn sys.closedAssume ⊆ sys.shInv := by
      intro s hs'
      obtain ⟨⟨c, hcA, hc, hcs⟩, _⟩ := mem_sccOf.1 hs'
      exact reach_closed hst.closed (hcyc c hcA hc) hcs
    have hdl : ∀ s ∈ sys.closedAssume, s ∉ sys.shInv → s ∈ dom xn := by
      intro s hsA hsI
      by_contra hc
      have hdead : Deadlock xn s := fun t ht => hc (mem_dom.2 ⟨t, ht⟩)
      obtain ⟨n, hn⟩ := hst.converges (fun _ => s) (fun _ => Or.inr ⟨hdead, rfl⟩) hsA
      exact hsI (hn n (le_refl _))
    obtain ⟨r, _, hp⟩ := cycleCk_closed hst.closed_assume (opt.layerInv sys) (some 0)
      (Nat.lt_succ_self (Fintype.card σ))
    obtain ⟨k0, hk1, hk2, _⟩ : ∃ k0, Stop xn (opt.layerInv sys) sys.closedAssume k0 ∧
        (∀ j < k0, ¬ Stop xn (opt.layerInv sys) sys.closedAssume j) ∧ True := by
      rcases hp with ⟨m, hm, hm0, _⟩ | ⟨_, _, h⟩
      · cases hm; exact absurd hm0 (lt_irrefl _)
      · obtain ⟨k0, h1, h2, _⟩ := h 0 rfl
        exact ⟨k0, h1, h2, trivial⟩
    refine ⟨sys.shInv, k0 + 1, (accepted hid hnp hnu hf).2 ⟨⟨k0, hk1, hk2, rfl, Or.inl hl⟩, ?_⟩⟩
    refine ⟨hst.nonempty, ?_, hst.closed_assume, ?_, ?_, ?_, hdl, fun h => absurd rfl h⟩
    · intro _ e he he' heA
      have : e.1 = e.2 := (hid e).1 he'
      exact hns e.1 heA (by rw [Step]; nth_rewrite 2 [this]; exact he)
    · intro s hsA hsI
      exact hdl s hsA fun h => hsI (Finset.mem_inter.1 h).1
    · exact hscc.trans Finset.inter_subset_left
    · refine ⟨?_, Or.inl ⟨hd, hs, ⟨hst.closed, ?_, ?_, ?_⟩, rfl⟩⟩
      · rintro ⟨hb, s, hs'⟩
        obtain ⟨⟨c, hcA, hc, _⟩, _⟩ := mem_sccOf.1 hs'
        obtain ⟨e, he, h0⟩ := infExec_of_cycle hc
        exact hsil hb e he (by rw [h0]; exact hcA)
      · intro hc e he hei; exact (hbeh hc e.1 hei e.2).2 he
      · intro hc e he hei; exact (hbeh hc e.1 hei e.2).1 he
      · intro hb s hsI
        by_contra hc
        exact hact hb s hsI fun t ht => hc (mem_dom.2 ⟨t, ht⟩)

/-- A protocol with every condition of C12, and one that violates only the specified behaviour
(it lacks `0 → 1`) and is rejected. -/
example : stabCk 10 (exDirect .shadow .activeShadow) ⟨0, false, false⟩
      {(3, 2), (2, 0), (1, 0), (0, 1)} {(3, 2), (2, 0), (1, 0), (0, 1)} []
        = some (.accept ({0, 1}, 3)) ∧
    stabCk 10 (exDirect .shadow .shadow) ⟨0, false, false⟩
      {(3, 2), (2, 0), (1, 0)} {(3, 2), (2, 0), (1, 0)} [] = some .reject ∧
    stabCk 10 (exDirect .closed .silent) ⟨0, false, false⟩
      {(3, 2), (2, 0), (1, 0)} {(3, 2), (2, 0), (1, 0)} [] = some (.accept ({0, 1}, 4)) := by
  decide +kernel

/-- **C14, proved part.** Every maximal execution of an accepted protocol eventually behaves like
the specified shadow behaviour: each step keeps the shadow view or performs a specified shadow
transition, and the view only stops changing where no shadow transition is specified.

Full statement: the same from the moment the *returned* invariant is entered.  That is
`C14_simulates_in_invariant_partial`, for two of the four styles; it is false for the others
(`C14_shadow_style_counterexample`).

Direct protocols with style "closed" put no constraint on the behaviour and are excluded. -/
theorem C14_eventually_simulates (sys : Sys σ τ) (hid : ∀ e, e ∈ sys.identXn ↔ e.1 = e.2)
    (hnp : sys.probabilistic = false) (opt : StabOpt) (hnu : opt.uniring = false)
    (hdir : sys.shadowPuppet = false → sys.scope ≠ .future →
      sys.style ≠ .closed ∧ Function.Injective sys.proj)
    (xn : Finset (σ × σ)) (ps : List (Finset (σ × σ))) (fuel : ℕ)
    (hf : 2 * Fintype.card σ + 1 < fuel) (I : Finset σ) (n : ℕ)
    (h : stabCk fuel sys opt xn xn ps = some (.accept (I, n)))
    (e : ℕ → σ) (he : MaxExec xn e) (h0 : e 0 ∈ sys.closedAssume) :
    EventuallySimulates sys.shadowXn sys.proj xn e := by
  obtain ⟨_, ha⟩ := (accepted hid hnp hnu hf).1 h
  obtain ⟨H, _, _, hH, _, _, hbr⟩ := accept_converges hnp ha
  obtain ⟨n, hn⟩ := hH.converges e he h0
  refine ⟨n, ?_⟩
  rcases hbr with ⟨h1, h2, hok, h4, h5⟩ | ⟨_, hg⟩
  · subst h5; subst h4
    obtain ⟨hc, hinj⟩ := hdir h1 h2
    refine ⟨fun m hm hst => Or.inr ⟨_, hok.sub_shadow hc _ hst (hn m hm), rfl, rfl⟩, ?_⟩
    intro k hk hconst ⟨f, hf1, hf2⟩
    have hfk : f.1 = e k := hinj hf2
    have hst : Step xn (e k) f.2 := by
      have := hok.shadow_sub hc f hf1 (by rw [hfk]; exact hn k hk)
      rw [Step, ← hfk]; exact this
    rcases he k with h | ⟨h, _⟩
    · have hkk : e (k + 1) = e k := hinj (hconst k (le_refl _))
      rw [hkk] at h
      exact ha.noSelf hnp _ h ((hid _).2 rfl) (hH.subset (hn k hk))
    · exact h _ hst
  · exact general_sim_exec hid hg.isH.1 hH.subset (by simpa [NS, hnp] using hg.noStutter) he hn

/-- **C14, proved part.** For the styles "closed" and "silent" of shadow/puppet (or "future"
scope) protocols the behaviour inside the returned invariant simulates the shadow behaviour at
once. -/
theorem C14_simulates_in_invariant_partial (sys : Sys σ τ)
    (hid : ∀ e, e ∈ sys.identXn ↔ e.1 = e.2)
    (hnp : sys.probabilistic = false) (opt : StabOpt) (hnu : opt.uniring = false)
    (hgen : ¬ (sys.shadowPuppet = false ∧ sys.scope ≠ .future))
    (hstyle : sys.style = .closed ∨ sys.style = .silent)
    (xn : Finset (σ × σ)) (ps : List (Finset (σ × σ))) (fuel : ℕ)
    (hf : 2 * Fintype.card σ + 1 < fuel) (I : Finset σ) (n : ℕ)
    (h : stabCk fuel sys opt xn xn ps = some (.accept (I, n))) :
    (∀ s ∈ I, ∀ t, Step xn s t →
      sys.proj t = sys.proj s ∨ ShadowStep sys.shadowXn sys.proj s t) ∧
    (∀ s ∈ I, Deadlock xn s → ¬ ShadowEnabled sys.shadowXn sys.proj s) ∧
    ∀ e, MaxExec xn e → e 0 ∈ I → ∀ k, (∀ m, k ≤ m → sys.proj (e (m + 1)) = sys.proj (e m)) →
      ¬ ShadowEnabled sys.shadowXn sys.proj (e k) := by
  obtain ⟨_, ha⟩ := (accepted hid hnp hnu hf).1 h
  obtain ⟨H, _, _, hH, _, _, hbr⟩ := accept_converges hnp ha
  rcases hbr with ⟨h1, h2, _⟩ | ⟨_, hg⟩
  · exact absurd ⟨h1, h2⟩ hgen
  · have hIH : I = H := by
      rw [hg.final]; unfold expandOf
      rcases hstyle with h | h <;> rw [h]
    subst hIH
    obtain ⟨h1, h2⟩ := general_sim hid hg.isH.1
    refine ⟨h1, h2, ?_⟩
    intro e he h0 k
    exact (general_sim_exec hid hg.isH.1 hH.subset (by simpa [NS, hnp] using hg.noStutter) he
      (n := 0) (fun m hm => maxExec_closed hH.closed he h0 m hm)).2 k (Nat.zero_le _)

/-- A shadow/puppet protocol: states are pairs of a shadow bit and a puppet bit; the shadow
behaviour toggles the shadow bit forever; the implementation walks around the square
`(0,0) → (0,1) → (1,1) → (1,0) → (0,0)`. -/
def exPuppet : Sys (Bool × Bool) Bool where
  invariant := Finset.univ
  closedAssume := Finset.univ
  shadowXn := {((false, false), (true, false)), ((true, false), (false, false))}
  identXn := {((false, false), (false, false)), ((false, true), (false, true)),
    ((true, false), (true, false)), ((true, true), (true, true))}
  proj := Prod.fst
  shadowPuppet := true
  probabilistic := false
  style := .closed
  scope := .shadow
  behav := .shadow

/-- The implementation of `exPuppet`. -/
def exPuppetXn : Finset ((Bool × Bool) × (Bool × Bool)) :=
  {((false, false), (false, true)), ((false, true), (true, true)),
    ((true, true), (true, false)), ((true, false), (false, false))}

example : (∀ e, e ∈ exPuppet.identXn ↔ e.1 = e.2) ∧
    stabCk 10 exPuppet ⟨0, false, false⟩ exPuppetXn exPuppetXn []
      = some (.accept (Finset.univ, 1)) := by decide +kernel

/-- Three states with distinct views; the implementation has the transition `0 → 1`, which the
shadow specification `{0 → 2, 1 → 2}` lacks. -/
def exShadowStyle : Sys (Fin 3) (Fin 3) where
  invariant := Finset.univ
  closedAssume := Finset.univ
  shadowXn := {(0, 2), (1, 2)}
  identXn := {(0, 0), (1, 1), (2, 2)}
  proj := id
  shadowPuppet := true
  probabilistic := false
  style := .shadow
  scope := .future
  behav := .shadow

/-- **C14 is false for style "shadow".**  The protocol is accepted with all states in the
returned invariant although a transition in it is neither a specified shadow transition nor
invisible. -/
theorem C14_shadow_style_counterexample :
    stabCk 10 exShadowStyle ⟨0, false, false⟩ {(0, 2), (0, 1), (1, 2)} {(0, 2), (0, 1), (1, 2)} []
      = some (.accept ({0, 1, 2}, 4)) ∧
    exShadowStyle.proj 1 ≠ exShadowStyle.proj 0 ∧
    ¬ ShadowStep exShadowStyle.shadowXn exShadowStyle.proj 0 1 := by
  refine ⟨by decide +kernel, by decide, ?_⟩
  unfold ShadowStep; decide

/-- **C54.** Unless the scope is "future", an accepted shadow/puppet protocol realises the whole
shadow behaviour: each shadow view of the invariant occurs in the reported invariant, and each
specified shadow transition is performed by some transition inside the reported invariant
(unless the style is "silent"). -/
theorem C54_shadow_behaviour_realised (sys : Sys σ τ) (hid : ∀ e, e ∈ sys.identXn ↔ e.1 = e.2)
    (hnp : sys.probabilistic = false) (opt : StabOpt) (hnu : opt.uniring = false)
    (hsp : sys.shadowPuppet = true) (hsc : sys.scope ≠ .future)
    (xn : Finset (σ × σ)) (ps : List (Finset (σ × σ))) (fuel : ℕ)
    (hf : 2 * Fintype.card σ + 1 < fuel) (I : Finset σ) (n : ℕ)
    (h : stabCk fuel sys opt xn xn ps = some (.accept (I, n))) :
    (∀ s ∈ sys.invariant ∩ sys.closedAssume, ∃ s' ∈ I, sys.proj s' = sys.proj s) ∧
    ∀ s ∈ sys.invariant ∩ sys.closedAssume, ∀ t, ShadowStep sys.shadowXn sys.proj s t →
      ∃ s' ∈ I, ∃ t' ∈ I, Step xn s' t' ∧ sys.proj s' = sys.proj s ∧ sys.proj t' = sys.proj t := by
  obtain ⟨_, ha⟩ := (accepted hid hnp hnu hf).1 h
  obtain ⟨H, hHI, _, _, _, _, hbr⟩ := accept_converges hnp ha
  rcases hbr with ⟨h1, _⟩ | ⟨_, hg⟩
  · rw [hsp] at h1; cases h1
  · constructor
    · intro s hs
      have : s ∈ projP sys sys.shInv := Finset.mem_filter.2 ⟨Finset.mem_univ _, s, hs, rfl⟩
      rw [hg.projP hsc] at this
      obtain ⟨_, s', hs', h⟩ := Finset.mem_filter.1 this
      exact ⟨s', hHI hs', h⟩
    · intro s hs t hst
      have : (s, t) ∈ projX sys sys.live :=
        Finset.mem_filter.2 ⟨Finset.mem_univ _, (s, t), mem_live.2 ⟨hs, hst⟩, rfl, rfl⟩
      rw [hg.projX hsc] at this
      obtain ⟨_, e', he', h1, h2⟩ := Finset.mem_filter.1 this
      obtain ⟨h3, h4, h5⟩ := mem_within.1 he'
      exact ⟨e'.1, hHI h4, e'.2, hHI h5, (Finset.mem_inter.1 (liveOf_sub sys xn h3)).1, h1, h2⟩

/-- Both views of `exPuppet` and both shadow transitions. -/
example : exPuppet.shadowPuppet = true ∧ exPuppet.scope ≠ .future ∧
    ShadowStep exPuppet.shadowXn exPuppet.proj (false, true) (true, true) := by
  refine ⟨rfl, by decide, ?_⟩
  unfold ShadowStep; decide

/-- **C50, proved part.** Pruning by the check is sound: if some protocol `xn` between the
committed transitions `lo` and the possible ones `hi` is accepted, the partial protocol
`(lo, hi)` is not rejected, and its invariant contains that of `xn`.

Full statement: for every option setting.  It fails when layers are limited but counted only
until a fixpoint (`C50_layer_limit_counterexample`), and for the "future active shadow"
behaviour outside the direct branch (`C50_active_shadow_counterexample`). -/
theorem C50_pruning_sound_partial (sys : Sys σ τ) (hid : ∀ e, e ∈ sys.identXn ↔ e.1 = e.2)
    (hnp : sys.probabilistic = false) (opt : StabOpt) (hnu : opt.uniring = false)
    (hlim : opt.maxNlayers = 0 ∨ opt.countConvergenceLayers = true)
    (hact : sys.behav ≠ .activeShadow ∨ (sys.shadowPuppet = false ∧ sys.scope ≠ .future))
    (lo xn hi : Finset (σ × σ)) (h1 : lo ⊆ xn) (h2 : xn ⊆ hi)
    (ps ps' : List (Finset (σ × σ))) (fuel : ℕ)
    (hf : 2 * Fintype.card σ + 1 < fuel) (I : Finset σ) (n : ℕ)
    (h : stabCk fuel sys opt xn xn ps = some (.accept (I, n))) :
    ∃ J m, I ⊆ J ∧ stabCk fuel sys opt lo hi ps' = some (.accept (J, m)) := by
  obtain ⟨⟨k, hk, _, _, hm⟩, ha⟩ := (accepted hid hnp hnu hf).1 h
  obtain ⟨H, hHI, hIs, hH, hI, hs, _⟩ := accept_converges hnp ha
  obtain ⟨J, hIJ, hJ⟩ := accept_mono hnp hact h1 h2 (ps' := ps') ha
  obtain ⟨r, _, hp⟩ := cycleCk_closed hJ.closedA (opt.layerInv sys) (some 0)
    (Nat.lt_succ_self (Fintype.card σ))
  obtain ⟨k0, hk1, hk2⟩ : ∃ k0, Stop lo (opt.layerInv sys) sys.closedAssume k0 ∧
      (∀ j < k0, ¬ Stop lo (opt.layerInv sys) sys.closedAssume j) := by
    rcases hp with ⟨m, hm, hm0, _⟩ | ⟨_, _, h⟩
    · cases hm; exact absurd hm0 (lt_irrefl _)
    · obtain ⟨k0, h1, h2, _⟩ := h 0 rfl
      exact ⟨k0, h1, h2⟩
  refine ⟨J, k0 + 1, hIJ, (accepted hid hnp hnu hf).2 ⟨⟨k0, hk1, hk2, rfl, ?_⟩, hJ⟩⟩
  rcases hlim with hl | hl
  · exact Or.inl hl
  · rcases hm with hm | hm
    · exact Or.inl hm
    · right
      have hsub : imgN lo sys.closedAssume k ⊆ sys.invariant :=
        (imgN_mono h1 k).trans (stop_sub ha.closedA hI.closed
          (hIs.trans Finset.inter_subset_left) (hs.trans hHI) hk)
      have : Stop lo (opt.layerInv sys) sys.closedAssume k :=
        Or.inr ⟨sys.invariant, by simp [StabOpt.layerInv, hl], hsub⟩
      have : k0 ≤ k := by
        by_contra hc
        exact hk2 k (by omega) this
      omega

/-- Committed `3 → 2`; candidates `2 → 0`, `2 → 1`, `1 → 0`, `0 → 1`; a completion is accepted. -/
example : stabCk 10 (exDirect .shadow .shadow) ⟨5, true, false⟩
      {(3, 2), (2, 0), (1, 0), (0, 1)} {(3, 2), (2, 0), (1, 0), (0, 1)} []
        = some (.accept ({0, 1}, 3)) ∧
    stabCk 10 (exDirect .shadow .shadow) ⟨5, true, false⟩ {(3, 2)}
      {(3, 2), (2, 0), (2, 1), (1, 0), (0, 1)} [] = some (.accept ({0, 1}, 3)) := by
  decide +kernel

/-- All three states legitimate, style "closed". -/
def exLayers : Sys (Fin 3) (Fin 3) where
  invariant := Finset.univ
  closedAssume := Finset.univ
  shadowXn := ∅
  identXn := {(0, 0), (1, 1), (2, 2)}
  proj := id
  shadowPuppet := false
  probabilistic := false
  style := .closed
  scope := .direct
  behav := .shadow

/-- **C50 is false with a layer limit on fixpoint layers.**  The chain `0 → 1 → 2` takes four
layers, its completion to a cycle one; with limit 2 the chain is rejected and the completion
accepted. -/
theorem C50_layer_limit_counterexample :
    stabCk 8 exLayers ⟨2, false, false⟩ {(0, 1), (1, 2), (2, 0)} {(0, 1), (1, 2), (2, 0)} []
      = some (.accept (Finset.univ, 1)) ∧
    stabCk 8 exLayers ⟨2, false, false⟩ {(0, 1), (1, 2)} {(0, 1), (1, 2), (2, 0)} []
      = some .reject := by decide +kernel

/-- Views: `0 ⇄ 1` is the specified behaviour; `2` is a legitimate state without behaviour; `3`
is illegitimate. -/
def exActive : Sys (Fin 4) (Fin 4) where
  invariant := {0, 1, 2}
  closedAssume := Finset.univ
  shadowXn := {(0, 1), (1, 0)}
  identXn := {(0, 0), (1, 1), (2, 2), (3, 3)}
  proj := id
  shadowPuppet := true
  probabilistic := false
  style := .closed
  scope := .future
  behav := .activeShadow

/-- **C50 is false for "future active shadow".**  `2 → 3 → 0 ⇄ 1` is accepted, but with the same
transitions merely as candidates (nothing committed yet) the check rejects. -/
theorem C50_active_shadow_counterexample :
    stabCk 10 exActive ⟨0, false, false⟩ {(0, 1), (1, 0), (2, 3), (3, 0)}
      {(0, 1), (1, 0), (2, 3), (3, 0)} [] = some (.accept ({0, 1}, 3)) ∧
    stabCk 10 exActive ⟨0, false, false⟩ ∅ {(0, 1), (1, 0), (2, 3), (3, 0)} []
      = some .reject := by decide +kernel

/-- **C52, proved part.** If silence is demanded ("future silent" behaviour) then no accepted
protocol has an infinite execution from the assumed states; if the style is "silent" then, outside
the direct branch, every state of the reported invariant is a deadlock.

Full statement: style "silent" always makes the reported invariant free of transitions.  False in
the direct branch: `C52_direct_silent_counterexample`. -/
theorem C52_silent_partial (sys : Sys σ τ) (hid : ∀ e, e ∈ sys.identXn ↔ e.1 = e.2)
    (hnp : sys.probabilistic = false) (opt : StabOpt) (hnu : opt.uniring = false)
    (xn : Finset (σ × σ)) (ps : List (Finset (σ × σ))) (fuel : ℕ)
    (hf : 2 * Fintype.card σ + 1 < fuel) (I : Finset σ) (n : ℕ)
    (h : stabCk fuel sys opt xn xn ps = some (.accept (I, n))) :
    (sys.behav = .silent → ∀ e, InfExec xn e → e 0 ∉ sys.closedAssume) ∧
    (sys.style = .silent → ¬ (sys.shadowPuppet = false ∧ sys.scope ≠ .future) →
      ∀ s ∈ I, Deadlock xn s) := by
  obtain ⟨_, ha⟩ := (accepted hid hnp hnu hf).1 h
  constructor
  · intro hb e he h0
    obtain ⟨m, _, hm⟩ := recurrent (k := 0) (fun n _ => he n)
    have hmA := maxExec_closed ha.closedA (fun n => Or.inl (he n)) h0 m (Nat.zero_le _)
    exact ha.shadow.1 ⟨hb, _, mem_sccOf_of_cycle hmA hm⟩
  · intro hst hgen s hs t hst'
    rcases ha.shadow.2 with ⟨h1, h2, _⟩ | ⟨_, H, hg⟩
    · exact hgen ⟨h1, h2⟩
    · have hIH : I = H := by rw [hg.final]; unfold expandOf; rw [hst]
      subst hIH
      rcases hg.isH.1.allowed hs hst' with h | h
      · simp [liveOf, shInit, hst] at h
      · simp [selfOf, shInit, hst] at h

example : stabCk 10 { exDirect .silent .silent with scope := .future, shadowXn := ∅ }
      ⟨0, false, false⟩ {(3, 2), (2, 0)} {(3, 2), (2, 0)} []
        = some (.accept ({0, 1}, 4)) := by decide +kernel

/-- **C52 is false in the direct branch**: with style "silent" and a specification with
transitions, a direct protocol that moves forever inside the reported invariant is accepted. -/
theorem C52_direct_silent_counterexample :
    stabCk 10 (exDirect .silent .shadow) ⟨0, false, false⟩ {(3, 2), (2, 0), (1, 0), (0, 1)}
      {(3, 2), (2, 0), (1, 0), (0, 1)} [] = some (.accept ({0, 1}, 3)) ∧
    ¬ Deadlock ({(3, 2), (2, 0), (1, 0), (0, 1)} : Finset (Fin 4 × Fin 4)) 0 := by
  constructor
  · decide +kernel
  · unfold Deadlock Step; decide

end Verif.Props
