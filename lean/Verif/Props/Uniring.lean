import Verif.Proofs.Uniring
import Verif.Props.Stab

/-! Properties of the cycle check for unidirectional rings: C49. -/

set_option linter.unusedSectionVars false

namespace Verif.Props
open Verif.Model Verif.Spec

universe u
variable {V : Type u} {n : ℕ} [NeZero n] [Fintype V] [DecidableEq V]

theorem transGen_step {f : ZMod n → V → V → V → Prop}
    {ps : List (Finset ((ZMod n → V) × (ZMod n → V)))} (h : IsRing f ps) {x y : ZMod n → V} :
    Relation.TransGen (Step (xfmla ps)) x y ↔ Relation.TransGen (RStep f) x y :=
  ⟨fun hh => Relation.TransGen.mono (fun _ _ => h.step.1) _ _ hh,
   fun hh => Relation.TransGen.mono (fun _ _ => h.step.2) _ _ hh⟩

theorem reflTransGen_step {f : ZMod n → V → V → V → Prop}
    {ps : List (Finset ((ZMod n → V) × (ZMod n → V)))} (h : IsRing f ps) {x y : ZMod n → V} :
    Relation.ReflTransGen (Step (xfmla ps)) x y ↔ Relation.ReflTransGen (RStep f) x y :=
  ⟨fun hh => Relation.ReflTransGen.mono (fun _ _ => h.step.1) _ _ hh,
   fun hh => Relation.ReflTransGen.mono (fun _ _ => h.step.2) _ _ hh⟩

/-- **C49.** On a unidirectional ring of any size `n ≥ 2` running any deterministic self-disabling
protocol (each process may have its own rules), and any closed assumed set, `uniring_cycle_ck`
without layer limit terminates without failing its `Claim`, and

* returns `true` exactly when some execution inside the assumed set is periodic;
* every state of the reported set is in the assumed set and on such a cycle;
* every cycle state of the assumed set is reachable from a reported state. -/
theorem C49_uniring_cycle_ck (hn : 2 ≤ n) {f : ZMod n → V → V → V → Prop}
    (hsd : SelfDisabling f) (hdet : Deterministic f)
    {ps : List (Finset ((ZMod n → V) × (ZMod n → V)))} (hr : IsRing f ps)
    (assumed : Option (Finset (ZMod n → V)))
    (hA : ∀ A, assumed = some A → ∀ x ∈ A, ∀ y, RStep f x y → y ∈ A)
    (lim : Option ℕ) (hlim : lim.getD 0 = 0) (inv : Option (Finset (ZMod n → V)))
    (fuel : ℕ) (hf : 2 * Fintype.card (ZMod n → V) < fuel) :
    ∃ r scc, uniCycleCk fuel ps lim inv assumed = some (.ok r) ∧ r.scc = some scc ∧
      (r.ret = true ↔
        ∃ c, (∀ A, assumed = some A → c ∈ A) ∧ Relation.TransGen (RStep f) c c) ∧
      (∀ y ∈ scc, (∀ A, assumed = some A → y ∈ A) ∧ Relation.TransGen (RStep f) y y) ∧
      (∀ c, (∀ A, assumed = some A → c ∈ A) → Relation.TransGen (RStep f) c c →
        ∃ y ∈ scc, Relation.ReflTransGen (RStep f) y c) := by
  have hA' : Closed (xfmla ps) (assumed.getD Finset.univ) := by
    cases assumed with
    | none => intro x _ y _; exact Finset.mem_univ _
    | some A => intro x hx y hxy; exact hA A rfl x hx y (hr.step.1 hxy)
  have hmemA : ∀ c, c ∈ assumed.getD Finset.univ ↔ ∀ A, assumed = some A → c ∈ A := by
    intro c
    cases assumed with
    | none => simp
    | some A => simp
  rcases uni_total hA' lim inv hf with ⟨k, m, hk, hk0, _⟩ | ⟨S, scc, hS, rfl, hcase⟩
  · subst hk; simp at hlim; omega
  · have hcyc : ∀ y ∈ sweepCollect ps (S ∩ domE ps), y ∈ assumed.getD Finset.univ ∧
        OnCycle (xfmla ps) y := fun y hy => hS.deterministic hA' (hr.functional hdet) hy
    have hsup : S ∩ domE ps ⊆ sweepCollect ps (S ∩ domE ps) := sweepCollect_sup _ _ _
    have hrest : ∀ c, (∀ A, assumed = some A → c ∈ A) → Relation.TransGen (RStep f) c c →
        ∃ y ∈ sweepCollect ps (S ∩ domE ps), Relation.ReflTransGen (RStep f) y c := by
      intro c hc1 hc2
      obtain ⟨x, hx, hxc⟩ := hS.ring hn hsd hr hA' ((hmemA c).2 hc1) ((transGen_step hr).2 hc2)
      exact ⟨x, hsup hx, (reflTransGen_step hr).1 hxc⟩
    rcases hcase with ⟨_, m, heq⟩ | ⟨hno, _⟩
    · refine ⟨_, _, heq, rfl, ?_, ?_, hrest⟩
      · simp only [decide_eq_true_eq]
        constructor
        · rintro ⟨y, hy⟩
          obtain ⟨h1, h2⟩ := hcyc y hy
          exact ⟨y, (hmemA y).1 h1, (transGen_step hr).1 h2⟩
        · rintro ⟨c, hc1, hc2⟩
          obtain ⟨y, hy, _⟩ := hrest c hc1 hc2
          exact ⟨y, hy⟩
      · intro y hy
        obtain ⟨h1, h2⟩ := hcyc y hy
        exact ⟨(hmemA y).1 h1, (transGen_step hr).1 h2⟩
    · exact absurd (fun y hy => onCycle_live (hcyc y hy).2) hno

/-- C49 with a layer limit: the only further outcome is `false` because the limit was exceeded. -/
theorem C49_uniring_cycle_ck_limit (hn : 2 ≤ n) {f : ZMod n → V → V → V → Prop}
    (hsd : SelfDisabling f) (hdet : Deterministic f)
    {ps : List (Finset ((ZMod n → V) × (ZMod n → V)))} (hr : IsRing f ps)
    (assumed : Option (Finset (ZMod n → V)))
    (hA : ∀ A, assumed = some A → ∀ x ∈ A, ∀ y, RStep f x y → y ∈ A)
    (k : ℕ) (inv : Option (Finset (ZMod n → V)))
    (fuel : ℕ) (hf : 2 * Fintype.card (ZMod n → V) < fuel) :
    ∃ r, uniCycleCk fuel ps (some k) inv assumed = some (.ok r) ∧
      ((r.ret = false ∧ r.scc = none ∧ 0 < k ∧ k < r.nlayers) ∨
       (r.ret = true ↔
        ∃ c, (∀ A, assumed = some A → c ∈ A) ∧ Relation.TransGen (RStep f) c c)) := by
  have hA' : Closed (xfmla ps) (assumed.getD Finset.univ) := by
    cases assumed with
    | none => intro x _ y _; exact Finset.mem_univ _
    | some A => intro x hx y hxy; exact hA A rfl x hx y (hr.step.1 hxy)
  have hmemA : ∀ c, c ∈ assumed.getD Finset.univ ↔ ∀ A, assumed = some A → c ∈ A := by
    intro c
    cases assumed with
    | none => simp
    | some A => simp
  rcases uni_total hA' (some k) inv hf with ⟨k', m, hk, hk0, hk1, heq⟩ | ⟨S, scc, hS, rfl, hcase⟩
  · cases hk
    exact ⟨_, heq, Or.inl ⟨rfl, rfl, hk0, hk1⟩⟩
  · have hcyc : ∀ y ∈ sweepCollect ps (S ∩ domE ps), y ∈ assumed.getD Finset.univ ∧
        OnCycle (xfmla ps) y := fun y hy => hS.deterministic hA' (hr.functional hdet) hy
    have hsup : S ∩ domE ps ⊆ sweepCollect ps (S ∩ domE ps) := sweepCollect_sup _ _ _
    rcases hcase with ⟨_, m, heq⟩ | ⟨hno, _⟩
    · refine ⟨_, heq, Or.inr ?_⟩
      simp only [decide_eq_true_eq]
      constructor
      · rintro ⟨y, hy⟩
        obtain ⟨h1, h2⟩ := hcyc y hy
        exact ⟨y, (hmemA y).1 h1, (transGen_step hr).1 h2⟩
      · rintro ⟨c, hc1, hc2⟩
        obtain ⟨x, hx, _⟩ := hS.ring hn hsd hr hA' ((hmemA c).2 hc1) ((transGen_step hr).2 hc2)
        exact ⟨x, hsup hx⟩
    · exact absurd (fun y hy => onCycle_live (hcyc y hy).2) hno

/-- For any list of process relations whatsoever (no ring, no determinism) and any closed assumed
set the check terminates, and it returns `true` only if there is a cycle in the assumed set. -/
theorem C49_uniring_cycle_ck_sound {σ : Type u} [Fintype σ] [DecidableEq σ]
    {ps : List (Finset (σ × σ))} {xn : Finset (σ × σ)} (hx : ∀ e, e ∈ xn ↔ ∃ p ∈ ps, e ∈ p)
    (assumed : Option (Finset σ)) (hA : ∀ A, assumed = some A → Closed xn A)
    (lim : Option ℕ) (inv : Option (Finset σ))
    (fuel : ℕ) (hf : 2 * Fintype.card σ < fuel) :
    ∃ res, uniCycleCk fuel ps lim inv assumed = some res ∧
      ∀ r, res = .ok r → r.ret = true → ∃ c, (∀ A, assumed = some A → c ∈ A) ∧ OnCycle xn c := by
  have hxn : xn = xfmla ps := by ext e; rw [hx, mem_xfmla]
  subst hxn
  have hA' : Closed (xfmla ps) (assumed.getD Finset.univ) := by
    cases assumed with
    | none => intro x _ y _; exact Finset.mem_univ _
    | some A => exact hA A rfl
  rcases uni_total hA' lim inv hf with ⟨k', m, hk, hk0, hk1, heq⟩ | ⟨S, scc, hS, rfl, hcase⟩
  · refine ⟨_, heq, ?_⟩
    intro r hr; cases hr; simp
  · rcases hcase with ⟨_, m, heq⟩ | ⟨hno, heq⟩
    · refine ⟨_, heq, ?_⟩
      intro r hr; cases hr
      simp only [decide_eq_true_eq]
      rintro ⟨y, hy⟩
      have hne : (S ∩ domE ps).Nonempty := by
        rcases sweepCollect_sound _ _ _ y hy with h | ⟨x, hx, _⟩
        · exact ⟨y, h⟩
        · exact ⟨x, hx⟩
      obtain ⟨c, hc1, hc2⟩ := hS.cycle hne
      refine ⟨c, ?_, hc2⟩
      intro A hAeq
      rw [hAeq] at hc1; exact hc1
    · refine ⟨_, heq, ?_⟩
      intro r hr; cases hr

/-- The process relations of a decidable protocol. -/
def ringProcs (f : ZMod n → V → V → V → Prop) [∀ i a b c, Decidable (f i a b c)] :
    List (Finset ((ZMod n → V) × (ZMod n → V))) :=
  (List.range n).map fun k : ℕ => Finset.univ.filter fun e =>
    ∃ c, f (k : ZMod n) (e.1 ((k : ZMod n) - 1)) (e.1 (k : ZMod n)) c ∧
      e.2 = Function.update e.1 (k : ZMod n) c

theorem ringProcs_isRing (f : ZMod n → V → V → V → Prop) [∀ i a b c, Decidable (f i a b c)] :
    IsRing f (ringProcs f) where
  length := by simp [ringProcs]
  mem := by intro k h x y; simp [ringProcs]

/-- Dijkstra-style token circulation with two values: process 0 flips its bit when it equals its
predecessor's, every other process copies when different. -/
def tokenRing : ZMod n → Bool → Bool → Bool → Prop := fun i a b c =>
  if i = 0 then a = b ∧ c = !b else a ≠ b ∧ c = a

instance (i : ZMod n) (a b c : Bool) : Decidable (tokenRing i a b c) := by
  unfold tokenRing; infer_instance

theorem tokenRing_selfDisabling : SelfDisabling (tokenRing (n := n)) := by
  intro i a b c h d hd
  unfold tokenRing at h hd
  split at h
  · next hi => rw [if_pos hi] at hd; obtain ⟨rfl, rfl⟩ := h; simp at hd
  · next hi => rw [if_neg hi] at hd; obtain ⟨_, rfl⟩ := h; exact hd.1 rfl

theorem tokenRing_deterministic : Deterministic (tokenRing (n := n)) := by
  intro i a b c d h1 h2
  unfold tokenRing at h1 h2
  split at h1
  · next hi => rw [if_pos hi] at h2; rw [h1.2, h2.2]
  · next hi => rw [if_neg hi] at h2; rw [h1.2, h2.2]

/-- A state of the ring of size 2. -/
def ring2 (a b : Bool) : ZMod 2 → Bool := fun i => if i = 0 then a else b

/-- Hypotheses of C49 are met by a token ring of any size, all states assumed, with a livelock to
be found (a token circulates forever): for `n = 2`, `ff → tf → tt → ft → ff`. -/
example : SelfDisabling (tokenRing (n := 2)) ∧ Deterministic (tokenRing (n := 2)) ∧
    IsRing (tokenRing (n := 2)) (ringProcs tokenRing) ∧
    Relation.TransGen (RStep (tokenRing (n := 2))) (ring2 false false) (ring2 false false) := by
  refine ⟨tokenRing_selfDisabling, tokenRing_deterministic, ringProcs_isRing _, ?_⟩
  have h1 : RStep (tokenRing (n := 2)) (ring2 false false) (ring2 true false) := ⟨0, true, by decide, by decide⟩
  have h2 : RStep (tokenRing (n := 2)) (ring2 true false) (ring2 true true) := ⟨1, true, by decide, by decide⟩
  have h3 : RStep (tokenRing (n := 2)) (ring2 true true) (ring2 false true) := ⟨0, false, by decide, by decide⟩
  have h4 : RStep (tokenRing (n := 2)) (ring2 false true) (ring2 false false) := ⟨1, false, by decide, by decide⟩
  exact (((Relation.TransGen.single h1).tail h2).tail h3).tail h4

/-- Like the token ring, but process 1 may instead take the value 2, which ends all activity. -/
def escapeRing : ZMod 2 → Fin 3 → Fin 3 → Fin 3 → Prop := fun i a b c =>
  if i = 0 then a = b ∧ b < 2 ∧ c = 1 - b else a ≠ b ∧ a < 2 ∧ b < 2 ∧ (c = a ∨ c = 2)

instance (i : ZMod 2) (a b c : Fin 3) : Decidable (escapeRing i a b c) := by
  unfold escapeRing; infer_instance

/-- Finding: determinism is needed.  For a nondeterministic self-disabling ring with a livelock the
final `Claim` (src/xfmlae.cc:289, "All states in span0 should be live") fails and the program
aborts. -/
theorem C49_nondeterministic_aborts : SelfDisabling escapeRing ∧
    uniCycleCk 20 (ringProcs escapeRing) none none none = some .failed := by
  constructor
  · unfold SelfDisabling; decide
  · decide +kernel

/-! ### The stabilization check with `-uniring` -/

/-- For direct protocols the acceptance conditions do not depend on which of two cycle sets is
used, provided they cover the same cycles up to reachability. -/
theorem acceptG_congr {σ τ : Type u} [Fintype σ] [DecidableEq σ] [Fintype τ] [DecidableEq τ]
    {sys : Sys σ τ} (hd : sys.shadowPuppet = false) (hs : sys.scope ≠ .future)
    {lo hi : Finset (σ × σ)} {ps : List (Finset (σ × σ))} {X I : Finset σ}
    (hX : ∀ y ∈ X, y ∈ sys.closedAssume ∧ OnCycle lo y)
    (hXr : ∀ c ∈ sys.closedAssume, OnCycle lo c → ∃ y ∈ X, Reach lo y c) :
    StabAcceptG sys lo hi ps X I ↔ StabAcceptG sys lo hi ps (sccOf lo sys.closedAssume) I := by
  have hsub : X ⊆ sccOf lo sys.closedAssume := fun y hy =>
    mem_sccOf_of_cycle (hX y hy).1 (hX y hy).2
  have hne : (sccOf lo sys.closedAssume).Nonempty → X.Nonempty := by
    rintro ⟨s, hs⟩
    obtain ⟨⟨c, hc1, hc2, _⟩, _⟩ := mem_sccOf.1 hs
    obtain ⟨y, hy, _⟩ := hXr c hc1 hc2
    exact ⟨y, hy⟩
  constructor
  · intro h
    rcases h.shadow.2 with ⟨_, _, hok, hI⟩ | ⟨h1, _⟩
    · refine ⟨h.nonempty, h.noSelf, h.closedA, h.deadlock, ?_, ?_, h.deadlock', h.weak⟩
      · intro s hs'
        obtain ⟨⟨c, hc1, hc2, hcs⟩, _⟩ := mem_sccOf.1 hs'
        obtain ⟨y, hy, hyc⟩ := hXr c hc1 hc2
        have hyI : y ∈ sys.shInv := Finset.mem_inter.2 ⟨h.scc_inv hy, (hX y hy).1⟩
        exact (Finset.mem_inter.1 (reach_closed hok.closed hyI (hyc.trans hcs))).1
      · exact ⟨fun h' => h.shadow.1 ⟨h'.1, hne h'.2⟩, Or.inl ⟨hd, hs, hok, hI⟩⟩
    · exact absurd ⟨hd, hs⟩ h1
  · intro h
    rcases h.shadow.2 with ⟨_, _, hok, hI⟩ | ⟨h1, _⟩
    · refine ⟨h.nonempty, h.noSelf, h.closedA, h.deadlock, hsub.trans h.scc_inv, ?_, h.deadlock',
        h.weak⟩
      exact ⟨fun h' => h.shadow.1 ⟨h'.1, h'.2.mono hsub⟩, Or.inl ⟨hd, hs, hok, hI⟩⟩
    · exact absurd ⟨hd, hs⟩ h1

/-- **C55.** On a unidirectional ring with a deterministic self-disabling direct protocol, the
stabilization check with the `-uniring` option and without a layer limit terminates without
assertion failure and accepts exactly the protocols that the general check accepts: those that
self-stabilize (see C12). -/
theorem C55_uniring_stabilization (hn : 2 ≤ n) {f : ZMod n → V → V → V → Prop}
    (hsd : SelfDisabling f) (hdet : Deterministic f)
    {ps : List (Finset ((ZMod n → V) × (ZMod n → V)))} (hr : IsRing f ps)
    {xn : Finset ((ZMod n → V) × (ZMod n → V))} (hx : ∀ e, e ∈ xn ↔ ∃ p ∈ ps, e ∈ p)
    {τ : Type u} [Fintype τ] [DecidableEq τ]
    (sys : Sys (ZMod n → V) τ) (hid : ∀ e, e ∈ sys.identXn ↔ e.1 = e.2)
    (hnp : sys.probabilistic = false) (hd : sys.shadowPuppet = false) (hs : sys.scope ≠ .future)
    (opt : StabOpt) (hu : opt.uniring = true) (hl : opt.maxNlayers = 0)
    (fuel : ℕ) (hf : 2 * Fintype.card (ZMod n → V) + 1 < fuel) :
    ∃ v, stabCk fuel sys opt xn xn ps = some v ∧ v ≠ .abort ∧
    ((∃ I n, v = .accept (I, n)) ↔
      SelfStab xn sys.closedAssume (sys.invariant ∩ sys.closedAssume) ∧
      (∀ s ∈ sys.closedAssume, ¬ Step xn s s) ∧
      (sys.style ≠ .closed → ∀ s ∈ sys.invariant ∩ sys.closedAssume, ∀ t,
        Step xn s t ↔ Step sys.shadowXn s t) ∧
      (sys.behav = .silent → ∀ e, InfExec xn e → e 0 ∉ sys.closedAssume) ∧
      (sys.behav = .activeShadow ∨ sys.style = .activeShadow →
        ∀ s ∈ sys.invariant ∩ sys.closedAssume, ¬ Deadlock xn s)) := by
  have hxn : xn = xfmla ps := by ext e; rw [hx, mem_xfmla]
  have hst : ∀ a b, Step xn a b ↔ RStep f a b := by
    intro a b; rw [hxn]; exact hr.step
  have hcyc : Closed xn sys.closedAssume → ∃ r scc,
      stabCycles fuel sys opt xn ps = some (.ok (scc, r)) ∧
      (∀ y ∈ scc, y ∈ sys.closedAssume ∧ OnCycle xn y) ∧
      (∀ c ∈ sys.closedAssume, OnCycle xn c → ∃ y ∈ scc, Reach xn y c) := by
    intro hcl
    obtain ⟨r, scc, h1, h2, _, h3, h4⟩ := C49_uniring_cycle_ck hn hsd hdet hr
      (some sys.closedAssume) (by
        intro A hA x hx y hxy
        cases hA
        exact hcl x hx y ((hst _ _).2 hxy))
      (some opt.maxNlayers) (by simp [hl])
      (if opt.countConvergenceLayers then some sys.invariant else none) fuel (by omega)
    refine ⟨r.nlayers, scc, ?_, ?_, ?_⟩
    · unfold stabCycles
      rw [hnp, hu]
      simp only [Bool.false_eq_true, if_false, if_true, h1, Option.map_some, h2, Option.getD_some]
    · intro y hy
      refine ⟨(h3 y hy).1 _ rfl, ?_⟩
      have := (transGen_step hr).2 (h3 y hy).2
      rw [← hxn] at this; exact this
    · intro c hc1 hc2
      obtain ⟨y, hy, hyc⟩ := h4 c (by intro A hA; cases hA; exact hc1) ((transGen_step hr).1 (by
        rw [← hxn]; exact hc2))
      refine ⟨y, hy, ?_⟩
      have := (reflTransGen_step hr).2 hyc
      rw [← hxn] at this; exact this
  obtain ⟨v, hv, hv1, hv2⟩ := stabCk_specG (sys := sys) (opt := opt) (lo := xn) (hi := xn) (ps := ps)
    (fuel := fuel) (by intro h; rw [hnp] at h; cases h) (by omega) (by
      intro hcl
      obtain ⟨r, scc, h1, _⟩ := hcyc hcl
      exact ⟨scc, r, h1, fun h => absurd ⟨hd, hs⟩ h⟩)
  refine ⟨v, hv, hv1, ?_⟩
  rw [← C12_direct_accept_iff sys hid hnp hd hs { opt with uniring := false } rfl hl xn ps fuel hf]
  constructor
  · rintro ⟨I, m, h⟩
    obtain ⟨scc, h1, _, h3⟩ := (hv2 I m).1 h
    obtain ⟨r, scc', h4, h5, h6⟩ := hcyc h3.closedA
    rw [h4] at h1; cases h1
    have h7 := (acceptG_congr hd hs h5 h6).1 h3
    obtain ⟨k, h8, h9, h10⟩ := (by
      obtain ⟨r, _, hp⟩ := cycleCk_closed h3.closedA
        (StabOpt.layerInv { opt with uniring := false } sys) (some 0)
        (Nat.lt_succ_self (Fintype.card (ZMod n → V)))
      rcases hp with ⟨m, hm, hm0, _⟩ | ⟨_, _, h⟩
      · cases hm; exact absurd hm0 (lt_irrefl _)
      · obtain ⟨k0, h1, h2, _⟩ := h 0 rfl
        exact ⟨k0, h1, h2, trivial⟩ : ∃ k0,
          Stop xn (StabOpt.layerInv { opt with uniring := false } sys) sys.closedAssume k0 ∧
          (∀ j < k0, ¬ Stop xn (StabOpt.layerInv { opt with uniring := false } sys)
            sys.closedAssume j) ∧ True)
    exact ⟨I, k + 1, (accepted hid hnp rfl hf).2 ⟨⟨k, h8, h9, rfl, Or.inl hl⟩, h7⟩⟩
  · rintro ⟨I, m, h⟩
    obtain ⟨_, h3⟩ := (accepted hid hnp rfl hf).1 h
    obtain ⟨r, scc', h4, h5, h6⟩ := hcyc h3.closedA
    exact ⟨I, r, (hv2 I r).2 ⟨scc', h4, Or.inl hl, (acceptG_congr hd hs h5 h6).2 h3⟩⟩

/-- The token ring of size 2 stabilizes to "exactly one token", which here are all states. -/
def exToken : Sys (ZMod 2 → Bool) (ZMod 2 → Bool) where
  invariant := Finset.univ
  closedAssume := Finset.univ
  shadowXn := xfmla (ringProcs tokenRing)
  identXn := Finset.univ.filter fun e => e.1 = e.2
  proj := id
  shadowPuppet := false
  probabilistic := false
  style := .shadow
  scope := .direct
  behav := .shadow

example : (∀ e, e ∈ exToken.identXn ↔ e.1 = e.2) ∧
    ∃ I n, stabCk 20 exToken ⟨0, false, true⟩ (xfmla (ringProcs tokenRing))
      (xfmla (ringProcs tokenRing)) (ringProcs tokenRing) = some (.accept (I, n)) := by
  refine ⟨by intro e; simp [exToken], Finset.univ, 2, ?_⟩
  decide +kernel

end Verif.Props
