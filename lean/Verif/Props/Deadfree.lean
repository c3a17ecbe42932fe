import Verif.Proofs.Deadfree

/-! Properties C37 and C38: the local-deadlock analysis for rings. -/

namespace Verif.Props
open Verif.Model Verif.Spec Verif.Proofs

/-- `pick_pre` chooses some state of a nonempty set of silent states. -/
def PickOk (pick : Finset (ℕ × ℕ × ℕ) → Option (ℕ × ℕ × ℕ)) (silent : Finset (ℕ × ℕ × ℕ)) : Prop :=
  pick ∅ = none ∧ ∀ S ⊆ silent, S.Nonempty → ∃ s ∈ S, pick S = some s

section
variable {pick : Finset (ℕ × ℕ × ℕ) → Option (ℕ × ℕ × ℕ)} {legit : ℕ × ℕ × ℕ → Bool}
  {silent : Finset (ℕ × ℕ × ℕ)} {fuel : ℕ}

theorem deadfree_spec (hp : PickOk pick silent) (hf : silent.card + 1 < fuel) :
    ∃ nodes out, deadlockFreedomCk fuel pick legit silent = some out ∧
      nodes.length + 1 < fuel ∧
      (∀ n : LCNode, n ∈ nodes ↔ LCNode.tr n ∈ silent ∧ n.legit = legit (LCNode.tr n)) ∧
      ∀ e, e ∈ out ↔ ∃ sidx r, lcFrom fuel nodes sidx = some r ∧ e ∈ r := by
  obtain ⟨nodes, h1, h2, h3⟩ := lcNodes_spec pick legit silent hp.2 hp.1 fuel (by omega)
  obtain ⟨out, h4, h5⟩ := lcAll_spec (nodes := nodes) (fuel := fuel) (by omega)
  refine ⟨nodes, out, ?_, by omega, h3, h5⟩
  unfold deadlockFreedomCk
  rw [h1, Option.bind_some, h4]

/-- The analysis ends without reading outside its tables. -/
theorem C37_terminates (hp : PickOk pick silent) (hf : silent.card + 1 < fuel) :
    ∃ out, deadlockFreedomCk fuel pick legit silent = some out := by
  obtain ⟨_, out, h, -⟩ := deadfree_spec (legit := legit) hp hf
  exact ⟨out, h⟩

/-- C37: a reported deadlock of size `N` exists: some configuration of a ring of `N` processes has no
enabled process and an illegitimate one. -/
theorem C37_sound (hp : PickOk pick silent) (hf : silent.card + 1 < fuel) {out : List LCEvent}
    (h : deadlockFreedomCk fuel pick legit silent = some out) {N : ℕ} (hN : .deadlock N ∈ out) :
    1 ≤ N ∧ ∃ x : ZMod N → ℕ, DeadRing (· ∈ silent) (legit · = true) x := by
  obtain ⟨nodes, out', e, hl, hn, ho⟩ := deadfree_spec (legit := legit) hp hf
  rw [h, Option.some.injEq] at e
  subst e
  obtain ⟨sidx, r, hr, he⟩ := (ho _).1 hN
  obtain ⟨n, hs, hi⟩ := lcFrom_legit hr he
  obtain ⟨r', hr', out2, ho2, h1, -, -⟩ := lcFrom_ill hs hi hl
  rw [hr, Option.some.injEq] at hr'
  rw [Option.some.injEq] at ho2
  subst hr' ho2
  obtain ⟨t, d, rfl, hw, ht⟩ := h1 N he
  obtain ⟨x, hx, n', hn', hx0⟩ := ring_of_loop hw ht
  rw [hs, Option.some.injEq] at hn'
  subst hn'
  refine ⟨by omega, x, fun i => ?_, 0, ?_⟩
  · obtain ⟨n, hm, e⟩ := hx i
    rw [e]
    exact ((hn n).1 hm).1
  · simp only [hx0]
    rw [← ((hn n).1 (List.mem_of_getElem? hs)).2, hi]
    simp

theorem deadRing_loop {nodes : List LCNode}
    (hn : ∀ n : LCNode, n ∈ nodes ↔ LCNode.tr n ∈ silent ∧ n.legit = legit (LCNode.tr n))
    {n : ℕ} [NeZero n] {x : ZMod n → ℕ} (hx : DeadRing (· ∈ silent) (legit · = true) x) :
    ∃ sidx s, nodes[sidx]? = some s ∧ s.legit = false ∧ OnLoop nodes sidx := by
  obtain ⟨m, rfl⟩ : ∃ m, n = m + 1 := ⟨n - 1, by have := NeZero.pos n; omega⟩
  have hk : ∀ i, ∃ (k : ℕ) (s : LCNode), nodes[k]? = some s ∧ LCNode.tr s = triple x i ∧
      s.legit = legit (triple x i) := by
    intro i
    have hm : (⟨legit (triple x i), x (i - 1), x i, x (i + 1)⟩ : LCNode) ∈ nodes :=
      (hn _).2 ⟨hx.1 i, rfl⟩
    obtain ⟨k, hk⟩ := List.mem_iff_getElem?.1 hm
    exact ⟨k, _, hk, rfl, rfl⟩
  choose k hk using hk
  obtain ⟨i, hi⟩ := hx.2
  obtain ⟨s, h1, -, h3⟩ := hk i
  refine ⟨k i, s, h1, by rw [h3]; simpa using hi, loop_of_ring x k (fun j => ?_) i⟩
  obtain ⟨s, h1, h2, -⟩ := hk j
  exact ⟨s, h1, h2⟩

/-- C38, for the lines `[RING TRACE]` in place of the verdict: some are printed exactly when a ring of
some size has a deadlock.  Missing for the full claim: the verdict itself may be wrong
(`C38_counterexample`). -/
theorem C38_ring_trace_partial (hp : PickOk pick silent) (hf : silent.card + 1 < fuel)
    {out : List LCEvent} (h : deadlockFreedomCk fuel pick legit silent = some out) :
    (∃ l, .ring l ∈ out) ↔ ∃ (n : ℕ) (_ : NeZero n) (x : ZMod n → ℕ),
      DeadRing (· ∈ silent) (legit · = true) x := by
  obtain ⟨nodes, out', e, hl, hn, ho⟩ := deadfree_spec (legit := legit) hp hf
  rw [h, Option.some.injEq] at e
  subst e
  constructor
  · rintro ⟨l, hm⟩
    obtain ⟨sidx, r, hr, he⟩ := (ho _).1 hm
    obtain ⟨n, hs, hi⟩ := lcFrom_legit hr he
    obtain ⟨r', hr', out2, ho2, -, h2, -⟩ := lcFrom_ill hs hi hl
    rw [hr, Option.some.injEq] at hr'
    rw [Option.some.injEq] at ho2
    subst hr' ho2
    obtain ⟨t, d, hw, ht⟩ := h2.1 ⟨l, he⟩
    obtain ⟨x, hx, n', hn', hx0⟩ := ring_of_loop hw ht
    rw [hs, Option.some.injEq] at hn'
    subst hn'
    refine ⟨d + 1, inferInstance, x, fun i => ?_, 0, ?_⟩
    · obtain ⟨n, hm, e⟩ := hx i
      rw [e]
      exact ((hn n).1 hm).1
    · simp only [hx0]
      rw [← ((hn n).1 (List.mem_of_getElem? hs)).2, hi]
      simp
  · rintro ⟨n, _, x, hx⟩
    obtain ⟨sidx, s, hs, hi, hon⟩ := deadRing_loop hn hx
    obtain ⟨r, hr, out2, ho2, -, h2, -⟩ := lcFrom_ill hs hi hl
    rw [Option.some.injEq] at ho2
    subst ho2
    obtain ⟨l, hl⟩ := h2.2 hon
    exact ⟨l, (ho _).2 ⟨sidx, r, hr, hl⟩⟩

/-- C38, when no ring is illegitimate at every process and still silent: every deadlock is reported. -/
theorem C38_complete_partial (hp : PickOk pick silent) (hf : silent.card + 1 < fuel)
    {out : List LCEvent} (h : deadlockFreedomCk fuel pick legit silent = some out)
    (hno : ∀ (n : ℕ) [NeZero n] (x : ZMod n → ℕ), Quiet (· ∈ silent) x →
      ∃ i, legit (triple x i) = true)
    {n : ℕ} [NeZero n] {x : ZMod n → ℕ} (hx : DeadRing (· ∈ silent) (legit · = true) x) :
    ∃ N, .deadlock N ∈ out := by
  obtain ⟨nodes, out', e, hl, hn, ho⟩ := deadfree_spec (legit := legit) hp hf
  rw [h, Option.some.injEq] at e
  subst e
  obtain ⟨sidx, s, hs, hi, hon⟩ := deadRing_loop hn hx
  obtain ⟨r, hr, out2, ho2, -, -, h3⟩ := lcFrom_ill hs hi hl
  rw [Option.some.injEq] at ho2
  subst ho2
  rcases h3 hon with ⟨N, hN⟩ | hill
  · exact ⟨N, (ho _).2 ⟨sidx, r, hr, hN⟩⟩
  · exfalso
    obtain ⟨m, y, hy⟩ := ring_of_allIll hill
    obtain ⟨i, hi⟩ := hno (m + 1) y fun i => by
      obtain ⟨n, h1, -, h3⟩ := hy i
      rw [h3]
      exact ((hn n).1 h1).1
    obtain ⟨n, h1, h2, h3⟩ := hy i
    rw [h3, ← ((hn n).1 h1).2, h2] at hi
    cases hi

/-- C38, about what is printed: each trace is a row of silent local states that agree with their
neighbours, and the last one agrees with an illegitimate silent state. -/
theorem C38_trace_chain_partial (hp : PickOk pick silent) (hf : silent.card + 1 < fuel)
    {out : List LCEvent} (h : deadlockFreedomCk fuel pick legit silent = some out)
    {l : List LCNode} (hl : .ring l ∈ out) :
    (∀ m ∈ l, (m.pd, m.id, m.sc) ∈ silent ∧ m.legit = legit (m.pd, m.id, m.sc)) ∧
    ∃ s : LCNode, (s.pd, s.id, s.sc) ∈ silent ∧ legit (s.pd, s.id, s.sc) = false ∧
      List.IsChain (fun a b : LCNode => b.pd = a.id ∧ b.id = a.sc) (l ++ [s]) := by
  obtain ⟨nodes, out', e, hfl, hn, ho⟩ := deadfree_spec (legit := legit) hp hf
  rw [h, Option.some.injEq] at e
  subst e
  obtain ⟨sidx, r, hr, he⟩ := (ho _).1 hl
  obtain ⟨n, hs, hi⟩ := lcFrom_legit hr he
  obtain ⟨h1, h2⟩ := lcFrom_trace hs hr he
  have h3 := (hn n).1 (List.mem_of_getElem? hs)
  exact ⟨fun m hm => (hn m).1 (h2 m hm), n, h3.1, by rw [← hi]; exact h3.2.symm, h1⟩

end

/-! Examples -/

/-- Picks the first of the given candidates. -/
def pickL (L : List (ℕ × ℕ × ℕ)) (S : Finset (ℕ × ℕ × ℕ)) : Option (ℕ × ℕ × ℕ) := L.find? (· ∈ S)

theorem pickL_ok (L : List (ℕ × ℕ × ℕ)) : PickOk (pickL L) L.toFinset := by
  refine ⟨by simp [pickL], fun S hS ⟨s, hs⟩ => ?_⟩
  unfold pickL
  cases h : L.find? (· ∈ S) with
  | none =>
    rw [List.find?_eq_none] at h
    exact absurd hs (by simpa using h s (List.mem_toFinset.1 (hS hs)))
  | some t => exact ⟨t, by simpa using List.find?_some h, rfl⟩

/-- The local states of the ring 0,0,1. -/
def sampleDead3 : List (ℕ × ℕ × ℕ) := [(1, 0, 0), (0, 0, 1), (0, 1, 0)]

/-- A process with value 1 is illegitimate. -/
def sampleLegit3 (t : ℕ × ℕ × ℕ) : Bool := t.2.1 = 0

theorem sampleDead3_out : deadlockFreedomCk 5 (pickL sampleDead3) sampleLegit3 sampleDead3.toFinset =
    some [.ring [⟨false, 0, 1, 0⟩, ⟨true, 1, 0, 0⟩, ⟨true, 0, 0, 1⟩], .deadlock 3] := by
  decide +kernel

example : ∃ x : ZMod 3 → ℕ, DeadRing (· ∈ sampleDead3.toFinset) (sampleLegit3 · = true) x :=
  (C37_sound (pickL_ok _) (by decide) sampleDead3_out (N := 3) (by simp)).2

theorem sampleDead3_ring :
    DeadRing (n := 3) (· ∈ sampleDead3.toFinset) (sampleLegit3 · = true) fun i => i.val / 2 :=
  ⟨by unfold Quiet; decide, 2, by decide⟩

example : ∃ l, LCEvent.ring l ∈ [LCEvent.ring [⟨false, 0, 1, 0⟩, ⟨true, 1, 0, 0⟩, ⟨true, 0, 0, 1⟩],
    .deadlock 3] :=
  (C38_ring_trace_partial (pickL_ok _) (by decide) sampleDead3_out).2
    ⟨3, inferInstance, _, sampleDead3_ring⟩

/-- Completeness where it holds: in every silent ring some process has value 0. -/
example : ∃ N, LCEvent.deadlock N ∈ [LCEvent.ring [⟨false, 0, 1, 0⟩, ⟨true, 1, 0, 0⟩,
    ⟨true, 0, 0, 1⟩], .deadlock 3] := by
  refine C38_complete_partial (pickL_ok _) (by decide) sampleDead3_out (fun n _ x hx => ?_)
    sampleDead3_ring
  by_contra hc
  push Not at hc
  have h0 := hx 0
  have h1 := hc 0
  have h2 := hc 1
  simp [triple, sampleLegit3, sampleDead3] at h0 h1 h2
  omega

/-- C38 fails: a process that is never enabled and nowhere legitimate deadlocks in every ring, but the
analysis finds no deadlock. -/
theorem C38_counterexample :
    deadlockFreedomCk 3 (pickL [(0, 0, 0)]) (fun _ => false) {(0, 0, 0)} =
      some [.ring [⟨false, 0, 0, 0⟩]] ∧
    ∀ n : ℕ, DeadRing (· ∈ ({(0, 0, 0)} : Finset (ℕ × ℕ × ℕ))) (fun _ => False)
      (fun _ : ZMod n => 0) :=
  ⟨by decide +kernel, fun n => ⟨fun i => by simp [triple], 0, id⟩⟩

end Verif.Props
