import Verif.Proofs.Graph
import Verif.Proofs.Scc
import Verif.Proofs.UniWeak
import Verif.Proofs.Reach
import Verif.Props.Uniring

/-! Properties of the further graph algorithms: C76, C77, C78. -/

set_option linter.unusedSectionVars false

namespace Verif.Props
open Verif.Model Verif.Spec

universe u
variable {σ : Type u} [Fintype σ] [DecidableEq σ]

/-! ### C76: the check of weak convergence for unidirectional rings

Full statement: `uniring_weak_convergence_ck` answers `true` exactly when every assumed state can reach the invariant.
This is false of the code, even for deterministic self-disabling rings (`C76_true_but_not_convergent`); for rings that
are not self-disabling it can also answer `false` wrongly (`C76_false_but_convergent`) or run forever
(`C76_runs_forever`). -/

theorem ring_last {V : Type u} {n : ℕ} [NeZero n] [Fintype V] [DecidableEq V] (hn : 2 ≤ n)
    {f : ZMod n → V → V → V → Prop} (hsd : SelfDisabling f) {ps : List (Finset ((ZMod n → V) × (ZMod n → V)))}
    (hr : IsRing f ps) : ∃ qs p, ps = qs ++ [p] ∧ ∀ s t u, (s, t) ∈ p → (t, u) ∉ p := by
  have hne : ps ≠ [] := by
    intro h; have := hr.length; rw [h] at this; simp at this; omega
  refine ⟨ps.dropLast, ps.getLast hne, (List.dropLast_append_getLast hne).symm, ?_⟩
  rw [List.getLast_eq_getElem]
  intro s t u h1 h2
  have hk : ps.length - 1 < ps.length := by have := hr.length; omega
  obtain ⟨c, hc, rfl⟩ := (hr.mem _ hk s t).1 h1
  obtain ⟨d, hd, _⟩ := (hr.mem _ hk _ u).1 h2
  have hone : ∀ i : ZMod n, i - 1 ≠ i := by
    intro i hi
    have h10 : (1 : ZMod n) = 0 := by simpa using hi
    have : Fact (1 < n) := ⟨by omega⟩
    exact one_ne_zero h10
  rw [Function.update_self, Function.update_of_ne (hone _)] at hd
  exact hsd _ _ _ _ hc _ hd

/-- **C76**, what the check does decide on every ring of self-disabling processes (which are the rings the tool works
with): it terminates without failing and answers `true` exactly when no assumed state outside the invariant is a
deadlock; the number of layers is at most 2 whatever the distance. -/
theorem C76_uniring_weak_partial {V : Type u} {n : ℕ} [NeZero n] [Fintype V] [DecidableEq V] (hn : 2 ≤ n)
    {f : ZMod n → V → V → V → Prop} (hsd : SelfDisabling f) {ps : List (Finset ((ZMod n → V) × (ZMod n → V)))}
    (hr : IsRing f ps) (inv assumed : Finset (ZMod n → V)) (fuel : ℕ) (hf : 2 ≤ fuel) :
    ∃ b m, uniWeakCk fuel ps inv assumed = some (.ok (b, m)) ∧ m ≤ 2 ∧
      (b = true ↔ ∀ x ∈ assumed, x ∉ inv → ∃ y, RStep f x y) := by
  have hdl : assumed \ inv ⊆ domE ps ↔ ∀ x ∈ assumed, x ∉ inv → ∃ y, RStep f x y := by
    rw [sub_dom_iff]
    refine forall₃_congr fun x _ _ => ?_
    unfold Deadlock
    push Not
    exact exists_congr fun y => hr.step
  rw [← hdl]
  by_cases h : assumed \ inv ⊆ domE ps
  · obtain ⟨qs, p, rfl, hp⟩ := ring_last hn hsd hr
    refine ⟨_, _, uniWeakCk_self_disabling hp inv assumed h fuel hf, ?_, by simp [h]⟩
    split <;> omega
  · exact ⟨_, _, uniWeakCk_deadlock h, by omega, by simp [h]⟩

example : SelfDisabling (tokenRing (n := 2)) ∧ IsRing (tokenRing (n := 2)) (ringProcs tokenRing) ∧
    uniWeakCk 2 (ringProcs tokenRing) {ring2 false false} Finset.univ = some (.ok (true, 2)) :=
  ⟨tokenRing_selfDisabling, ringProcs_isRing _, by decide +kernel⟩

/-- **C76**, the case in which the answer is right: for any processes, when no cycle lies outside the invariant and the
assumed states are closed, the check terminates and answers `true` exactly when every assumed state can reach the
invariant.  `stabilization_ck` calls it after such cycles have been excluded. -/
theorem C76_uniring_weak_no_cycle_partial {ps : List (Finset (σ × σ))} (hps : ps ≠ []) {xn : Finset (σ × σ)}
    (hx : ∀ e, e ∈ xn ↔ ∃ p ∈ ps, e ∈ p) {inv assumed : Finset σ} (hA : Closed xn assumed)
    (hc : ∀ c, ¬ OnCycleIn xn invᶜ c) (fuel : ℕ) (hf : Fintype.card σ + 1 < fuel) :
    ∃ b m, uniWeakCk fuel ps inv assumed = some (.ok (b, m)) ∧
      (b = true ↔ ∀ s ∈ assumed, ∃ t ∈ inv, Reach xn s t) := by
  have hxn : xn = xfmla ps := by ext e; rw [hx, mem_xfmla]
  subst hxn
  by_cases h : assumed \ inv ⊆ domE ps
  · obtain ⟨m, hm⟩ := uniWeakCk_no_cycle hps hc h fuel hf
    refine ⟨_, m, hm, ?_⟩
    simp only [true_iff]
    by_contra hno
    push Not at hno
    obtain ⟨s, hs, hno⟩ := hno
    classical
    let G : Finset σ := Finset.univ.filter fun u => u ∈ assumed ∧ Reach (xfmla ps) s u
    have hG : ∀ u, u ∈ G ↔ u ∈ assumed ∧ Reach (xfmla ps) s u := by intro u; simp [G]
    have hGi : ∀ u ∈ G, u ∉ inv := fun u hu hi => hno u hi ((hG u).1 hu).2
    obtain ⟨c, _, hcyc, _⟩ := exists_cycle_of_succ (xn := xfmla ps) (G := G) (fun u hu => by
      obtain ⟨h1, h2⟩ := (hG u).1 hu
      have hd := sub_dom_iff.1 h u h1 (hGi u hu)
      unfold Deadlock at hd
      push Not at hd
      obtain ⟨t, ht⟩ := hd
      exact ⟨t, (hG t).2 ⟨hA u h1 t ht, h2.tail ht⟩, ht⟩) ((hG s).2 ⟨hs, Relation.ReflTransGen.refl⟩)
    refine hc c (Relation.TransGen.mono (fun a b hab => ?_) _ _ hcyc)
    exact ⟨hab.1, by simpa using hGi a hab.2.1, by simpa using hGi b hab.2.2⟩
  · refine ⟨_, _, uniWeakCk_deadlock h, ?_⟩
    simp only [Bool.false_eq_true, false_iff]
    intro hw
    apply h
    rw [sub_dom_iff]
    intro s hs hi hd
    obtain ⟨t, ht, hst⟩ := hw s hs
    rcases Relation.ReflTransGen.cases_head hst with rfl | ⟨u, hu, _⟩
    · exact hi ht
    · exact hd u hu

/-- Two processes counting down to 0; nothing runs forever outside `{0}`. -/
example : (∀ c : Fin 4, ¬ OnCycleIn ({(3, 2), (1, 0), (2, 1)} : Finset (Fin 4 × Fin 4)) ({0} : Finset (Fin 4))ᶜ c) ∧
    uniWeakCk 6 [({(3, 2), (1, 0)} : Finset (Fin 4 × Fin 4)), {(2, 1)}] {0} Finset.univ = some (.ok (true, 2)) := by
  refine ⟨?_, by decide⟩
  have hlt : ∀ a b : Fin 4, Step ({(3, 2), (1, 0), (2, 1)} : Finset (Fin 4 × Fin 4)) a b → b < a := by
    unfold Step; decide
  have : ∀ a b : Fin 4, Relation.TransGen (fun a b => Step ({(3, 2), (1, 0), (2, 1)} : Finset (Fin 4 × Fin 4)) a b ∧
      a ∈ ({0} : Finset (Fin 4))ᶜ ∧ b ∈ ({0} : Finset (Fin 4))ᶜ) a b → b < a := by
    intro a b h
    induction h with
    | single h => exact hlt _ _ h.1
    | tail _ h ih => exact (hlt _ _ h.1).trans ih
  intro c h
  exact lt_irrefl _ (this c c h)

/-- **C76.** For any processes, whenever the check answers `false`, some assumed state outside the invariant is a
deadlock or some cycle lies outside the invariant. -/
theorem C76_uniring_weak_false_partial {ps : List (Finset (σ × σ))} (hps : ps ≠ []) {xn : Finset (σ × σ)}
    (hx : ∀ e, e ∈ xn ↔ ∃ p ∈ ps, e ∈ p) {inv assumed : Finset σ} (fuel m : ℕ)
    (h : uniWeakCk fuel ps inv assumed = some (.ok (false, m))) :
    (∃ s ∈ assumed, s ∉ inv ∧ Deadlock xn s) ∨ ∃ c, OnCycleIn xn invᶜ c := by
  have hxn : xn = xfmla ps := by ext e; rw [hx, mem_xfmla]
  subst hxn
  by_cases hA : assumed \ inv ⊆ domE ps
  · exact .inr (uniWeakCk_false hps hA fuel m h)
  · left
    rw [sub_dom_iff] at hA
    push Not at hA
    exact hA

/-- **C76.** For any processes, whenever the check answers `true`, no assumed state outside the invariant is a
deadlock. -/
theorem C76_uniring_weak_true_partial {ps : List (Finset (σ × σ))} {xn : Finset (σ × σ)}
    (hx : ∀ e, e ∈ xn ↔ ∃ p ∈ ps, e ∈ p) {inv assumed : Finset σ} (fuel m : ℕ)
    (h : uniWeakCk fuel ps inv assumed = some (.ok (true, m))) : ∀ s ∈ assumed, s ∉ inv → ∃ t, Step xn s t := by
  have hxn : xn = xfmla ps := by ext e; rw [hx, mem_xfmla]
  subst hxn
  by_cases hA : assumed \ inv ⊆ domE ps
  · intro s hs hi
    have := sub_dom_iff.1 hA s hs hi
    unfold Deadlock at this
    push Not at this
    exact this
  · rw [uniWeakCk_deadlock hA] at h; simp at h

/-- Both answers occur: a deadlock at 2, and no deadlock. -/
example : uniWeakCk 6 [({(1, 0)} : Finset (Fin 3 × Fin 3))] {0} Finset.univ = some (.ok (false, 1)) ∧
    uniWeakCk 6 [({(1, 0), (2, 1)} : Finset (Fin 3 × Fin 3))] {0} Finset.univ = some (.ok (true, 3)) := by
  decide

/-- A ring that stabilizes to all 2 only when some process already has the value 2; without it, binary values are
changed forever. -/
def stuckRing : ZMod 3 → Fin 3 → Fin 3 → Fin 3 → Prop := fun _ a b c =>
  (a = 2 ∧ b ≠ 2 ∧ c = 2) ∨ (a = b ∧ b ≠ 2 ∧ c = 1 - b)

instance (i : ZMod 3) (a b c : Fin 3) : Decidable (stuckRing i a b c) := by
  unfold stuckRing; infer_instance

theorem stuckRing_live : ∀ x : ZMod 3 → Fin 3, x ≠ (fun _ => 2) → ∃ i c, stuckRing i (x (i - 1)) (x i) c := by
  decide +kernel

/-- Finding: the check answers `true` for a deterministic self-disabling ring from most of whose states the invariant
cannot be reached. -/
theorem C76_true_but_not_convergent : SelfDisabling stuckRing ∧ Deterministic stuckRing ∧
    IsRing stuckRing (ringProcs stuckRing) ∧
    (∃ m, uniWeakCk 2 (ringProcs stuckRing) {fun _ => 2} Finset.univ = some (.ok (true, m))) ∧
    ¬ Relation.ReflTransGen (RStep stuckRing) (fun _ => 0) (fun _ => 2) := by
  have hsd : SelfDisabling stuckRing := by unfold SelfDisabling; decide
  refine ⟨hsd, by unfold Deterministic; decide, ringProcs_isRing _, ?_, ?_⟩
  · obtain ⟨b, m, h1, _, h2⟩ := C76_uniring_weak_partial (by omega) hsd (ringProcs_isRing stuckRing)
      {fun _ => 2} Finset.univ 2 (le_refl _)
    have hb : b = true := h2.2 (by
      intro x _ hx
      obtain ⟨i, c, hc⟩ := stuckRing_live x (by simpa using hx)
      exact ⟨_, i, c, hc, rfl⟩)
    exact ⟨m, by rw [h1, hb]⟩
  · intro h
    have key : ∀ y, Relation.ReflTransGen (RStep stuckRing) (fun _ => 0) y → ∀ i, y i ≠ 2 := by
      intro y hy
      induction hy with
      | refl => intro i; simp
      | tail _ hs ih =>
        obtain ⟨i, c, hc, rfl⟩ := hs
        intro j
        by_cases hj : j = i
        · subst hj
          rw [Function.update_self]
          rcases hc with ⟨h1, _⟩ | ⟨_, h2, rfl⟩
          · exact absurd h1 (ih _)
          · revert h2
            exact (by decide : ∀ v : Fin 3, v ≠ 2 → 1 - v ≠ 2) _
        · rw [Function.update_of_ne hj]; exact ih j
    exact key _ h 0 rfl

/-- A ring of two processes: `(x 0, x 1)` as a pair. -/
def pair {n : ℕ} (a b : Fin n) : ZMod 2 → Fin n := fun i => if i = 0 then a else b

/-- A ring whose processes may act twice in a row. -/
def flickerRing : ZMod 2 → Fin 3 → Fin 3 → Fin 3 → Prop := fun i a b c =>
  if i = 0 then (a, b, c) = (0, 0, 1) ∨ (a, b, c) = (1, 1, 0)
  else (a, b, c) ∈ ({(1, 0, 2), (1, 0, 1), (0, 1, 0), (1, 2, 1)} : Finset (Fin 3 × Fin 3 × Fin 3))

instance (i : ZMod 2) (a b c : Fin 3) : Decidable (flickerRing i a b c) := by
  unfold flickerRing; infer_instance

def flickerInv : Finset (ZMod 2 → Fin 3) := {pair 0 0, pair 1 0, pair 1 2, pair 1 1, pair 0 1}ᶜ

theorem flicker_round (k : ℕ) :
    uwBody (ringProcs flickerRing) flickerInv ({pair 0 0}, k) = .inr ({pair 1 1}, k + 2) ∧
    uwBody (ringProcs flickerRing) flickerInv ({pair 1 1}, k) = .inr ({pair 0 0}, k + 2) := by
  have h1 : uwRound (ringProcs flickerRing) flickerInv {pair 0 0} = {pair 1 1} := by decide +kernel
  have h2 : uwRound (ringProcs flickerRing) flickerInv {pair 1 1} = {pair 0 0} := by decide +kernel
  have hne : ringProcs flickerRing ≠ [] := by simp [ringProcs]
  have hlen : (ringProcs flickerRing).length = 2 := by simp [ringProcs]
  have hd : pair (n := 3) 0 0 ≠ pair 1 1 := by decide
  constructor
  · rcases uwBody_cases hne flickerInv {pair 0 0} k with ⟨m, _, _, h⟩ | ⟨_, h, _⟩ | ⟨_, _, h⟩
    · rw [h1] at h; simp at h
    · rw [h1] at h; exact absurd (Finset.singleton_inj.1 h).symm hd
    · rw [h, h1, hlen]
  · rcases uwBody_cases hne flickerInv {pair 1 1} k with ⟨m, _, _, h⟩ | ⟨_, h, _⟩ | ⟨_, _, h⟩
    · rw [h2] at h; simp at h
    · rw [h2] at h; exact absurd (Finset.singleton_inj.1 h) hd
    · rw [h, h2, hlen]

/-- Finding: on a ring whose processes are not self-disabling the check can run forever. -/
theorem C76_runs_forever : IsRing flickerRing (ringProcs flickerRing) ∧
    ∀ fuel, uniWeakCk fuel (ringProcs flickerRing) flickerInv Finset.univ = none := by
  refine ⟨ringProcs_isRing _, fun fuel => ?_⟩
  have hd : Finset.univ \ flickerInv ⊆ domE (ringProcs flickerRing) := by decide +kernel
  have hs : uwRound (ringProcs flickerRing) flickerInv (uwStart (ringProcs flickerRing) flickerInv Finset.univ) =
      {pair 0 0} := by decide +kernel
  have hs' : uwStart (ringProcs flickerRing) flickerInv Finset.univ ≠ {pair 0 0} := by decide +kernel
  have hne : ringProcs flickerRing ≠ [] := by simp [ringProcs]
  rw [uniWeakCk_loop hd hne, Option.map_eq_none_iff]
  refine loopFuel_diverges (fun st => st.1 = uwStart (ringProcs flickerRing) flickerInv Finset.univ ∨
    st.1 = {pair 0 0} ∨ st.1 = {pair 1 1}) ?_ fuel _ (.inl rfl)
  rintro ⟨X, k⟩ (h | h | h)
  · simp only at h
    subst h
    rcases uwBody_cases hne flickerInv (uwStart (ringProcs flickerRing) flickerInv Finset.univ) k with
      ⟨m, _, _, h⟩ | ⟨_, h, _⟩ | ⟨_, _, h⟩
    · rw [hs] at h; simp at h
    · rw [hs] at h; exact absurd h.symm hs'
    · exact ⟨_, h, .inr (.inl hs)⟩
  · simp only at h
    subst h
    exact ⟨_, (flicker_round k).1, .inr (.inr rfl)⟩
  · simp only at h
    subst h
    exact ⟨_, (flicker_round k).2, .inr (.inl rfl)⟩

/-- A ring that can always escape to the invariant by first taking the value 2. -/
def exitRing : ZMod 2 → Fin 4 → Fin 4 → Fin 4 → Prop := fun i a b c =>
  if i = 0 then (a, b, c) = (0, 0, 1) ∨ (a, b, c) = (1, 1, 0)
  else (a, b, c) ∈ ({(0, 1, 0), (0, 1, 2), (1, 0, 1), (1, 0, 2), (0, 2, 3), (1, 2, 3)} :
    Finset (Fin 4 × Fin 4 × Fin 4))

instance (i : ZMod 2) (a b c : Fin 4) : Decidable (exitRing i a b c) := by
  unfold exitRing; infer_instance

def exitInv : Finset (ZMod 2 → Fin 4) := {pair 0 0, pair 1 0, pair 0 1, pair 1 1, pair 0 2, pair 1 2}ᶜ

/-- Finding: the check can answer `false` although every state can reach the invariant. -/
theorem C76_false_but_convergent : IsRing exitRing (ringProcs exitRing) ∧
    uniWeakCk 4 (ringProcs exitRing) exitInv Finset.univ = some (.ok (false, 5)) ∧
    ∀ x, ∃ y ∈ exitInv, Relation.ReflTransGen (RStep exitRing) x y := by
  refine ⟨ringProcs_isRing _, by decide +kernel, ?_⟩
  have e1 : RStep exitRing (pair 0 2) (pair 0 3) := ⟨1, 3, by decide, by decide⟩
  have e2 : RStep exitRing (pair 1 2) (pair 1 3) := ⟨1, 3, by decide, by decide⟩
  have e3 : RStep exitRing (pair 0 1) (pair 0 2) := ⟨1, 2, by decide, by decide⟩
  have e4 : RStep exitRing (pair 1 0) (pair 1 2) := ⟨1, 2, by decide, by decide⟩
  have e5 : RStep exitRing (pair 0 0) (pair 1 0) := ⟨0, 1, by decide, by decide⟩
  have e6 : RStep exitRing (pair 1 1) (pair 0 1) := ⟨0, 0, by decide, by decide⟩
  have i1 : pair 0 3 ∈ exitInv := by decide +kernel
  have i2 : pair 1 3 ∈ exitInv := by decide +kernel
  have r1 := Relation.ReflTransGen.single e1
  have r2 := Relation.ReflTransGen.single e2
  intro x
  by_cases hx : x ∈ exitInv
  · exact ⟨x, hx, .refl⟩
  · have hx' : x ∈ ({pair 0 0, pair 1 0, pair 0 1, pair 1 1, pair 0 2, pair 1 2} : Finset (ZMod 2 → Fin 4)) := by
      unfold exitInv at hx
      rw [Finset.mem_compl, not_not] at hx
      exact hx
    simp only [Finset.mem_insert, Finset.mem_singleton] at hx'
    rcases hx' with rfl | rfl | rfl | rfl | rfl | rfl
    · exact ⟨_, i2, (r2.head e4).head e5⟩
    · exact ⟨_, i2, r2.head e4⟩
    · exact ⟨_, i1, r1.head e3⟩
    · exact ⟨_, i1, (r1.head e3).head e6⟩
    · exact ⟨_, i1, r1⟩
    · exact ⟨_, i2, r2⟩

/-- **C76**, as used by `stabilization_ck`: with `-uniring` the number of weak layers printed for a complete protocol of
self-disabling processes is 1 or 2. -/
theorem C76_printed_layers_partial {V : Type u} {n : ℕ} [NeZero n] [Fintype V] [DecidableEq V] (hn : 2 ≤ n)
    {f : ZMod n → V → V → V → Prop} (hsd : SelfDisabling f) {ps : List (Finset ((ZMod n → V) × (ZMod n → V)))}
    (hr : IsRing f ps) (countConvergence synchronous : Bool) (lo : Finset ((ZMod n → V) × (ZMod n → V)))
    (hiInv scc assumed : Finset (ZMod n → V)) (nlayers fuel : ℕ) (hf : 2 ≤ fuel) :
    ∃ m, weakLayers fuel countConvergence true synchronous lo ps hiInv scc assumed nlayers = some (.ok m) ∧ m ≤ 2 := by
  obtain ⟨b, m, h1, h2, _⟩ := C76_uniring_weak_partial hn hsd hr (layerTarget countConvergence lo hiInv scc) assumed fuel hf
  exact ⟨m, by simp [weakLayers, h1], h2⟩

/-- Every process but process 0 copies its predecessor. -/
def copyRing : ZMod 3 → Bool → Bool → Bool → Prop := fun i a b c => i ≠ 0 ∧ a ≠ b ∧ c = a

instance (i : ZMod 3) (a b c : Bool) : Decidable (copyRing i a b c) := by
  unfold copyRing; infer_instance

/-- Finding: the printed number of weak layers depends on the option `-uniring`: from `(0, 1, 1)` two steps are needed,
three layers, of which `-uniring` reports two. -/
theorem C76_layers_differ : SelfDisabling copyRing ∧ Deterministic copyRing ∧
    weakLayers 10 false true false (xfmla (ringProcs copyRing)) (ringProcs copyRing) ∅ ∅ Finset.univ 0 =
      some (.ok 2) ∧
    weakLayers 10 false false false (xfmla (ringProcs copyRing)) (ringProcs copyRing) ∅ ∅ Finset.univ 0 =
      some (.ok 3) := by
  refine ⟨by unfold SelfDisabling; decide, by unfold Deterministic; decide, by decide +kernel, by decide +kernel⟩

/-! ### C77: closures -/

theorem reach_both {xn : Finset (σ × σ)} {s t : σ} : Reach (both xn) s t ↔ Relation.EqvGen (Step xn) s t := by
  have hsym : ∀ a b, Reach (both xn) a b → Reach (both xn) b a := by
    intro a b h
    induction h with
    | refl => exact .refl
    | tail _ h ih => exact .head (mem_both.2 (mem_both.1 h).symm) ih
  constructor
  · intro h
    induction h with
    | refl => exact .refl _
    | tail _ h ih =>
      rcases mem_both.1 h with h | h
      · exact .trans _ _ _ ih (.rel _ _ h)
      · exact .trans _ _ _ ih (.symm _ _ (.rel _ _ h))
  · intro h
    induction h with
    | rel _ _ h => exact .single (mem_both.2 (.inl h))
    | refl _ => exact .refl
    | symm _ _ _ ih => exact hsym _ _ ih
    | trans _ _ _ _ _ ih1 ih2 => exact ih1.trans ih2

/-- **C77.** `UndirectedReachability` terminates and returns exactly the states that are connected to a given state by
transitions taken in either direction. -/
theorem C77_undirected_reachability (xn : Finset (σ × σ)) (p : Finset σ) (fuel : ℕ) (hf : Fintype.card σ < fuel) :
    ∃ r, undirReach fuel xn p = some r ∧ ∀ s, s ∈ r ↔ ∃ t ∈ p, Relation.EqvGen (Step xn) s t := by
  obtain ⟨r, h1, h2⟩ := preReach_total (both xn) p fuel hf
  refine ⟨r, by rw [undir_eq, h1], fun s => ?_⟩
  rw [h2]
  simp only [reach_both]

example : undirReach 6 ({(0, 1), (2, 1), (3, 4)} : Finset (Fin 5 × Fin 5)) {0} = some {0, 1, 2} := by decide

/-- **C77.** `transitive_closure` terminates and relates exactly the pairs joined by one or more transitions. -/
theorem C77_transitive_closure (xn : Finset (σ × σ)) (fuel : ℕ) (hf : Fintype.card (σ × σ) + 1 < fuel) :
    ∃ r, transClosure fuel xn = some r ∧ ∀ s t, (s, t) ∈ r ↔ Relation.TransGen (Step xn) s t :=
  transClosure_total xn fuel hf

example : transClosure 11 ({(0, 1), (1, 2)} : Finset (Fin 3 × Fin 3)) = some {(0, 1), (1, 2), (0, 2)} := by
  decide +kernel

/-- **C77.** `X::Fmlae::transitive_closure` terminates and relates exactly the pairs joined by one or more transitions
of any of the processes, from the given states if some are given. -/
theorem C77_transitive_closure_processes (ps : List (Finset (σ × σ))) {xn : Finset (σ × σ)}
    (hx : ∀ e, e ∈ xn ↔ ∃ p ∈ ps, e ∈ p) (initial : Option (Finset σ)) (fuel : ℕ)
    (hf : Fintype.card (σ × σ) + 1 < fuel) :
    ∃ r, transClosureE fuel ps initial = some r ∧
      ∀ s t, (s, t) ∈ r ↔ (∀ a, initial = some a → s ∈ a) ∧ Relation.TransGen (Step xn) s t := by
  have hxn : xn = xfmla ps := by ext e; rw [hx, mem_xfmla]
  subst hxn
  exact transClosureE_total ps initial fuel hf

example : transClosureE 11 [({(1, 2)} : Finset (Fin 3 × Fin 3)), {(0, 1)}] (some {0}) = some {(0, 1), (0, 2)} ∧
    transClosureE 11 [({(1, 2)} : Finset (Fin 3 × Fin 3)), {(0, 1)}] none = some {(0, 1), (0, 2), (1, 2)} := by
  decide +kernel

/-! ### C78: strongly connected components -/

/-- **C78.** `SCC_Find`, for any choice of single states by `pick_pre`, terminates without taking the top of an empty
stack; it answers `true` exactly when two different states of the set lie on a common cycle inside the set.  When a set
of cycles is wanted, exactly the states of such cycles are added to it; otherwise it is left alone. -/
theorem C78_scc_find {pick : Finset σ → Finset σ} (hp : ∀ X : Finset σ, X.Nonempty → ∃ x ∈ X, pick X = {x})
    (E : Finset (σ × σ)) (want : Bool) (cycles pf : Finset σ) (fuel : ℕ) (hf : pf.card < fuel) :
    ∃ b cyc, sccFind fuel pick E want cycles pf = some (.ok (b, cyc)) ∧
      (b = true ↔ ∃ s t, s ≠ t ∧ ReachIn E pf s t ∧ ReachIn E pf t s) ∧
      (want = true → ∀ s, s ∈ cyc ↔ s ∈ cycles ∨ ∃ t, s ≠ t ∧ ReachIn E pf s t ∧ ReachIn E pf t s) := by
  obtain ⟨b, cyc, h1, h2, h3⟩ := sccRec_spec (E := E) hp want fuel cycles pf ∅ ∅ hf
    ⟨[], trivial, by simp, by simp, by simp⟩
  refine ⟨b, cyc, h1, ?_, ?_⟩
  · rw [h2]
    constructor
    · rintro ⟨s, _, t, ht, h⟩; exact ⟨s, t, ht.symm, h⟩
    · rintro ⟨s, t, hst, h⟩; exact ⟨s, h.1.1, t, hst.symm, h⟩
  · intro hw s
    rw [h3 hw]
    constructor
    · rintro (h | ⟨_, t, ht, h⟩)
      · exact .inl h
      · exact .inr ⟨t, ht.symm, h⟩
    · rintro (h | ⟨t, hst, h⟩)
      · exact .inl h
      · exact .inr ⟨h.1.1, t, hst.symm, h⟩

/-- The least state of a set. -/
def leastOf {n : ℕ} (X : Finset (Fin n)) : Finset (Fin n) := X.filter fun x => ∀ y ∈ X, x ≤ y

theorem leastOf_picks {n : ℕ} : ∀ X : Finset (Fin n), X.Nonempty → ∃ x ∈ X, leastOf X = {x} := by
  intro X hX
  refine ⟨X.min' hX, X.min'_mem hX, ?_⟩
  ext y
  simp only [leastOf, Finset.mem_filter, Finset.mem_singleton]
  constructor
  · rintro ⟨h1, h2⟩
    exact le_antisymm (h2 _ (X.min'_mem hX)) (X.min'_le y h1)
  · rintro rfl
    exact ⟨X.min'_mem hX, fun z hz => X.min'_le z hz⟩

/-- Two components with a bridge, and a tail; the cycles are found with and without collecting them. -/
example : sccFind 7 leastOf ({(0, 1), (1, 2), (2, 1), (2, 3), (3, 4), (4, 5), (5, 3)} : Finset (Fin 6 × Fin 6)) true ∅
      Finset.univ = some (.ok (true, {5, 3, 4, 2, 1})) ∧
    sccFind 7 leastOf ({(0, 1), (1, 2), (2, 1), (2, 3), (3, 4), (4, 5), (5, 3)} : Finset (Fin 6 × Fin 6)) false ∅
      {0, 1, 3, 4} = some (.ok (false, ∅)) := by decide +kernel

/-- **C78**, as a check for cycles: on a relation without self-loops the answer is `true` exactly when a cycle lies
inside the set, and exactly the states on such cycles are collected; this is the answer of `cycle_ck` (C04). -/
theorem C78_scc_find_cycle {pick : Finset σ → Finset σ} (hp : ∀ X : Finset σ, X.Nonempty → ∃ x ∈ X, pick X = {x})
    {E : Finset (σ × σ)} (hE : ∀ s, (s, s) ∉ E) (want : Bool) (cycles pf : Finset σ) (fuel : ℕ) (hf : pf.card < fuel) :
    ∃ b cyc, sccFind fuel pick E want cycles pf = some (.ok (b, cyc)) ∧
      (b = true ↔ ∃ s, OnCycleIn E pf s) ∧
      (want = true → ∀ s, s ∈ cyc ↔ s ∈ cycles ∨ OnCycleIn E pf s) := by
  have key : ∀ s, (∃ t, s ≠ t ∧ ReachIn E pf s t ∧ ReachIn E pf t s) ↔ OnCycleIn E pf s := by
    intro s
    constructor
    · rintro ⟨t, hst, h1, h2⟩
      have conv : ∀ a b, ReachIn E pf a b →
          Relation.ReflTransGen (fun a b => Step E a b ∧ a ∈ pf ∧ b ∈ pf) a b ∧ b ∈ pf := by
        rintro a b ⟨ha, h⟩
        induction h with
        | refl => exact ⟨.refl, ha⟩
        | tail _ h ih => exact ⟨ih.1.tail ⟨h.1, ih.2, h.2⟩, h.2⟩
      rcases Relation.reflTransGen_iff_eq_or_transGen.1 (conv _ _ h1).1 with h | h
      · exact absurd h.symm hst
      · exact Relation.TransGen.trans_left h (conv _ _ h2).1
    · intro h
      obtain ⟨t, ⟨ht, hs, htp⟩, hts⟩ := Relation.TransGen.head'_iff.1 h
      refine ⟨t, ?_, ⟨hs, .single ⟨ht, htp⟩⟩, htp, ?_⟩
      · rintro rfl; exact hE _ ht
      · exact Relation.ReflTransGen.mono (fun a b hab => ⟨hab.1, hab.2.2⟩) _ _ hts
  obtain ⟨b, cyc, h1, h2, h3⟩ := C78_scc_find hp E want cycles pf fuel hf
  exact ⟨b, cyc, h1, by rw [h2]; exact exists_congr key, fun hw s => by rw [h3 hw, key]⟩

example : ∀ s, (s, s) ∉ ({(0, 1), (1, 2), (2, 1), (2, 3), (3, 4), (4, 5), (5, 3)} : Finset (Fin 6 × Fin 6)) := by decide

/-- Finding: a self-loop is a cycle for `cycle_ck` but not for `SCC_Find`. -/
theorem C78_self_loop : sccFind 3 leastOf ({(0, 0)} : Finset (Fin 2 × Fin 2)) false ∅ Finset.univ =
      some (.ok (false, ∅)) ∧ OnCycleIn ({(0, 0)} : Finset (Fin 2 × Fin 2)) Finset.univ 0 := by
  refine ⟨by decide +kernel, .single ⟨by unfold Step; decide, by decide, by decide⟩⟩

end Verif.Props
