import Verif.Model.UdpAct
import Mathlib.Tactic.SplitIfs
import Mathlib.Data.Fin.VecNotation

/-!
C117: the functions `action_assign`, `assume_assign` and `domsz_of_variable` that are written for the UDP implementation.
-/

namespace Verif.Props
open Verif.Model

variable {V : Type} [Fintype V] [DecidableEq V] {dm : V → ℕ}

theorem agreeOn_iff {R : Finset V} {s t : VSt V dm} : agreeOn R s t = true ↔ ∀ v ∈ R, s v = t v := by
  simp [agreeOn]

theorem mem_viewSet {R : Finset V} {s t : VSt V dm} : t ∈ viewSet R s ↔ ∀ v ∈ R, t v = s v := by
  simp [viewSet, agreeOn]

theorem viewSet_subset {R W : Finset V} (hW : W ⊆ R) {s t : VSt V dm} :
    viewSet R s ⊆ viewSet W t ↔ ∀ v ∈ W, s v = t v := by
  constructor
  · intro h
    exact mem_viewSet.1 (h (mem_viewSet.2 fun _ _ => rfl))
  · intro h u hu
    exact mem_viewSet.2 fun v hv => (mem_viewSet.1 hu v (hW hv)).trans (h v hv)

/-- `pick` gives a state of every set that has one. -/
abbrev UdpPicks (pick : Finset (VSt V dm) → Option (VSt V dm)) : Prop :=
  ∀ A : Finset (VSt V dm), A.Nonempty → ∃ s ∈ A, pick A = some s

theorem choices_spec {pick : Finset (VSt V dm) → Option (VSt V dm)} (hp : UdpPicks pick) {R W : Finset V} (hW : W ⊆ R)
    (pre : VSt V dm) : ∀ (fuel : ℕ) (pf : Finset (VSt V dm)), pf.card < fuel →
    ∃ ws, actChoices pick R W pre fuel pf = some ws ∧ (∀ t ∈ ws, t ∈ pf ∧ ¬∀ v ∈ W, pre v = t v) ∧
      (∀ t ∈ pf, (¬∀ v ∈ W, pre v = t v) → ∃ u ∈ ws, ∀ v ∈ W, u v = t v) ∧
      ws.Pairwise fun t u => ¬∀ v ∈ W, t v = u v := by
  intro fuel
  induction fuel with
  | zero => intro pf h; omega
  | succ fuel ih =>
    intro pf hc
    simp only [actChoices]
    by_cases h0 : pf = ∅
    · subst h0
      exact ⟨[], by simp⟩
    · rw [if_neg h0]
      obtain ⟨t, ht, et⟩ := hp pf (Finset.nonempty_iff_ne_empty.2 h0)
      have hlt : (pf \ viewSet W t).card < pf.card :=
        Finset.card_lt_card ⟨Finset.sdiff_subset, fun h => (Finset.mem_sdiff.1 (h ht)).2 (mem_viewSet.2 fun _ _ => rfl)⟩
      obtain ⟨ws, e, h1, h2, h3⟩ := ih (pf \ viewSet W t) (by omega)
      rw [et, Option.bind_some, e, Option.map_some]
      refine ⟨_, rfl, ?_⟩
      have h1' : ∀ u ∈ ws, u ∈ pf ∧ ¬∀ v ∈ W, pre v = u v := fun u hu =>
        ⟨(Finset.mem_sdiff.1 (h1 u hu).1).1, (h1 u hu).2⟩
      have h2' : ∀ u ∈ pf, (¬∀ v ∈ W, pre v = u v) → (∀ v ∈ W, t v = u v) ∨ ∃ w ∈ ws, ∀ v ∈ W, w v = u v :=
        fun u hu hn => by
          by_cases hu' : u ∈ viewSet W t
          · exact Or.inl fun v hv => (mem_viewSet.1 hu' v hv).symm
          · exact Or.inr (h2 u (Finset.mem_sdiff.2 ⟨hu, hu'⟩) hn)
      split_ifs with hs <;> rw [viewSet_subset hW] at hs
      · refine ⟨h1', fun u hu hn => ?_, h3⟩
        rcases h2' u hu hn with h | h
        · exact absurd (fun v hv => (hs v hv).trans (h v hv)) hn
        · exact h
      · refine ⟨fun u hu => ?_, fun u hu hn => ?_, List.pairwise_cons.2 ⟨fun u hu he => ?_, h3⟩⟩
        · rcases List.mem_cons.1 hu with rfl | hu
          · exact ⟨ht, hs⟩
          · exact h1' u hu
        · rcases h2' u hu hn with h | ⟨w, hw, h⟩
          · exact ⟨t, List.mem_cons_self, h⟩
          · exact ⟨w, List.mem_cons_of_mem _ hw, h⟩
        · exact (Finset.mem_sdiff.1 (h1 u hu).1).2 (mem_viewSet.2 fun v hv => (he v hv).symm)

/-- The statements of a test are for the transitions from the states with its values. -/
def TestOK (R W : Finset V) (xn : Finset (VSt V dm × VSt V dm)) (y : VSt V dm × List (VSt V dm)) : Prop :=
  (∃ s t, (s, t) ∈ xn ∧ ∀ v ∈ R, s v = y.1 v) ∧
  (∀ t ∈ y.2, (∃ s, (s, t) ∈ xn ∧ ∀ v ∈ R, s v = y.1 v) ∧ ¬∀ v ∈ W, y.1 v = t v) ∧
  (∀ s t, (s, t) ∈ xn → (∀ v ∈ R, s v = y.1 v) → (¬∀ v ∈ W, y.1 v = t v) → ∃ u ∈ y.2, ∀ v ∈ W, u v = t v) ∧
  y.2.Pairwise fun t u => ¬∀ v ∈ W, t v = u v

theorem tests_spec {pick : Finset (VSt V dm) → Option (VSt V dm)} (hp : UdpPicks pick) {R W : Finset V} (hW : W ⊆ R) :
    ∀ (fuel : ℕ) (xn : Finset (VSt V dm × VSt V dm)), xn.card < fuel →
    ∃ tests, actTests pick R W fuel xn = some tests ∧ (∀ y ∈ tests, TestOK R W xn y) ∧
      ∀ s t, (s, t) ∈ xn → ∃ y ∈ tests, ∀ v ∈ R, s v = y.1 v := by
  intro fuel
  induction fuel with
  | zero => intro xn h; omega
  | succ fuel ih =>
    intro xn hc
    simp only [actTests]
    by_cases h0 : xn = ∅
    · subst h0
      exact ⟨[], by simp⟩
    · rw [if_neg h0]
      obtain ⟨⟨s0, t0⟩, hst⟩ := Finset.nonempty_iff_ne_empty.2 h0
      obtain ⟨pre, hpre, ep⟩ := hp (dom xn) ⟨s0, by simp only [dom, Finset.mem_filter, Finset.mem_univ, true_and]; exact ⟨t0, hst⟩⟩
      obtain ⟨t1, ht1⟩ : ∃ t, (pre, t) ∈ xn := by simpa [dom] using hpre
      obtain ⟨ws, ew, w1, w2, w3⟩ := choices_spec hp hW pre _ (img xn (viewSet R pre)) (Nat.lt_succ_self _)
      have hlt : (xn.filter fun p => p.1 ∉ viewSet R pre).card < xn.card :=
        Finset.card_lt_card ⟨Finset.filter_subset _ _, fun h =>
          (Finset.mem_filter.1 (h ht1)).2 (mem_viewSet.2 fun _ _ => rfl)⟩
      obtain ⟨l, el, l1, l2⟩ := ih (xn.filter fun p => p.1 ∉ viewSet R pre) (by omega)
      have himg : ∀ t, t ∈ img xn (viewSet R pre) ↔ ∃ s, (s, t) ∈ xn ∧ ∀ v ∈ R, s v = pre v := fun t => by
        simp only [img, Finset.mem_filter, Finset.mem_univ, true_and, mem_viewSet]
        exact ⟨fun ⟨s, a, b⟩ => ⟨s, b, a⟩, fun ⟨s, a, b⟩ => ⟨s, b, a⟩⟩
      rw [ep, Option.bind_some, ew, Option.bind_some, el, Option.map_some]
      refine ⟨_, rfl, fun y hy => ?_, fun s t h => ?_⟩
      · rcases List.mem_cons.1 hy with rfl | hy
        · exact ⟨⟨pre, t1, ht1, fun _ _ => rfl⟩, fun t ht => ⟨(himg t).1 (w1 t ht).1, (w1 t ht).2⟩,
            fun s t h1 h2 h3 => w2 t ((himg t).2 ⟨s, h1, h2⟩) h3, w3⟩
        · obtain ⟨⟨s, t, hx, hsy⟩, k2, k3, k4⟩ := l1 y hy
          have hout : ∀ s', (∀ v ∈ R, s' v = y.1 v) → s' ∉ viewSet R pre := fun s' hs' hm =>
            (Finset.mem_filter.1 hx).2 (mem_viewSet.2 fun v hv =>
              ((hsy v hv).trans (hs' v hv).symm).trans (mem_viewSet.1 hm v hv))
          refine ⟨⟨s, t, (Finset.mem_filter.1 hx).1, hsy⟩, fun t ht => ?_, fun s t h1 h2 => ?_, k4⟩
          · obtain ⟨⟨s, h1, h2⟩, h3⟩ := k2 t ht
            exact ⟨⟨s, (Finset.mem_filter.1 h1).1, h2⟩, h3⟩
          · exact k3 s t (Finset.mem_filter.2 ⟨h1, hout s h2⟩) h2
      · by_cases hm : s ∈ viewSet R pre
        · exact ⟨_, List.mem_cons_self, mem_viewSet.1 hm⟩
        · obtain ⟨y, hy, h⟩ := l2 s t (Finset.mem_filter.2 ⟨h, hm⟩)
          exact ⟨y, List.mem_cons_of_mem _ hy, h⟩

theorem putOn_congr {W : Finset V} {x t u : VSt V dm} (h : ∀ v ∈ W, t v = u v) : putOn W x t = putOn W x u := by
  funext v
  by_cases hv : v ∈ W
  · simp [putOn, hv, h v hv]
  · simp [putOn, hv]

/-- **C117**, actions: the tests are always written, and for any values `x` of the variables of a process,
* if no transition is from a state with these values then `action_assign` restores `x0`;
* otherwise its possible results are the values after the transitions from these values that change a puppet variable, or
  `x` if there is no such transition. -/
theorem C117_action {pick : Finset (VSt V dm) → Option (VSt V dm)} (hp : UdpPicks pick) {R W : Finset V} (hW : W ⊆ R)
    (xn : Finset (VSt V dm × VSt V dm)) :
    ∃ tests, actTests pick R W (xn.card + 1) xn = some tests ∧ ∀ x0 x : VSt V dm,
      ((∀ s t, (s, t) ∈ xn → ¬∀ v ∈ R, s v = x v) → ∀ r, runAct R W tests x0 x r = some x0) ∧
      ((∃ s t, (s, t) ∈ xn ∧ ∀ v ∈ R, s v = x v) → ∀ y, (∃ r, runAct R W tests x0 x r = some y) ↔
        ((∃ s t, (s, t) ∈ xn ∧ (∀ v ∈ R, s v = x v) ∧ (¬∀ v ∈ W, t v = x v) ∧ y = putOn W x t) ∨
          (y = x ∧ ∀ s t, (s, t) ∈ xn → (∀ v ∈ R, s v = x v) → ∀ v ∈ W, t v = x v))) := by
  obtain ⟨tests, et, h1, h2⟩ := tests_spec hp hW _ xn (Nat.lt_succ_self _)
  refine ⟨tests, et, fun x0 x => ⟨fun hno r => ?_, ?_⟩⟩
  · have hf : (tests.find? fun y => agreeOn R x y.1) = none := List.find?_eq_none.2 fun y hy h => by
      obtain ⟨⟨s, t, hst, hs⟩, -⟩ := h1 y hy
      exact hno s t hst fun v hv => (hs v hv).trans (agreeOn_iff.1 h v hv).symm
    simp only [runAct, hf]
  · rintro ⟨s0, t0, hst0, hs0⟩ y
    cases hf : tests.find? fun y => agreeOn R x y.1 with
    | none =>
      obtain ⟨z, hz, hzs⟩ := h2 s0 t0 hst0
      exact absurd (agreeOn_iff.2 fun v hv => (hs0 v hv).symm.trans (hzs v hv)) (List.find?_eq_none.1 hf z hz)
    | some z =>
      have hz := List.find?_some hf
      have hxz : ∀ v ∈ R, x v = z.1 v := agreeOn_iff.1 hz
      obtain ⟨-, k2, k3, -⟩ := h1 z (List.mem_of_find?_eq_some hf)
      -- the results are those of the statements, or `x` if there are none
      have hres : (∃ r, runAct R W tests x0 x r = some y) ↔ (z.2 = [] ∧ y = x) ∨ ∃ t ∈ z.2, y = putOn W x t := by
        obtain ⟨pre, ws⟩ := z
        match ws, hf with
        | [], hf =>
          simp only [runAct, hf, Option.some.injEq, exists_const, true_and, List.not_mem_nil, false_and, exists_false,
            or_false]
          exact eq_comm
        | [t], hf =>
          simp only [runAct, hf, Option.some.injEq, exists_const, List.mem_singleton, exists_eq_left, reduceCtorEq,
            false_and, false_or]
          exact eq_comm
        | t :: u :: l, hf =>
          simp only [runAct, hf, reduceCtorEq, false_and, false_or, Option.map_eq_some_iff]
          constructor
          · rintro ⟨r, w, hw, rfl⟩
            exact ⟨w, List.mem_of_getElem? hw, rfl⟩
          · rintro ⟨w, hw, rfl⟩
            obtain ⟨r, hr⟩ := List.mem_iff_getElem?.1 hw
            exact ⟨r, w, hr, rfl⟩
      rw [hres]
      constructor
      · rintro (⟨he, rfl⟩ | ⟨t, ht, rfl⟩)
        · refine Or.inr ⟨rfl, fun s t hst hs v hv => ?_⟩
          by_contra hne
          obtain ⟨u, hu, -⟩ := k3 s t hst (fun v hv => (hs v hv).trans (hxz v hv)) fun h =>
            hne ((h v hv).symm.trans (hxz v (hW hv)).symm)
          rw [he] at hu
          cases hu
        · obtain ⟨⟨s, hst, hs⟩, hn⟩ := k2 t ht
          exact Or.inl ⟨s, t, hst, fun v hv => (hs v hv).trans (hxz v hv).symm,
            fun h => hn fun v hv => (hxz v (hW hv)).symm.trans (h v hv).symm, rfl⟩
      · rintro (⟨s, t, hst, hs, hn, rfl⟩ | ⟨rfl, hall⟩)
        · obtain ⟨u, hu, hut⟩ := k3 s t hst (fun v hv => (hs v hv).trans (hxz v hv)) fun h =>
            hn fun v hv => (h v hv).symm.trans (hxz v (hW hv)).symm
          exact Or.inr ⟨u, hu, (putOn_congr hut).symm⟩
        · refine Or.inl ⟨?_, rfl⟩
          by_contra hne
          obtain ⟨t, ht⟩ := List.exists_mem_of_ne_nil _ hne
          obtain ⟨⟨s, hst, hs⟩, hn⟩ := k2 t ht
          exact hn fun v hv => (hxz v (hW hv)).symm.trans
            (hall s t hst (fun v hv => (hs v hv).trans (hxz v hv).symm) v hv).symm

/-- **C117**, acting: without random variables (`x0 = x`) the process can act, whatever number is drawn, exactly if a
transition from its values changes a puppet variable. -/
theorem C117_can_act {pick : Finset (VSt V dm) → Option (VSt V dm)} (hp : UdpPicks pick) {R W : Finset V} (hW : W ⊆ R)
    (xn : Finset (VSt V dm × VSt V dm)) {tests} (ht : actTests pick R W (xn.card + 1) xn = some tests)
    (x y : VSt V dm) (r : ℕ) (hr : runAct R W tests x x r = some y) :
    y ≠ x ↔ ∃ s t, (s, t) ∈ xn ∧ (∀ v ∈ R, s v = x v) ∧ ¬∀ v ∈ W, t v = x v := by
  obtain ⟨tests', ht', h⟩ := C117_action hp hW xn
  rw [ht] at ht'
  cases ht'
  obtain ⟨h1, h2⟩ := h x x
  by_cases hex : ∃ s t, (s, t) ∈ xn ∧ ∀ v ∈ R, s v = x v
  · rcases (h2 hex y).1 ⟨r, hr⟩ with ⟨s, t, hst, hs, hn, rfl⟩ | ⟨rfl, hall⟩
    · refine ⟨fun _ => ⟨s, t, hst, hs, hn⟩, fun _ he => hn fun v hv => ?_⟩
      have := congrFun he v
      simpa [putOn, hv] using this
    · refine ⟨fun h => absurd rfl h, ?_⟩
      rintro ⟨s, t, hst, hs, hn⟩
      exact absurd (hall s t hst hs) hn
  · have := h1 (fun s t hst hs => hex ⟨s, t, hst, hs⟩) r
    rw [hr] at this
    cases this
    refine ⟨fun h => absurd rfl h, ?_⟩
    rintro ⟨s, t, hst, hs, -⟩
    exact absurd ⟨s, t, hst, hs⟩ hex

/-- Two variables of a process: it reads the first and writes the second; its only transitions set the second to any
other value when the two are equal. -/
def udpXn : Finset (VSt (Fin 2) (fun _ => 3) × VSt (Fin 2) (fun _ => 3)) :=
  Finset.univ.filter fun p => p.1 0 = p.1 1 ∧ p.2 0 = p.1 0 ∧ p.2 1 ≠ p.1 1

/-- The process can act from equal values and not from others. -/
example : (∃ s t, (s, t) ∈ udpXn ∧ (∀ v ∈ (Finset.univ : Finset (Fin 2)), s v = (![2, 2] : Fin 2 → Fin 3) v) ∧
      ¬∀ v ∈ ({1} : Finset (Fin 2)), t v = (![2, 2] : Fin 2 → Fin 3) v) ∧
    ∀ s t, (s, t) ∈ udpXn → ¬∀ v ∈ (Finset.univ : Finset (Fin 2)), s v = (![2, 1] : Fin 2 → Fin 3) v := by
  refine ⟨⟨![2, 2], ![2, 0], ?_, by decide, by decide⟩, fun s t h hs => ?_⟩
  · simp [udpXn]
  · have h1 := hs 0 (Finset.mem_univ _)
    have h2 := hs 1 (Finset.mem_univ _)
    simp only [udpXn, Finset.mem_filter, Finset.mem_univ, true_and] at h
    rw [h1, h2] at h
    exact absurd h.1 (by decide)

theorem smooth_irrel {A : Finset (VSt V dm)} {v : V} (h : smoothOne A v = A) (s : VSt V dm) (a : Fin (dm v)) :
    Function.update s v a ∈ A ↔ s ∈ A := by
  constructor
  · intro ha
    rw [← h]
    exact Finset.mem_filter.2 ⟨Finset.mem_univ _, a, ha⟩
  · intro hs
    rw [← h]
    exact Finset.mem_filter.2 ⟨Finset.mem_univ _, s v, by simpa using hs⟩

theorem irrel_set {A : Finset (VSt V dm)} : ∀ (D : Finset V), (∀ v ∈ D, smoothOne A v = A) →
    ∀ s t : VSt V dm, (∀ v, v ∉ D → s v = t v) → (s ∈ A ↔ t ∈ A) := by
  intro D
  induction D using Finset.induction_on with
  | empty =>
    intro _ s t h
    rw [funext fun v => h v (Finset.notMem_empty v)]
  | insert v D _ ih =>
    intro hD s t h
    rw [← smooth_irrel (hD v (Finset.mem_insert_self _ _)) s (t v)]
    refine ih (fun u hu => hD u (Finset.mem_insert_of_mem hu)) _ t fun u hu => ?_
    by_cases huv : u = v
    · subst huv; simp
    · rw [Function.update_of_ne huv]
      exact h u fun hm => by
        rcases Finset.mem_insert.1 hm with h | h
        · exact huv h
        · exact hu h

/-- An assumption about `R` is about the variables of `R` that it depends on. -/
theorem assume_rel {R : Finset V} {A : Finset (VSt V dm)} (hA : ∀ s t : VSt V dm, (∀ v ∈ R, s v = t v) → (s ∈ A ↔ t ∈ A))
    {s t : VSt V dm} (h : ∀ v ∈ assumeRel R A, s v = t v) : s ∈ A ↔ t ∈ A := by
  refine irrel_set (Finset.univ \ assumeRel R A) (fun v hv => ?_) s t fun v hv => h v ?_
  · by_contra hne
    have hvR : v ∉ R := fun hR =>
      (Finset.mem_sdiff.1 hv).2 (Finset.mem_filter.2 ⟨hR, hne⟩)
    apply hne
    ext u
    simp only [smoothOne, Finset.mem_filter, Finset.mem_univ, true_and]
    have key : ∀ a, Function.update u v a ∈ A ↔ u ∈ A := fun a =>
      hA _ _ fun w hw => Function.update_of_ne (fun e : w = v => hvR (e ▸ hw)) _ _
    exact ⟨fun ⟨a, ha⟩ => (key a).1 ha, fun hu => ⟨u v, (key _).2 hu⟩⟩
  · by_contra hn
    exact hv (Finset.mem_sdiff.2 ⟨Finset.mem_univ _, hn⟩)

theorem assumeLoop_spec {pick : Finset (VSt V dm) → Option (VSt V dm)} (hp : UdpPicks pick) (R' : Finset V) :
    ∀ (fuel : ℕ) (bad : Finset (VSt V dm)), bad.card < fuel →
    ∃ l, assumeLoop pick R' fuel bad = some l ∧ (∀ s ∈ l, s ∈ bad) ∧ ∀ s ∈ bad, ∃ u ∈ l, ∀ v ∈ R', s v = u v := by
  intro fuel
  induction fuel with
  | zero => intro bad h; omega
  | succ fuel ih =>
    intro bad hc
    simp only [assumeLoop]
    by_cases h0 : bad = ∅
    · subst h0
      exact ⟨[], by simp⟩
    · rw [if_neg h0]
      obtain ⟨t, ht, et⟩ := hp bad (Finset.nonempty_iff_ne_empty.2 h0)
      have hlt : (bad \ viewSet R' t).card < bad.card :=
        Finset.card_lt_card ⟨Finset.sdiff_subset, fun h => (Finset.mem_sdiff.1 (h ht)).2 (mem_viewSet.2 fun _ _ => rfl)⟩
      obtain ⟨l, e, h1, h2⟩ := ih (bad \ viewSet R' t) (by omega)
      rw [et, Option.bind_some, e, Option.map_some]
      refine ⟨_, rfl, fun s hs => ?_, fun s hs => ?_⟩
      · rcases List.mem_cons.1 hs with rfl | hs
        · exact ht
        · exact (Finset.mem_sdiff.1 (h1 s hs)).1
      · by_cases hm : s ∈ viewSet R' t
        · exact ⟨t, List.mem_cons_self, mem_viewSet.1 hm⟩
        · obtain ⟨u, hu, h⟩ := h2 s (Finset.mem_sdiff.2 ⟨hs, hm⟩)
          exact ⟨u, List.mem_cons_of_mem _ hu, h⟩

theorem mem_assumeImg {N : Finset V} {A : Finset (VSt V dm)} {s : VSt V dm} :
    s ∈ assumeImg N A ↔ ¬∃ t, t ∉ A ∧ ∀ v, v ∉ N → s v = t v := by
  simp [assumeImg]

/-- **C117**, assumptions: let the assumption `A` be about the puppet variables `R` of a process, of which `W` are
writable, and let `N` be its variables that are not writable.
* Writing the file fails exactly if no values of the variables outside of `N` make `A` hold for all values of those in `N`.
* Otherwise `assume_assign` gives values with `A`, changes only variables in `W`, and nothing if `A` holds already. -/
theorem C117_assume {pick : Finset (VSt V dm) → Option (VSt V dm)} (hp : UdpPicks pick) {R W N : Finset V}
    (hRW : ∀ v ∈ R, v ∈ W ∨ v ∈ N) (hWN : ∀ v ∈ W, v ∉ N) (A : Finset (VSt V dm))
    (hA : ∀ s t : VSt V dm, (∀ v ∈ R, s v = t v) → (s ∈ A ↔ t ∈ A)) :
    (assumeTests pick R N A = none ↔ A ≠ Finset.univ ∧ ∀ s : VSt V dm, ∃ t, t ∉ A ∧ ∀ v, v ∉ N → s v = t v) ∧
    ∀ f, assumeTests pick R N A = some f → ∀ x : VSt V dm, runAssume R W A f x ∈ A ∧
      (∀ v, v ∉ W → runAssume R W A f x v = x v) ∧ (x ∈ A → runAssume R W A f x = x) := by
  have himg : assumeImg N A = ∅ ↔ ∀ s : VSt V dm, ∃ t, t ∉ A ∧ ∀ v, v ∉ N → s v = t v := by
    rw [Finset.eq_empty_iff_forall_notMem]
    simp only [mem_assumeImg, not_not]
  obtain ⟨l, el, l1, l2⟩ := assumeLoop_spec hp (assumeRel R A) _ (Finset.univ \ A) (Nat.lt_succ_self _)
  unfold assumeTests
  by_cases hu : A = Finset.univ
  · rw [if_pos hu]
    refine ⟨by simp [hu], fun f hf x => ?_⟩
    cases hf
    simp [runAssume, hu]
  · rw [if_neg hu]
    by_cases h0 : assumeImg N A = ∅
    · rw [if_pos h0]
      exact ⟨by simp [hu, himg.1 h0], fun f hf => by cases hf⟩
    · rw [if_neg h0]
      obtain ⟨t, ht, et⟩ := hp _ (Finset.nonempty_iff_ne_empty.2 h0)
      rw [et, Option.bind_some, el, Option.map_some]
      refine ⟨⟨fun h => (by cases h), fun h => absurd (himg.2 h.2) h0⟩, fun f hf x => ?_⟩
      cases hf
      by_cases hx : x ∈ A
      · have hrun : runAssume R W A (l, some t) x = x := by
          rw [runAssume, if_neg]
          simp only [List.any_eq_true, not_exists, not_and]
          intro u hul hagree
          have := (assume_rel hA (agreeOn_iff.1 hagree)).1 hx
          exact (Finset.mem_sdiff.1 (l1 u hul)).2 this
        rw [hrun]
        exact ⟨hx, fun _ _ => rfl, fun _ => rfl⟩
      · have hrun : runAssume R W A (l, some t) x = putOn (W ∩ assumeRel R A) x t := by
          rw [runAssume, if_pos]
          obtain ⟨u, hul, h⟩ := l2 x (Finset.mem_sdiff.2 ⟨Finset.mem_univ _, hx⟩)
          exact List.any_eq_true.2 ⟨u, hul, agreeOn_iff.2 h⟩
        rw [hrun]
        refine ⟨?_, fun v hv => ?_, fun h => absurd h hx⟩
        · have hgood : ∀ u : VSt V dm, (∀ v, v ∉ N → t v = u v) → u ∈ A := fun u hu' => by
            by_contra hn
            exact mem_assumeImg.1 ht ⟨u, hn, hu'⟩
          have hz := hgood (fun v => if v ∈ N then x v else t v) fun v hv => by simp [hv]
          refine (assume_rel hA fun v hv => ?_).1 hz
          have hvR := (Finset.mem_filter.1 hv).1
          by_cases hvN : v ∈ N
          · have : v ∉ W := fun h => hWN v h hvN
            simp [putOn, hvN, this]
          · have hvW : v ∈ W := (hRW v hvR).resolve_right hvN
            simp [putOn, hvN, hvW, hv]
        · simp [putOn, hv]

/-- The assumption that the second variable of the process is not larger than the first: setting it to 0 always
works. -/
example : ∃ s : VSt (Fin 2) (fun _ => 3), ¬∃ t : VSt (Fin 2) (fun _ => 3), ¬(t 1 ≤ t 0) ∧
    ∀ v, v ∉ ({0} : Finset (Fin 2)) → s v = t v := by
  refine ⟨![0, 0], ?_⟩
  rintro ⟨t, ht, h⟩
  have := h 1 (by decide)
  rw [← this] at ht
  exact ht (by simp)

theorem symmParts_find {α : Type} {m om i : ℕ} {b : α} (hm : m ≠ 0) (hi : i < om) (l2 : List (ℕ × ℕ × α)) :
    ∀ (l1 : List (ℕ × ℕ × α)) (cut : ℕ), (∀ y ∈ l1, y.2.1 ≠ 0 → y.1 ≠ 0) →
    ((symmParts cut (l1 ++ (m, om, b) :: l2)).find? fun x => decide (cut + (l1.map (·.2.1)).sum + i < x.1)).map (·.2) =
      some b := by
  intro l1
  induction l1 with
  | nil =>
    intro cut _
    simp only [List.nil_append, symmParts, if_neg hm]
    rw [List.find?_cons_of_pos (by simp; omega)]
    rfl
  | cons y l1 ih =>
    intro cut h
    obtain ⟨m', om', b'⟩ := y
    have ih' := fun c => ih c fun z hz => h z (List.mem_cons_of_mem _ hz)
    simp only [List.cons_append, symmParts, List.map_cons, List.sum_cons]
    by_cases hm' : m' = 0
    · have : om' = 0 := by
        by_contra hne
        exact h _ List.mem_cons_self hne hm'
      rw [if_pos hm', this, Nat.zero_add]
      exact ih' cut
    · rw [if_neg hm', List.find?_cons_of_neg (by simp; omega), ← Nat.add_assoc]
      exact ih' _

/-- **C117**, symmetries: the process with number `i` of a process symmetry runs the part of that symmetry.  Missing for the
full statement: symmetries that have processes only in the topology that is written (`C117_wrong_part`). -/
theorem C117_part_partial {α : Type} (l1 l2 : List (ℕ × ℕ × α)) (m om i : ℕ) (b : α) (hi : i < om)
    (h : ∀ y ∈ l1 ++ (m, om, b) :: l2, y.2.1 ≠ 0 → y.1 ≠ 0) :
    symmPart (l1 ++ (m, om, b) :: l2) ((l1.map (·.2.1)).sum + i) = some b := by
  have := symmParts_find (b := b) (h (m, om, b) (by simp) (by simp; omega)) hi l2 l1 0
    fun y hy => h y (List.mem_append_left _ hy)
  simpa [symmPart] using this

example : (List.range 7).map (symmPart [(1, 1, 'a'), (0, 0, 'b'), (2, 5, 'c')]) =
    [some 'a', some 'c', some 'c', some 'c', some 'c', some 'c', none] := by decide

/-- If the first of two symmetries has no process in the topology of the synthesis but two in the one that is written,
its processes run the part of the second, and the processes of the second run nothing. -/
theorem C117_wrong_part : (List.range 4).map (symmPart [(0, 2, 'a'), (1, 2, 'b')]) = [some 'b', some 'b', none, none] := by
  decide

theorem fixLoop_spec {ds : List ℕ} (hd : ∀ d ∈ ds, 0 < d) : ∀ (k i : ℕ) (vals : ℕ → ℕ), ds.length ≤ i + k → ∀ j,
    fixLoop ds k i vals j = if i ≤ j ∧ j < ds.length then vals j % domszOf ds j else vals j := by
  intro k
  induction k with
  | zero =>
    intro i vals h j
    rw [if_neg (by omega)]
    rfl
  | succ k ih =>
    intro i vals h j
    simp only [fixLoop]
    by_cases hi : i < ds.length
    · have hpos : 0 < domszOf ds i := by
        rw [domszOf, List.getElem?_eq_getElem hi]
        exact hd _ (List.getElem_mem hi)
      rw [if_neg (by omega), ih (i + 1) _ (by omega)]
      by_cases hj : j = i
      · subst hj
        rw [if_neg (show ¬(j + 1 ≤ j ∧ j < ds.length) by omega),
          if_pos (show j ≤ j ∧ j < ds.length from ⟨Nat.le_refl _, hi⟩)]
        split_ifs with hge
        · simp
        · exact (Nat.mod_eq_of_lt (by omega)).symm
      · have hsame : (if vals i ≥ domszOf ds i then Function.update vals i (vals i % domszOf ds i) else vals) j =
            vals j := by
          split_ifs
          · exact Function.update_of_ne hj _ _
          · rfl
        rw [hsame]
        by_cases hc : i + 1 ≤ j ∧ j < ds.length
        · rw [if_pos hc, if_pos ⟨by omega, hc.2⟩]
        · rw [if_neg hc, if_neg (by omega)]
    · have : domszOf ds i = 0 := by rw [domszOf, List.getElem?_eq_none (by omega)]; rfl
      rw [if_pos this, if_neg (by omega)]

/-- **C117**, domains: after the loop of `fix_process_state` every variable of the process is below its domain size;
those that were are unchanged. -/
theorem C117_fix {ds : List ℕ} (hd : ∀ d ∈ ds, 0 < d) {M : ℕ} (hM : ds.length ≤ M) (vals : ℕ → ℕ) (j d : ℕ)
    (hj : ds[j]? = some d) :
    fixLoop ds M 0 vals j < d ∧ (vals j < d → fixLoop ds M 0 vals j = vals j) := by
  have hlt := (List.getElem?_eq_some_iff.1 hj).1
  have hdj : domszOf ds j = d := by rw [domszOf, hj]; rfl
  rw [fixLoop_spec hd M 0 vals (by omega), if_pos ⟨Nat.zero_le _, hlt⟩, hdj]
  exact ⟨Nat.mod_lt _ (hd d (List.mem_of_getElem? hj)), Nat.mod_eq_of_lt⟩

example : (List.range 4).map (fixLoop [3, 2] 4 0 fun i => 7 + i) = [1, 0, 9, 10] := by decide

end Verif.Props
