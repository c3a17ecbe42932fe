import Verif.Model.Classify
import Verif.Proofs.Cycle
import Verif.Proofs.Uniring
import Verif.Proofs.Ppg
import Verif.Proofs.Torus
import Verif.Proofs.Livelock
import Mathlib.Data.Fintype.Pigeonhole

/-!
Lemmas for the classification of ring protocols.
-/

set_option linter.unusedSectionVars false

namespace Verif.Proofs
open Verif.Model Verif.Spec

variable {m d : ℕ}

theorem mem_columnXn {acts : List UniAct} {p j : ℕ} {t : CState m d × CState m d} :
    t ∈ columnXn m d acts p j ↔ (cval' t.2 p, cval' t.1 j, cval' t.2 j) ∈ acts := by
  have key : ∀ (l : List UniAct) (xn : Finset (CState m d × CState m d)),
      t ∈ l.foldl (fun xn act => xn ∪ Finset.univ.filter fun t : CState m d × CState m d =>
        cval' t.2 p = act.1 ∧ cval' t.1 j = act.2.1 ∧ cval' t.2 j = act.2.2) xn ↔
      t ∈ xn ∨ (cval' t.2 p, cval' t.1 j, cval' t.2 j) ∈ l := by
    intro l
    induction l with
    | nil => intro xn; simp
    | cons a l ih =>
      intro xn
      rw [List.foldl_cons, ih, Finset.mem_union, Finset.mem_filter, List.mem_cons]
      obtain ⟨a1, a2, a3⟩ := a
      simp only [Finset.mem_univ, true_and, Prod.mk.injEq]
      tauto
  unfold columnXn
  rw [key]
  simp

/-- The transitions between rows of a strip of width `k`. -/
def RowStep (P : List ℕ) (d k : ℕ) (t : CState m d × CState m d) : Prop :=
  ∀ c < k, PpgStep P d (cval' t.2 c) (cval' t.1 (c + 1)) (cval' t.2 (c + 1))

theorem mem_column_step {P : List ℕ} (hl : P.length = d * d) {c : ℕ} {t : CState m d × CState m d} :
    t ∈ columnXn m d ((pairsUpTo d).flatMap (actAt P d)) c (c + 1) ↔
      PpgStep P d (cval' t.2 c) (cval' t.1 (c + 1)) (cval' t.2 (c + 1)) := by
  rw [mem_columnXn, mem_actions]
  unfold PpgStep
  simp only
  constructor
  · rintro ⟨h1, h2, h3, h4⟩
    refine ⟨h1, h2, h3, ?_⟩
    rw [List.getD_eq_getElem?_getD] at h4
    cases hp : P[cval' t.2 c * d + cval' t.1 (c + 1)]? with
    | none => rw [hp] at h4; simp at h4; omega
    | some x => rw [hp] at h4; simpa using h4
  · rintro ⟨h1, h2, h3, h4⟩
    refine ⟨h1, h2, h3, ?_⟩
    rw [List.getD_eq_getElem?_getD, h4]
    rfl

/-- The verdict of the cycle check. -/
theorem cycleCk_ret {σ : Type} [Fintype σ] [DecidableEq σ] (xn : Finset (σ × σ)) (fuel : ℕ)
    (hf : Fintype.card σ < fuel) :
    ∃ r, cycleCk fuel xn none none none = some r ∧ (r.ret = true ↔ ∃ s, OnCycle xn s) := by
  obtain ⟨r, hr, hp⟩ := cycleCk_total (xn := xn) none none none (N := 0) (by
    intro s _; simp [imgN]) fuel (by omega)
  refine ⟨r, hr, ?_⟩
  rcases hp with ⟨m, hm, _⟩ | ⟨k, G, hk, _, h1, h2, h3, _⟩
  · cases hm
  · rw [h2, decide_eq_true_eq]
    constructor
    · rintro ⟨s, hs⟩
      obtain ⟨_, c, hc, _⟩ := (h3 s).1 hs
      exact ⟨c, hc⟩
    · rintro ⟨s, hs⟩
      exact ⟨s, (h3 s).2 ⟨mem_imgN_of_cycle (fun _ _ _ _ => Finset.mem_univ _)
        (Finset.mem_univ _) hs Relation.ReflTransGen.refl k, s, hs, Relation.ReflTransGen.refl⟩⟩

theorem cval'_lt (s : CState m d) {j : ℕ} (hj : j ≤ m) : cval' s j < d := by
  unfold cval'
  rw [dif_pos (by omega)]
  exact (s _).2

/-- The state with the given values. -/
theorem exists_cstate {v : ℕ → ℕ} (hv : ∀ j ≤ m, v j < d) : ∃ s : CState m d, ∀ j ≤ m, cval' s j = v j := by
  refine ⟨fun j => ⟨v j, hv j (by omega)⟩, fun j hj => ?_⟩
  unfold cval'
  rw [dif_pos (by omega)]

/-- A cycle as a walk. -/
theorem onCycle_walk {σ : Type} {xn : Finset (σ × σ)} {s : σ} (h : OnCycle xn s) :
    ∃ (k : ℕ) (w : ℕ → σ), 1 ≤ k ∧ w 0 = s ∧ w k = s ∧ ∀ i < k, (w i, w (i + 1)) ∈ xn := by
  have key : ∀ a b, Relation.TransGen (Step xn) a b → ∃ (k : ℕ) (w : ℕ → σ), 1 ≤ k ∧ w 0 = a ∧ w k = b ∧
      ∀ i < k, (w i, w (i + 1)) ∈ xn := by
    intro a b hab
    induction hab with
    | @single b h =>
      refine ⟨1, fun i => if i = 0 then a else b, le_rfl, rfl, rfl, fun i hi => ?_⟩
      have : i = 0 := by omega
      subst this
      exact h
    | @tail b c _ h ih =>
      obtain ⟨k, w, hk, h0, h1, h2⟩ := ih
      refine ⟨k + 1, fun i => if i ≤ k then w i else c, by omega, ?_, ?_, fun i hi => ?_⟩ <;> simp only
      · rw [if_pos (by omega), h0]
      · rw [if_neg (by omega)]
      · rcases Nat.lt_or_ge i k with hlt | hge
        · rw [if_pos (by omega), if_pos (by omega)]; exact h2 i hlt
        · have : i = k := by omega
          subst this
          rw [if_pos le_rfl, if_neg (by omega), h1]
          exact h
  exact key s s h

/-- A walk that repeats a state has a cycle. -/
theorem onCycle_of_walk {σ : Type} {xn : Finset (σ × σ)} {w : ℕ → σ} {a b : ℕ} (hab : a < b)
    (hw : ∀ i, a ≤ i → i < b → (w i, w (i + 1)) ∈ xn) (he : w a = w b) : OnCycle xn (w a) := by
  have key : ∀ n, a + n + 1 ≤ b → Relation.TransGen (Step xn) (w a) (w (a + n + 1)) := by
    intro n
    induction n with
    | zero => intro h; exact .single (hw a le_rfl (by omega))
    | succ n ih => intro h; exact .tail (ih (by omega)) (hw (a + n + 1) (by omega) (by omega))
  have := key (b - a - 1) (by omega)
  rw [show a + (b - a - 1) + 1 = b by omega, ← he] at this
  exact this

/-- Cycles of the formula with period `j` are periodic tilings of width `j`. -/
theorem periodic_cycle {P : List ℕ} {xn : Finset (CState m d × CState m d)} {j : ℕ} (hj : 1 ≤ j) (hjm : j ≤ m)
    (hxn : ∀ t, t ∈ xn ↔ RowStep P d j t) : (∃ s, OnCycle (periodicXn xn j) s) ↔ Periodic P d j := by
  have hmem : ∀ t : CState m d × CState m d, t ∈ periodicXn xn j ↔
      RowStep P d j t ∧ cval' t.1 0 = cval' t.1 j ∧ cval' t.2 0 = cval' t.2 j := by
    intro t
    unfold periodicXn
    simp only [Finset.mem_inter, Finset.mem_filter, Finset.mem_univ, true_and, hxn]
    tauto
  constructor
  · rintro ⟨s, hs⟩
    obtain ⟨k, w, hk, h0, h1, h2⟩ := onCycle_walk hs
    refine ⟨k, _, hk, torus_of_block (G := fun r c => cval' (w r) c) hj hk (fun r hr c hc => ?_)
      (fun c _ => by rw [h0, h1]) (fun r hr => ?_)⟩
    · obtain ⟨q1, q2, _, q4⟩ := ((hmem _).1 (h2 r hr)).1 c hc
      exact ⟨q4, q1, q2⟩
    · rcases Nat.lt_or_ge r k with hlt | hge
      · exact (((hmem _).1 (h2 r hlt)).2.1).symm
      · have : r = k := by omega
        subst this
        have := ((hmem _).1 (h2 0 (by omega))).2.1
        simp only at this
        rw [h1, ← h0, this]
  · rintro ⟨h, T, hh, ht⟩
    have hlt : ∀ r c, T r c < d := by
      intro r c
      have := (ht.tile r (c + j - 1)).2.1
      rwa [show c + j - 1 + 1 = c + j by omega, ht.cols] at this
    choose w hw using fun r => exists_cstate (m := m) (v := T r) (fun c _ => hlt r c)
    refine ⟨w 0, onCycle_of_walk (w := w) (a := 0) (b := h) (by omega) (fun i _ hi => ?_) ?_⟩
    · refine (hmem _).2 ⟨fun c hc => ?_, ?_, ?_⟩
      · simp only
        rw [hw, hw, hw] <;> try omega
        exact ht.tile i c
      · simp only
        rw [hw, hw] <;> try omega
        have := ht.cols i 0
        rw [Nat.zero_add] at this
        exact this.symm
      · simp only
        rw [hw, hw] <;> try omega
        have := ht.cols (i + 1) 0
        rw [Nat.zero_add] at this
        exact this.symm
    · funext c
      have h1 := hw 0 c (by omega)
      have h2 := hw h c (by omega)
      have h3 := ht.rows 0 c
      rw [Nat.zero_add] at h3
      unfold cval' at h1 h2
      rw [dif_pos c.2] at h1 h2
      exact Fin.ext (by rw [h1, h2, h3])

/-- Cycles of the formula without a period are strips. -/
theorem strip_cycle {P : List ℕ} {xn : Finset (CState m d × CState m d)}
    (hm : 1 ≤ m) (hxn : ∀ t, t ∈ xn ↔ RowStep P d m t) : (∃ s, OnCycle xn s) ↔ ∃ T, Strip P d m T := by
  constructor
  · rintro ⟨s, hs⟩
    obtain ⟨e, he, _⟩ := exec_of_cycle hs
    exact ⟨fun r c => cval' (e r) c, fun r c hc => (hxn _).1 (he r) c hc⟩
  · rintro ⟨T, hT⟩
    have hlt : ∀ r, ∀ c ≤ m, T (r + 1) c < d := by
      intro r c hc
      rcases Nat.lt_or_ge c m with h | h
      · exact (hT r c h).1
      · have := (hT r (c - 1) (by omega)).2.2.1
        rwa [show c - 1 + 1 = c by omega] at this
    choose w hw using fun r => exists_cstate (m := m) (v := T (r + 1)) (fun c hc => hlt r c hc)
    have hst : ∀ i, (w i, w (i + 1)) ∈ xn := by
      intro i
      refine (hxn _).2 fun c hc => ?_
      simp only
      rw [hw, hw, hw] <;> try omega
      exact hT (i + 1) c hc
    obtain ⟨a, b, hab, he⟩ := Finite.exists_ne_map_eq_of_infinite w
    rcases Nat.lt_or_gt_of_ne hab with h | h
    · exact ⟨_, onCycle_of_walk h (fun i _ _ => hst i) he⟩
    · exact ⟨_, onCycle_of_walk h (fun i _ _ => hst i) he.symm⟩

/-- What the loop finds. -/
theorem classifyLoop_spec {P : List ℕ} (hl : P.length = d * d) {fuel minP : ℕ}
    (hf : Fintype.card (CState m d) < fuel) : ∀ (n k : ℕ) (xn : Finset (CState m d × CState m d)),
    k + n = m → (∀ t, t ∈ xn ↔ RowStep P d k t) →
    (∃ j, k < j ∧ j ≤ m ∧ minP ≤ j ∧ Periodic P d j ∧ (∀ i, k < i → i < j → minP ≤ i → ¬ Periodic P d i) ∧
      classifyLoop fuel minP ((pairsUpTo d).flatMap (actAt P d)) (List.range' (k + 1) n) xn = some (.inl j)) ∨
    ((∀ i, k < i → i ≤ m → minP ≤ i → ¬ Periodic P d i) ∧ ∃ xn' : Finset (CState m d × CState m d),
      (∀ t, t ∈ xn' ↔ RowStep P d m t) ∧
      classifyLoop fuel minP ((pairsUpTo d).flatMap (actAt P d)) (List.range' (k + 1) n) xn = some (.inr xn')) := by
  intro n
  induction n with
  | zero =>
    intro k xn hk hxn
    have : k = m := by omega
    subst this
    exact Or.inr ⟨fun i _ _ => by omega, xn, hxn, rfl⟩
  | succ n ih =>
    intro k xn hk hxn
    set xn1 := xn ∩ columnXn m d ((pairsUpTo d).flatMap (actAt P d)) k (k + 1) with hx1
    have hxn1 : ∀ t, t ∈ xn1 ↔ RowStep P d (k + 1) t := by
      intro t
      rw [hx1, Finset.mem_inter, hxn, mem_column_step hl]
      constructor
      · rintro ⟨h1, h2⟩ c hc
        rcases Nat.lt_succ_iff_lt_or_eq.1 hc with h | h
        · exact h1 c h
        · rw [h]; exact h2
      · exact fun h => ⟨fun c hc => h c (by omega), h k (by omega)⟩
    rw [List.range'_succ]
    unfold classifyLoop
    simp only [Nat.add_sub_cancel]
    rw [← hx1]
    have hrest := ih (k + 1) xn1 (by omega) hxn1
    by_cases hmin : minP ≤ k + 1
    · rw [if_pos hmin]
      obtain ⟨r, hr, hret⟩ := cycleCk_ret (periodicXn xn1 (k + 1)) fuel hf
      rw [periodic_cycle (by omega) (by omega) hxn1] at hret
      rw [hr, Option.bind_some]
      by_cases hp : Periodic P d (k + 1)
      · rw [if_pos (hret.2 hp)]
        exact Or.inl ⟨k + 1, by omega, by omega, hmin, hp, fun i _ _ => by omega, rfl⟩
      · rw [if_neg fun h => hp (hret.1 h)]
        rcases hrest with ⟨j, q1, q2, q3, q4, q5, q6⟩ | ⟨q1, q2⟩
        · refine Or.inl ⟨j, by omega, q2, q3, q4, fun i h1 h2 h3 => ?_, q6⟩
          rcases Nat.lt_or_ge (k + 1) i with h | h
          · exact q5 i h h2 h3
          · rwa [show i = k + 1 by omega]
        · refine Or.inr ⟨fun i h1 h2 h3 => ?_, q2⟩
          rcases Nat.lt_or_ge (k + 1) i with h | h
          · exact q1 i h h2 h3
          · rwa [show i = k + 1 by omega]
    · rw [if_neg hmin]
      rcases hrest with ⟨j, q1, q2, q3, q4, q5, q6⟩ | ⟨q1, q2⟩
      · exact Or.inl ⟨j, by omega, q2, q3, q4, fun i h1 h2 h3 => q5 i (by omega) h2 h3, q6⟩
      · exact Or.inr ⟨fun i h1 h2 h3 => q1 i (by omega) h2 h3, q2⟩

/-- The possible results. -/
theorem bddClassify_spec {P : List ℕ} (hd : 0 < d) (hd' : d ≤ 256) (hl : P.length = d * d) {fuel minP : ℕ}
    (hm : 1 ≤ m) (hf : Fintype.card (CState m d) < fuel) :
    (∃ j, 1 ≤ j ∧ j ≤ m ∧ minP ≤ j ∧ Periodic P d j ∧ (∀ i, 1 ≤ i → i < j → minP ≤ i → ¬ Periodic P d i) ∧
      bddClassify fuel P minP m d = some j) ∨
    ((∀ i, 1 ≤ i → i ≤ m → minP ≤ i → ¬ Periodic P d i) ∧
      ((∃ T, Strip P d m T) ∧ bddClassify fuel P minP m d = some (m + 1) ∨
        (¬ ∃ T, Strip P d m T) ∧ bddClassify fuel P minP m d = some 0)) := by
  unfold bddClassify
  rw [actionsOfPpg_eq hd hd' hl, Option.bind_some]
  rcases classifyLoop_spec (m := m) hl (minP := minP) hf m 0 Finset.univ (by omega) (fun t => by simp [RowStep])
    with ⟨j, q1, q2, q3, q4, q5, q6⟩ | ⟨q1, xn, q2, q3⟩
  · rw [Nat.zero_add] at q6
    rw [q6]
    exact Or.inl ⟨j, by omega, q2, q3, q4, fun i h1 => q5 i (by omega), rfl⟩
  · rw [Nat.zero_add] at q3
    rw [q3]
    refine Or.inr ⟨fun i h1 => q1 i (by omega), ?_⟩
    obtain ⟨r, hr, hret⟩ := cycleCk_ret xn fuel hf
    rw [strip_cycle hm q2] at hret
    simp only [Option.bind_some]
    rw [hr, Option.map_some]
    by_cases hs : ∃ T, Strip P d m T
    · rw [if_pos (hret.2 hs)]; exact Or.inl ⟨hs, rfl⟩
    · rw [if_neg fun h => hs (hret.1 h)]; exact Or.inr ⟨hs, rfl⟩

/-- Triangles of every size give strips. -/
theorem strip_of_tri {P : List ℕ} (hm : 1 ≤ m) (h : ∀ limit, ∃ tri, Tri P d limit tri) : ∃ T, Strip P d m T := by
  let xn : Finset (CState m d × CState m d) := by
    classical
    exact Finset.univ.filter fun t => RowStep P d m t
  have hxn : ∀ t, t ∈ xn ↔ RowStep P d m t := fun t => by
    simp only [xn, Finset.mem_filter, Finset.mem_univ, true_and]
  rw [← strip_cycle hm hxn]
  obtain ⟨tri, ht⟩ := h (Fintype.card (CState m d) + m)
  choose w hw using fun r : Fin (Fintype.card (CState m d) + 1) =>
    exists_cstate (m := m) (d := d) (v := fun c => tri (Fintype.card (CState m d) + c) (r + c))
      (fun c hc => ht.lt _ (by omega) _ (by omega))
  obtain ⟨a, b, hab, he⟩ := Fintype.exists_ne_map_eq_of_card_lt w (by simp)
  let w' : ℕ → CState m d := fun i => if h : i < Fintype.card (CState m d) + 1 then w ⟨i, h⟩ else w 0
  have hw' : ∀ i ≤ Fintype.card (CState m d), ∀ c ≤ m,
      cval' (w' i) c = tri (Fintype.card (CState m d) + c) (i + c) := by
    intro i hi c hc
    simp only [w']
    rw [dif_pos (by omega)]
    exact hw _ c hc
  have hst : ∀ i < Fintype.card (CState m d), (w' i, w' (i + 1)) ∈ xn := by
    intro i hi
    refine (hxn _).2 fun c hc => ?_
    simp only
    rw [hw' _ (by omega) _ (by omega), hw' _ (by omega) _ (by omega), hw' _ (by omega) _ (by omega)]
    have := ht.tile (Fintype.card (CState m d) + c) (by omega) (i + 1 + c) (by omega)
    rw [show i + (c + 1) = i + 1 + c by omega, show i + 1 + (c + 1) = i + 1 + c + 1 by omega]
    exact this
  have heq : ∀ x : Fin (Fintype.card (CState m d) + 1), w' x = w x := by
    intro x
    simp only [w']
    rw [dif_pos x.2]
  have hne : (a : ℕ) ≠ b := fun h => hab (Fin.ext h)
  rcases Nat.lt_or_gt_of_ne hne with h | h
  · exact ⟨_, onCycle_of_walk (w := w') h (fun i _ _ => hst i (by omega)) (by rw [heq, heq, he])⟩
  · exact ⟨_, onCycle_of_walk (w := w') h (fun i _ _ => hst i (by omega)) (by rw [heq, heq, he])⟩

end Verif.Proofs
