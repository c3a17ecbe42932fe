import Verif.Proofs.CycleFrom
import Verif.Props.Livelock

/-! The digraphs of tile continuations. -/

set_option linter.unusedSectionVars false

namespace Verif.Proofs
open Verif.Model Verif.Spec Verif.Props

/-- The action `(a, b, c)` is in the set. -/
def ActOf (d : ℕ) (s : Finset ℕ) (a b c : ℕ) : Prop := InDom d (a, b, c) ∧ id3 d a b c ∈ s

/-- At most one action for each pair of values. -/
def Determ (R : ℕ → ℕ → ℕ → Prop) : Prop := ∀ a b c c', R a b c → R a b c' → c = c'

theorem ActOf.mono {d : ℕ} {s s' : Finset ℕ} (h : s ⊆ s') {a b c : ℕ} (ha : ActOf d s a b c) : ActOf d s' a b c :=
  ⟨ha.1, h ha.2⟩

/-! ### The table of a set of actions -/

theorem pair_inj {d a b a' b' : ℕ} (hb : b < d) (hb' : b' < d) (h : a * d + b = a' * d + b') :
    a = a' ∧ b = b' := by
  have h1 : a = a' := by
    rcases Nat.lt_trichotomy a a' with h' | h' | h'
    · have : (a + 1) * d ≤ a' * d := Nat.mul_le_mul_right d h'
      rw [Nat.add_mul] at this; omega
    · exact h'
    · have : (a' + 1) * d ≤ a * d := Nat.mul_le_mul_right d h'
      rw [Nat.add_mul] at this; omega
  subst h1
  exact ⟨rfl, by omega⟩

theorem ppg_fold {d : ℕ} (hd : d ≤ 256) (l : List ℕ) (hl : ∀ i ∈ l, i < d * d * d) (P : List ℕ)
    (hP : PpgTable P d)
    (hdet : ∀ a b c c', a < d → b < d → c < d → c' < d → (id3 d a b c ∈ l ∨ P[a * d + b]? = some c) →
      (id3 d a b c' ∈ l ∨ P[a * d + b]? = some c') → c = c') :
    PpgTable (l.foldl (fun P i =>
        let act := actOfId i d
        P.set (act.1 * d + act.2.1) act.2.2) P) d ∧
      ∀ a b c, a < d → b < d → c < d → ((l.foldl (fun P i =>
        let act := actOfId i d
        P.set (act.1 * d + act.2.1) act.2.2) P)[a * d + b]? = some c ↔
          id3 d a b c ∈ l ∨ P[a * d + b]? = some c) := by
  induction l generalizing P with
  | nil => exact ⟨hP, by simp⟩
  | cons i l ih =>
    obtain ⟨h1, h2, h3, h4⟩ := id3_actOfId hd (hl i (by simp))
    generalize hx : (actOfId i d).1 = x at *
    generalize hy : (actOfId i d).2.1 = y at *
    generalize hz : (actOfId i d).2.2 = z at *
    have hlt : x * d + y < P.length := by rw [hP.1]; exact pair_lt h1 h2
    have hT : PpgTable (P.set (x * d + y) z) d := by
      refine ⟨by simp [hP.1], fun v hv => ?_⟩
      rcases List.mem_or_eq_of_mem_set hv with h | h
      · exact hP.2 v h
      · omega
    have hset : ∀ a b c, a < d → b < d → c < d →
        (id3 d a b c ∈ l ∨ (P.set (x * d + y) z)[a * d + b]? = some c ↔
          id3 d a b c ∈ i :: l ∨ P[a * d + b]? = some c) := by
      intro a b c ha hb hc
      rw [List.getElem?_set, List.mem_cons]
      by_cases he : x * d + y = a * d + b
      · obtain ⟨rfl, rfl⟩ := pair_inj h2 hb he
        rw [if_pos rfl, if_pos hlt, Option.some.injEq]
        constructor
        · rintro (h | rfl)
          · exact .inl (.inr h)
          · exact .inl (.inl h4)
        · intro h
          refine .inr ?_
          refine hdet x y z c h1 h2 h3 hc (.inl (by simp [h4])) ?_
          rcases h with (h | h) | h
          · exact .inl (by simp [h])
          · exact .inl (by simp [h])
          · exact .inr h
      · rw [if_neg he]
        have hn : id3 d a b c ≠ i := by
          intro e
          rw [← h4] at e
          obtain ⟨rfl, rfl, -⟩ := id3_inj hd ha hb hc h1 h2 h3 e
          exact he rfl
        simp [hn]
    obtain ⟨i1, i2⟩ := ih (fun j hj => hl j (by simp [hj])) (P.set (x * d + y) z) hT (by
      intro a b c c' ha hb hc hc' e1 e2
      exact hdet a b c c' ha hb hc hc' ((hset a b c ha hb hc).1 e1) ((hset a b c' ha hb hc').1 e2))
    rw [List.foldl_cons]
    simp only [hx, hy, hz]
    exact ⟨i1, fun a b c ha hb hc => (i2 a b c ha hb hc).trans (hset a b c ha hb hc)⟩

theorem initPpgfun_spec {d : ℕ} (hd : d ≤ 256) {s : Finset ℕ} (hs : Determ (ActOf d s)) :
    PpgTable (initPpgfun d s) d ∧ ∀ a b c, PpgStep (initPpgfun d s) d a b c ↔ ActOf d s a b c := by
  have hrep : ∀ a b c, c < d → ¬ (List.replicate (d * d) d)[a * d + b]? = some c := by
    intro a b c hc h
    have := List.mem_of_getElem? h
    rw [List.mem_replicate] at this
    omega
  obtain ⟨h1, h2⟩ := ppg_fold hd (eachAct d s) (fun i hi => (mem_eachAct.1 hi).1) (List.replicate (d * d) d)
    ⟨by simp, by simp⟩ (by
      intro a b c c' ha hb hc hc' e1 e2
      have e1 := e1.resolve_right (hrep a b c hc)
      have e2 := e2.resolve_right (hrep a b c' hc')
      exact hs a b c c' ⟨⟨ha, hb, hc⟩, (mem_eachAct.1 e1).2⟩ ⟨⟨ha, hb, hc'⟩, (mem_eachAct.1 e2).2⟩)
  refine ⟨h1, fun a b c => ?_⟩
  constructor
  · rintro ⟨ha, hb, hc, h⟩
    rcases (h2 a b c ha hb hc).1 h with h | h
    · exact ⟨⟨ha, hb, hc⟩, (mem_eachAct.1 h).2⟩
    · exact absurd h (hrep a b c hc)
  · rintro ⟨⟨ha, hb, hc⟩, h⟩
    exact ⟨ha, hb, hc, (h2 a b c ha hb hc).2 (.inl (mem_eachAct.2 ⟨id3_lt ha hb hc, h⟩))⟩

theorem ppgVal_iff {P : List ℕ} {d a b c : ℕ} (hP : PpgTable P d) (ha : a < d) (hb : b < d) (hc : c < d) :
    ppgVal P d a b = c ↔ PpgStep P d a b c := by
  have hlt : a * d + b < P.length := by rw [hP.1]; exact pair_lt ha hb
  unfold ppgVal PpgStep
  rw [List.getD_eq_getElem?_getD, List.getElem?_eq_getElem hlt, Option.getD_some]
  simp [ha, hb, hc]

/-! ### Arcs -/

/-- The condition for an arc between the nodes `x` and `y`. -/
def TileArc (R : ℕ → ℕ → ℕ → Prop) (x y : ℕ × ℕ × ℕ) : Prop :=
  R x.1 x.2.1 y.1 ∧ (∃ z, R z y.1 x.2.2) ∧ (∃ f, R y.1 y.2.1 f ∧ R x.2.2 f y.2.2) ∧ ∃ z, R x.2.1 z y.2.1

theorem TileArc.mono {R R' : ℕ → ℕ → ℕ → Prop} (h : ∀ a b c, R a b c → R' a b c) {x y : ℕ × ℕ × ℕ}
    (hx : TileArc R x y) : TileArc R' x y := by
  obtain ⟨h1, ⟨z, h2⟩, ⟨f, h3, h4⟩, u, h5⟩ := hx
  exact ⟨h _ _ _ h1, ⟨z, h _ _ _ h2⟩, ⟨f, h _ _ _ h3, h _ _ _ h4⟩, u, h _ _ _ h5⟩

theorem overlap_top {d : ℕ} {s : Finset ℕ} {b e : ℕ} (hb : b < d) (he : e < d) :
    maskOverlapCk d (b, d, e) s = true ↔ ∃ z, ActOf d s b z e := by
  rw [maskOverlapCk_iff (by simp; omega) (by simp) (by simp; omega)]
  simp only [Matches, show b ≠ d by omega, show e ≠ d by omega, false_or, true_or, true_and, ActOf]
  constructor
  · rintro ⟨_, z, _, h, ⟨rfl, rfl⟩, h'⟩; exact ⟨z, h, h'⟩
  · rintro ⟨z, h, h'⟩; exact ⟨_, z, _, h, ⟨rfl, rfl⟩, h'⟩

theorem overlap_bot {d : ℕ} {s : Finset ℕ} {c x : ℕ} (hc : c < d) (hx : x < d) :
    maskOverlapCk d (d, c, x) s = true ↔ ∃ z, ActOf d s z c x := by
  rw [maskOverlapCk_iff (by simp) (by simp; omega) (by simp; omega)]
  simp only [Matches, show c ≠ d by omega, show x ≠ d by omega, false_or, true_or, true_and, ActOf]
  constructor
  · rintro ⟨z, _, _, h, ⟨rfl, rfl⟩, h'⟩; exact ⟨z, h, h'⟩
  · rintro ⟨z, h, h'⟩; exact ⟨z, _, _, h, ⟨rfl, rfl⟩, h'⟩

/-- The identifier of a triple. -/
def idOfT (d : ℕ) (x : ℕ × ℕ × ℕ) : ℕ := id3 d x.1 x.2.1 x.2.2

theorem mem_overContArcs {d : ℕ} (hd : d ≤ 256) {s : Finset ℕ} {u v : ℕ} :
    (u, v) ∈ overContArcs d s ↔
      ∃ x y, InDom d x ∧ InDom d y ∧ TileArc (ActOf d s) x y ∧ u = idOfT d x ∧ v = idOfT d y := by
  simp only [overContArcs, List.mem_flatMap, List.mem_range, mem_eachAct]
  constructor
  · rintro ⟨i, ⟨hi, his⟩, x, hx, h⟩
    obtain ⟨h1, h2, h3, h4⟩ := id3_actOfId hd hi
    generalize hA : (actOfId i d).1 = a at *
    generalize hB : (actOfId i d).2.1 = b at *
    generalize hC : (actOfId i d).2.2 = c at *
    split at h
    · rename_i hbot
      rw [List.mem_flatMap] at h
      obtain ⟨e, he, h⟩ := h
      rw [List.mem_range] at he
      split at h
      · rename_i htop
        rw [List.mem_flatMap] at h
        obtain ⟨f, hf, h⟩ := h
        rw [List.mem_range] at hf
        split at h
        · rename_i hm
          rw [List.mem_flatMap] at h
          obtain ⟨g, hg, h⟩ := h
          rw [List.mem_range] at hg
          split at h
          · rename_i hb'
            rw [List.mem_singleton, Prod.mk.injEq] at h
            obtain ⟨rfl, rfl⟩ := h
            rw [overlap_bot h3 hx] at hbot
            rw [overlap_top h2 he] at htop
            exact ⟨(a, b, x), (c, e, g), ⟨h1, h2, hx⟩, ⟨h3, he, hg⟩,
              ⟨⟨⟨h1, h2, h3⟩, by rw [h4]; exact his⟩, hbot, ⟨f, ⟨⟨h3, he, hf⟩, hm⟩, ⟨hx, hf, hg⟩, hb'⟩, htop⟩, rfl, rfl⟩
          · simp at h
        · simp at h
      · simp at h
    · simp at h
  · rintro ⟨⟨a, b, x⟩, ⟨c, e, g⟩, ⟨h1, h2, hx⟩, ⟨h3, he, hg⟩, ⟨hm0, hbot, ⟨f, hm, hb'⟩, htop⟩, rfl, rfl⟩
    simp only at *
    refine ⟨id3 d a b c, ⟨id3_lt h1 h2 h3, hm0.2⟩, x, hx, ?_⟩
    rw [actOfId_id3 hd h1 h2 h3]
    simp only
    rw [if_pos ((overlap_bot h3 hx).2 hbot), List.mem_flatMap]
    refine ⟨e, List.mem_range.2 he, ?_⟩
    rw [if_pos ((overlap_top h2 he).2 htop), List.mem_flatMap]
    refine ⟨f, List.mem_range.2 hm.1.2.2, ?_⟩
    rw [if_pos hm.2, List.mem_flatMap]
    refine ⟨g, List.mem_range.2 hg, ?_⟩
    rw [if_pos hb'.2]
    simp [idOfT]

theorem mem_tileContArcs {d : ℕ} (hd : d ≤ 256) {s : Finset ℕ} {P : List ℕ} (hP : PpgTable P d)
    (hs : ∀ a b c, PpgStep P d a b c ↔ ActOf d s a b c) {u v : ℕ} :
    (u, v) ∈ tileContArcs d s P ↔
      ∃ x y, InDom d x ∧ InDom d y ∧ TileArc (ActOf d s) x y ∧ u = idOfT d x ∧ v = idOfT d y := by
  simp only [tileContArcs, List.mem_flatMap, List.mem_range, mem_eachAct]
  constructor
  · rintro ⟨i, ⟨hi, his⟩, x, hx, h⟩
    obtain ⟨h1, h2, h3, h4⟩ := id3_actOfId hd hi
    generalize hA : (actOfId i d).1 = a at *
    generalize hB : (actOfId i d).2.1 = b at *
    generalize hC : (actOfId i d).2.2 = c at *
    split at h
    · rename_i hbot
      rw [List.mem_flatMap] at h
      obtain ⟨e, he, h⟩ := h
      rw [List.mem_range] at he
      generalize hf : ppgVal P d c e = f at h
      split at h
      · rename_i hfd
        generalize hg : ppgVal P d x f = g at h
        split at h
        · rename_i hgd
          obtain ⟨hgd, htop⟩ := hgd
          rw [List.mem_singleton, Prod.mk.injEq] at h
          obtain ⟨rfl, rfl⟩ := h
          rw [overlap_bot h3 hx] at hbot
          rw [overlap_top h2 he] at htop
          rw [ppgVal_iff hP h3 he hfd, hs] at hf
          rw [ppgVal_iff hP hx hfd hgd, hs] at hg
          exact ⟨(a, b, x), (c, e, g), ⟨h1, h2, hx⟩, ⟨h3, he, hgd⟩,
            ⟨⟨⟨h1, h2, h3⟩, by rw [h4]; exact his⟩, hbot, ⟨f, hf, hg⟩, htop⟩, rfl, rfl⟩
        · simp at h
      · simp at h
    · simp at h
  · rintro ⟨⟨a, b, x⟩, ⟨c, e, g⟩, ⟨h1, h2, hx⟩, ⟨h3, he, hg⟩, ⟨hm0, hbot, ⟨f, hm, hb'⟩, htop⟩, rfl, rfl⟩
    simp only at *
    refine ⟨id3 d a b c, ⟨id3_lt h1 h2 h3, hm0.2⟩, x, hx, ?_⟩
    rw [actOfId_id3 hd h1 h2 h3]
    simp only
    rw [if_pos ((overlap_bot h3 hx).2 hbot), List.mem_flatMap]
    refine ⟨e, List.mem_range.2 he, ?_⟩
    have hf := hm.1.2.2
    simp only at hf
    have e1 : ppgVal P d c e = f := (ppgVal_iff hP h3 he hf).2 ((hs _ _ _).2 hm)
    have e2 : ppgVal P d x f = g := (ppgVal_iff hP hx hf hg).2 ((hs _ _ _).2 hb')
    rw [e1, if_pos hf, e2, if_pos ⟨hg, (overlap_top h2 he).2 htop⟩]
    simp [idOfT]

/-! ### Closed walks and bands -/

theorem walk_of_transGen {α : Type} {E : α → α → Prop} {x : α} (h : Relation.TransGen E x x) :
    ∃ (n : ℕ) (w : ℕ → α), 1 ≤ n ∧ w 0 = x ∧ (∀ i, E (w i) (w (i + 1))) ∧ ∀ i, w (i + n) = w i := by
  have key : ∀ y, Relation.TransGen E x y → ∃ (n : ℕ) (w : ℕ → α), 1 ≤ n ∧ w 0 = x ∧ w n = y ∧
      ∀ i < n, E (w i) (w (i + 1)) := by
    intro y hy
    induction hy with
    | @single y e =>
      refine ⟨1, fun i => if i = 0 then x else y, le_rfl, rfl, rfl, fun i hi => ?_⟩
      have : i = 0 := by omega
      subst this; exact e
    | @tail y z _ e ih =>
      obtain ⟨n, w, hn, h0, h1, h2⟩ := ih
      refine ⟨n + 1, fun i => if i ≤ n then w i else z, by omega, by simp [h0], by simp, fun i hi => ?_⟩
      by_cases hin : i = n
      · subst hin; simp [h1, e]
      · simp only [show i ≤ n by omega, show i + 1 ≤ n by omega, if_true]
        exact h2 i (by omega)
  obtain ⟨n, w, hn, h0, h1, h2⟩ := key x h
  refine ⟨n, fun i => w (i % n), hn, by simpa using h0, fun i => ?_, fun i => by simp⟩
  have hlt : i % n < n := Nat.mod_lt _ (by omega)
  have hE := h2 (i % n) hlt
  by_cases hl : i % n + 1 = n
  · rw [hl, h1] at hE
    have : (i + 1) % n = 0 := by
      rw [Nat.add_mod, ← Nat.add_mod_mod, Nat.mod_mod]
      rcases Nat.eq_or_lt_of_le hn with hn1 | hn1
      · rw [← hn1]; omega
      · rw [Nat.mod_eq_of_lt hn1, hl, Nat.mod_self]
    simp only [this, h0]; exact hE
  · have : (i + 1) % n = i % n + 1 := by
      rw [Nat.add_mod, Nat.mod_eq_of_lt (show 1 < n by omega)]
      exact Nat.mod_eq_of_lt (by omega)
    simp only [this]; exact hE

theorem transGen_of_walk {α : Type} {E : α → α → Prop} {w : ℕ → α} {n : ℕ} (hn : 1 ≤ n)
    (hE : ∀ i, E (w i) (w (i + 1))) (hp : w n = w 0) : Relation.TransGen E (w 0) (w 0) := by
  have key : ∀ k, Relation.TransGen E (w 0) (w (k + 1)) := by
    intro k
    induction k with
    | zero => exact .single (hE 0)
    | succ k ih => exact ih.tail (hE _)
  have := key (n - 1)
  rwa [show n - 1 + 1 = n by omega, hp] at this

/-- Closed walks of identifiers are closed walks of triples. -/
theorem transGen_ids {d : ℕ} (hd : d ≤ 256) {A : ℕ × ℕ × ℕ → ℕ × ℕ × ℕ → Prop} {x y : ℕ × ℕ × ℕ} (hx : InDom d x)
    (hy : InDom d y) :
    Relation.TransGen (fun u v => ∃ x y, InDom d x ∧ InDom d y ∧ A x y ∧ u = idOfT d x ∧ v = idOfT d y)
      (idOfT d x) (idOfT d y) ↔ Relation.TransGen (fun x y => InDom d x ∧ InDom d y ∧ A x y) x y := by
  have inj : ∀ {x y}, InDom d x → InDom d y → idOfT d x = idOfT d y → x = y := by
    rintro ⟨a, b, c⟩ ⟨a', b', c'⟩ h1 h2 h
    obtain ⟨h1, h2, h3⟩ := id3_inj hd h1.1 h1.2.1 h1.2.2 h2.1 h2.2.1 h2.2.2 h
    simp only at h1 h2 h3
    rw [h1, h2, h3]
  constructor
  · intro h
    have key : ∀ u v, Relation.TransGen
        (fun u v => ∃ x y, InDom d x ∧ InDom d y ∧ A x y ∧ u = idOfT d x ∧ v = idOfT d y) u v →
        ∃ x y, InDom d x ∧ InDom d y ∧ u = idOfT d x ∧ v = idOfT d y ∧
          Relation.TransGen (fun x y => InDom d x ∧ InDom d y ∧ A x y) x y := by
      intro u v h
      induction h with
      | single e =>
        obtain ⟨x, y, h1, h2, h3, rfl, rfl⟩ := e
        exact ⟨x, y, h1, h2, rfl, rfl, .single ⟨h1, h2, h3⟩⟩
      | tail _ e ih =>
        obtain ⟨x, y, h1, h2, rfl, rfl, h⟩ := ih
        obtain ⟨y', z, h1', h2', h3', e, rfl⟩ := e
        obtain rfl := inj h2 h1' e
        exact ⟨x, z, h1, h2', rfl, rfl, h.tail ⟨h1', h2', h3'⟩⟩
    obtain ⟨x', y', h1, h2, e1, e2, h⟩ := key _ _ h
    obtain rfl := inj hx h1 e1
    obtain rfl := inj hy h2 e2
    exact h
  · intro h
    induction h with
    | single e => exact .single ⟨_, _, e.1, e.2.1, e.2.2, rfl, rfl⟩
    | tail _ e ih => exact (ih e.1).tail ⟨_, _, e.1, e.2.1, e.2.2, rfl, rfl⟩

theorem walk_of_band {R : ℕ → ℕ → ℕ → Prop} {d n : ℕ} {t m b : ℕ → ℕ} (h : Band R n t m b)
    (hR : ∀ a b c, R a b c → InDom d (a, b, c)) :
    Relation.TransGen (fun x y => InDom d x ∧ InDom d y ∧ TileArc R x y) (m 0, t 1, b 1) (m 0, t 1, b 1) := by
  have hin : ∀ i, InDom d (m i, t (i + 1), b (i + 1)) := by
    intro i
    have h1 := hR _ _ _ (h.mid i)
    have h2 := hR _ _ _ (h.bot i)
    exact ⟨h1.1, h1.2.1, h2.2.2⟩
  refine transGen_of_walk (w := fun i => (m i, t (i + 1), b (i + 1))) h.pos (fun i => ⟨hin i, hin (i + 1), ?_⟩) ?_
  · exact ⟨h.mid i, ⟨_, h.bot i⟩, ⟨m (i + 2), h.mid (i + 1), h.bot (i + 1)⟩, h.top (i + 1)⟩
  · have h1 := h.pm 0
    have h2 := h.pt 1
    have h3 := h.pb 1
    simp only [Nat.zero_add] at h1
    rw [Nat.add_comm] at h2 h3
    simp only [Nat.zero_add]
    rw [h1, h2, h3]

theorem band_of_walk {R : ℕ → ℕ → ℕ → Prop} {E : ℕ × ℕ × ℕ → ℕ × ℕ × ℕ → Prop} (hdet : Determ R)
    (hE : ∀ x y, E x y → TileArc R x y) {x : ℕ × ℕ × ℕ} (h : Relation.TransGen E x x) :
    ∃ n t m b, Band R n t m b ∧ (m 0, t 1, b 1) = x := by
  obtain ⟨n, w, hn, h0, h1, h2⟩ := walk_of_transGen h
  obtain ⟨k, rfl⟩ : ∃ k, n = k + 1 := ⟨n - 1, by omega⟩
  have e0 : ∀ i, w (i + 1 + k) = w i := fun i => by rw [show i + 1 + k = i + (k + 1) by omega, h2]
  have e1 : ∀ i, w (i + k + 1) = w i := fun i => h2 i
  refine ⟨k + 1, fun i => (w (i + k)).2.1, fun i => (w i).1, fun i => (w (i + k)).2.2,
    ⟨hn, fun i => ?_, fun i => ?_, fun i => ?_, fun i => ?_, fun i => ?_, fun i => ?_⟩, ?_⟩
  · have := (hE _ _ (h1 (i + k))).2.2.2
    simp only [e0, e1] at this ⊢
    exact this
  · simp only [e0]; exact (hE _ _ (h1 i)).1
  · obtain ⟨-, -, ⟨f, hf, hg⟩, -⟩ := hE _ _ (h1 (i + k))
    rw [e1] at hf hg
    obtain rfl := hdet _ _ _ _ hf (hE _ _ (h1 i)).1
    simp only [e0]; exact hg
  · simp only [show i + (k + 1) + k = i + k + (k + 1) by omega, h2]
  · simp only [h2]
  · simp only [show i + (k + 1) + k = i + k + (k + 1) by omega, h2]
  · have h3 := e0 0
    rw [Nat.zero_add] at h3
    simp only [h3, h0]

/-- Nodes on closed walks of the exact digraph. -/
theorem tileCont_onClosed {d : ℕ} (hd : d ≤ 256) {s : Finset ℕ} {P : List ℕ} (hP : PpgTable P d)
    (hs : ∀ a b c, PpgStep P d a b c ↔ ActOf d s a b c) {x : ℕ × ℕ × ℕ} (hx : InDom d x) :
    OnClosedWalk (fun u v => (u, v) ∈ tileContArcs d s P) (idOfT d x) ↔
      ∃ n t m b, Band (ActOf d s) n t m b ∧ (m 0, t 1, b 1) = x := by
  unfold OnClosedWalk
  simp only [mem_tileContArcs hd hP hs]
  rw [transGen_ids hd hx hx]
  constructor
  · intro h
    refine band_of_walk (fun a b c c' h1 h2 => ?_) (fun x y h => h.2.2) h
    rw [← hs] at h1 h2
    have := h1.2.2.2
    rw [h2.2.2.2, Option.some.injEq] at this
    exact this.symm
  · rintro ⟨n, t, m, b, h, rfl⟩
    exact walk_of_band h fun a b c h => h.1

/-- Nodes of bands are on closed walks of the larger digraph, also when the band uses only some of the
actions. -/
theorem overCont_onClosed {d : ℕ} (hd : d ≤ 256) {s : Finset ℕ} {R : ℕ → ℕ → ℕ → Prop}
    (hR : ∀ a b c, R a b c → ActOf d s a b c) {n : ℕ} {t m b : ℕ → ℕ} (h : Band R n t m b) :
    OnClosedWalk (fun u v => (u, v) ∈ overContArcs d s) (idOfT d (m 0, t 1, b 1)) := by
  have hin : InDom d (m 0, t 1, b 1) := by
    have h1 := (hR _ _ _ (h.mid 0)).1
    have h2 := (hR _ _ _ (h.bot 0)).1
    exact ⟨h1.1, h1.2.1, h2.2.2⟩
  unfold OnClosedWalk
  simp only [mem_overContArcs hd]
  rw [transGen_ids hd hin hin]
  have hw := walk_of_band h fun a b c h => (hR a b c h).1
  have key : ∀ x y, Relation.TransGen (fun x y => InDom d x ∧ InDom d y ∧ TileArc R x y) x y →
      Relation.TransGen (fun x y => InDom d x ∧ InDom d y ∧ TileArc (ActOf d s) x y) x y := by
    intro x y h
    induction h with
    | single e => exact .single ⟨e.1, e.2.1, e.2.2.mono hR⟩
    | tail _ e ih => exact ih.tail ⟨e.1, e.2.1, e.2.2.mono hR⟩
  exact key _ _ hw

/-- Every tile of a periodic tiling is in the middle of a band. -/
theorem band_of_torus {P : List ℕ} {d w h : ℕ} {T : ℕ → ℕ → ℕ} (hw : 1 ≤ w) (hh : 1 ≤ h) (ht : Torus P d w h T)
    (r c : ℕ) : ∃ t m b, Band (PpgStep P d) w t m b ∧ m 0 = T (r + 1) c ∧ t 1 = T r (c + 1) ∧
      m 1 = T (r + 1) (c + 1) := by
  refine ⟨fun i => T (r + h) (c + i), fun i => T (r + h + 1) (c + i), fun i => T (r + h + 2) (c + i),
    ⟨hw, fun i => ?_, fun i => ht.tile _ _, fun i => ht.tile _ _, fun i => ?_, fun i => ?_, fun i => ?_⟩, ?_, ?_, ?_⟩
  · have := ht.tile (r + h - 1) (c + i)
    rw [show r + h - 1 + 1 = r + h by omega] at this
    exact ⟨_, this⟩
  · rw [← Nat.add_assoc]; exact ht.cols _ _
  · rw [← Nat.add_assoc]; exact ht.cols _ _
  · rw [← Nat.add_assoc]; exact ht.cols _ _
  · rw [show r + h + 1 = r + 1 + h by omega]; exact ht.rows _ _
  · exact ht.rows _ _
  · rw [show r + h + 1 = r + 1 + h by omega]; exact ht.rows _ _

end Verif.Proofs
