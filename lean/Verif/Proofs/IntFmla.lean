import Verif.Model.IntFmla
import Verif.Proofs.Loop
import Verif.Proofs.Index
import Verif.Proofs.Ppg
import Mathlib.Data.List.Induction
import Mathlib.Tactic.Ring

/-! Lemmas for C39: tables of integer expressions. -/

set_option linter.unusedSectionVars false

namespace Verif.Proofs
open Verif.Model

variable {n : ℕ} {dom : Fin n → ℕ}

/-- The values of some variables. -/
def vproj (s : FSt n dom) (vs : List (Fin n)) : List ℕ := vs.map fun v => (s v).val

theorem proj_inDoms (s : FSt n dom) (vs : List (Fin n)) : InDoms (vproj s vs) (vs.map dom) := by
  induction vs with
  | nil => exact .nil
  | cons v vs ih => exact .cons (s v).isLt ih

/-- The table of `a` represents the function `f` of the state. -/
structure Denotes (a : IntFmla n) (f : FSt n dom → ℤ) : Prop where
  ctx : a.ctx = !a.vbls.isEmpty
  nodup : a.vbls.Nodup
  doms : a.doms = a.vbls.map dom
  len : a.stateMap.length = a.doms.prod
  val : ∀ s : FSt n dom, a.stateMap[indexOfState (vproj s a.vbls) a.doms]? = some (f s)

/-- Every combination of values of different variables occurs in a state. -/
theorem exists_proj (s0 : FSt n dom) : ∀ (vs : List (Fin n)), vs.Nodup → ∀ st, InDoms st (vs.map dom) →
    ∃ s : FSt n dom, vproj s vs = st := by
  intro vs
  induction vs with
  | nil => intro _ st h; cases h; exact ⟨s0, rfl⟩
  | cons v vs ih =>
    intro hnd st h
    rw [List.map_cons] at h
    cases h with
    | @cons x _ st _ hx ht =>
      obtain ⟨s, hs⟩ := ih (List.nodup_cons.1 hnd).2 st ht
      refine ⟨Function.update s v ⟨x, hx⟩, ?_⟩
      rw [← hs]
      unfold vproj
      rw [List.map_cons, Function.update_self]
      congr 1
      apply List.map_congr_left
      intro w hw
      rw [Function.update_of_ne]
      rintro rfl
      exact (List.nodup_cons.1 hnd).1 hw

theorem exists_state_of_idx (s0 : FSt n dom) {vs : List (Fin n)} (hnd : vs.Nodup) {idx : ℕ}
    (h : idx < (vs.map dom).prod) :
    ∃ s : FSt n dom, vproj s vs = stateOfIndex idx (vs.map dom) ∧
      indexOfState (vproj s vs) (vs.map dom) = idx := by
  obtain ⟨h1, h2⟩ := index_state h
  obtain ⟨s, hs⟩ := exists_proj s0 vs hnd _ h1
  exact ⟨s, hs, by rw [hs, h2]⟩

theorem addDomain_length (l : List ℤ) (k : ℕ) : (addDomain l k).length = l.length * k := by
  unfold addDomain
  induction l with
  | nil => simp
  | cons x l ih =>
    rw [List.flatMap_cons, List.length_append, ih, List.length_replicate, List.length_cons]
    ring

theorem addDomain_get (l : List ℤ) {k : ℕ} : ∀ i j, j < k → (addDomain l k)[i * k + j]? = l[i]? := by
  unfold addDomain
  induction l with
  | nil => simp
  | cons x l ih =>
    intro i j hj
    rw [List.flatMap_cons]
    cases i with
    | zero =>
      rw [List.getElem?_append_left (by simp; omega)]
      simp [hj]
    | succ i =>
      rw [List.getElem?_append_right (by simp; nlinarith), List.length_replicate,
        show (i + 1) * k + j - k = i * k + j by rw [Nat.add_mul]; omega, ih i j hj]
      simp

/-- Adding a variable keeps the function. -/
theorem Denotes.addVbl {a : IntFmla n} {f : FSt n dom → ℤ} (h : Denotes a f) (hc : a.ctx = true)
    {v : Fin n} (hv : v ∉ a.vbls) :
    Denotes (⟨a.ctx, a.vbls ++ [v], a.doms ++ [dom v], addDomain a.stateMap (dom v)⟩ : IntFmla n) f := by
  refine ⟨by simp [hc], ?_, ?_, ?_, fun s => ?_⟩
  · rw [List.nodup_append]
    exact ⟨h.nodup, by simp, by rintro x hx y hy rfl; simp at hy; exact hv (hy ▸ hx)⟩
  · simp [h.doms]
  · simp [addDomain_length, h.len]
  · simp only
    have e : vproj s (a.vbls ++ [v]) = vproj s a.vbls ++ [(s v).val] := by simp [vproj]
    rw [e, index_append (by simp [vproj, h.doms]) (by simp)]
    simp only [List.prod_cons, List.prod_nil, mul_one]
    have e2 : indexOfState [(s v).val] [dom v] = (s v).val := by simp [indexOfState]
    rw [e2, addDomain_get _ _ _ (s v).isLt, h.val]

/-- What the loop of `intmap_init_op` leaves. -/
theorem initVbls_spec {f : FSt n dom → ℤ} : ∀ (vs : List (Fin n)) (m : List ℕ) (a : IntFmla n),
    Denotes a f → a.ctx = true → ∀ m' a', initVbls (vs.zip (vs.map dom)) (m, a) = (m', a') →
    Denotes a' f ∧ a'.ctx = true ∧ (∃ w, a'.vbls = a.vbls ++ w) ∧
    ∃ k, m' = m ++ k ∧ List.Forall₂ (fun i v => a'.vbls[i]? = some v) k vs := by
  intro vs
  induction vs with
  | nil =>
    intro m a h hc m' a' he
    simp only [List.map_nil, List.zip_nil_left, initVbls, Prod.mk.injEq] at he
    obtain ⟨rfl, rfl⟩ := he
    exact ⟨h, hc, ⟨[], by simp⟩, [], by simp, .nil⟩
  | cons v vs ih =>
    intro m a h hc m' a' he
    simp only [List.map_cons, List.zip_cons_cons, initVbls] at he
    split at he
    · rename_i hv
      obtain ⟨h1, h2, ⟨w, hw⟩, k, rfl, hk⟩ := ih _ _ h hc _ _ he
      refine ⟨h1, h2, ⟨w, hw⟩, a.vbls.idxOf v :: k, by simp, .cons ?_ hk⟩
      have hlt := List.idxOf_lt_length_iff.2 hv
      rw [hw, List.getElem?_append_left hlt, List.getElem?_eq_getElem hlt, List.getElem_idxOf hlt]
    · rename_i hv
      obtain ⟨h1, h2, ⟨w, hw⟩, k, rfl, hk⟩ := ih _ _ (h.addVbl hc hv) hc _ _ he
      refine ⟨h1, h2, ⟨v :: w, by simp [hw]⟩, a.vbls.length :: k, by simp, .cons ?_ hk⟩
      rw [hw]
      simp

/-- `intmap_init_op` for tables of which one has variables. -/
theorem initOp_vbls (s0 : FSt n dom) {a b : IntFmla n} {f g : FSt n dom → ℤ} (ha : Denotes a f)
    (hb : Denotes b g) (hv : ¬ (a.vbls = [] ∧ b.vbls = [])) :
    ∃ m a1, initOp a b = some (m, a1) ∧ Denotes a1 f ∧ a1.vbls ≠ [] ∧
      List.Forall₂ (fun i v => a1.vbls[i]? = some v) m b.vbls := by
  have hla : a.stateMap.length ≠ 0 := by
    have := ha.val s0
    intro h
    rw [List.length_eq_zero_iff.1 h] at this
    simp at this
  have hlb : b.stateMap.length ≠ 0 := by
    have := hb.val s0
    intro h
    rw [List.length_eq_zero_iff.1 h] at this
    simp at this
  have hcc : a.ctx = true ∨ b.ctx = true := by
    rw [ha.ctx, hb.ctx]
    by_contra hc
    push Not at hc
    simp at hc
    exact hv hc
  have hda : a.vbls.length = a.doms.length := by simp [ha.doms]
  have hdb : b.vbls.length = b.doms.length := by simp [hb.doms]
  rw [initOp, if_neg (by simp only [hla, hlb, or_self, not_false_eq_true]), if_neg hv,
    if_neg (by simp [hda, hdb]), if_neg (by simp [hcc])]
  have hor : (a.ctx || b.ctx) = true := by simp [hcc]
  rw [hor, hb.doms]
  by_cases hva : a.vbls = []
  · -- constant: the first variable comes from b
    have hvb : b.vbls ≠ [] := fun h => hv ⟨hva, h⟩
    obtain ⟨v, vs, hvs⟩ := List.exists_cons_of_ne_nil hvb
    have hnd := hb.nodup
    rw [hvs] at hnd ⊢
    simp only [List.map_cons, List.zip_cons_cons, initVbls]
    rw [hva, if_neg (by simp)]
    have hd1 : a.doms = [] := by simp [ha.doms, hva]
    have h1 : Denotes (⟨true, [v], [dom v], addDomain a.stateMap (dom v)⟩ : IntFmla n) f := by
      refine ⟨by simp, by simp, by simp, by simp [addDomain_length, ha.len, hd1], fun s => ?_⟩
      have h0 := ha.val s
      rw [hva, hd1] at h0
      simp only [vproj, List.map_nil] at h0
      have e2 : indexOfState (vproj s [v]) [dom v] = 0 * dom v + (s v).val := by simp [indexOfState, vproj]
      rw [e2, addDomain_get _ _ _ (s v).isLt]
      exact h0
    rw [hd1]
    generalize he : initVbls _ _ = r
    obtain ⟨m', a'⟩ := r
    obtain ⟨e1, e2, ⟨w, hw⟩, k, rfl, hk⟩ := initVbls_spec vs _ _ h1 rfl m' a' he
    refine ⟨_, _, rfl, e1, by simp [hw], .cons (by simp [hw]) hk⟩
  · have h1 : Denotes (⟨true, a.vbls, a.doms, a.stateMap⟩ : IntFmla n) f := by
      refine ⟨?_, ha.nodup, ha.doms, ha.len, ha.val⟩
      simp [hva]
    generalize he : initVbls _ _ = r
    obtain ⟨m', a'⟩ := r
    obtain ⟨e1, e2, ⟨w, hw⟩, k, rfl, hk⟩ := initVbls_spec b.vbls _ _ h1 rfl m' a' he
    exact ⟨_, _, rfl, e1, by rw [hw]; simp [hva], hk⟩

/-- The looked up value is the value of `b` in the same state. -/
theorem coerceLookup_vbls {a1 b : IntFmla n} {f g : FSt n dom → ℤ} (ha : Denotes a1 f)
    (hb : Denotes b g) (hv : a1.vbls ≠ []) {m : List ℕ}
    (hm : List.Forall₂ (fun i v => a1.vbls[i]? = some v) m b.vbls) (s : FSt n dom) :
    coerceLookup a1 b (indexOfState (vproj s a1.vbls) a1.doms) m = some (g s) := by
  unfold coerceLookup
  rw [if_neg hv]
  have hst : stateOfIndex (indexOfState (vproj s a1.vbls) a1.doms) a1.doms = vproj s a1.vbls := by
    apply state_index
    rw [ha.doms]; exact proj_inDoms s _
  simp only [hst]
  have hlen : m.length = b.vbls.length := hm.length_eq
  have hmap : ((List.range b.doms.length).mapM fun j => m[j]?.bind fun k => (vproj s a1.vbls)[k]?) =
      some (vproj s b.vbls) := by
    have hd : b.doms.length = b.vbls.length := by simp [hb.doms]
    rw [hd, mapM_some (g := fun j => (vproj s b.vbls).getD j 0)]
    · congr 1
      apply List.ext_getElem
      · simp [vproj]
      · intro i h1 h2
        simp at h1
        simp [vproj, h1]
    · intro j hj
      rw [List.mem_range] at hj
      have hjm : j < m.length := by omega
      have hf := List.forall₂_iff_get.1 hm
      have := hf.2 j hjm hj
      simp only [List.get_eq_getElem] at this
      rw [List.getElem?_eq_getElem hjm, Option.bind_some]
      unfold vproj
      rw [List.getElem?_map, this]
      simp [hj]
  rw [hmap]
  exact hb.val s

/-- A table is determined by the function: entry by entry. -/
theorem stateMap_get (s0 : FSt n dom) {a : IntFmla n} {f : FSt n dom → ℤ} (ha : Denotes a f) {idx : ℕ}
    (h : idx < a.stateMap.length) :
    ∃ s : FSt n dom, vproj s a.vbls = stateOfIndex idx a.doms ∧
      indexOfState (vproj s a.vbls) a.doms = idx ∧ a.stateMap[idx]? = some (f s) := by
  have h1 : idx < (a.vbls.map dom).prod := by rw [← ha.doms, ← ha.len]; exact h
  obtain ⟨s, e1, e2⟩ := exists_state_of_idx s0 ha.nodup h1
  rw [← ha.doms] at e1 e2
  exact ⟨s, e1, e2, by rw [← ha.val s, e2]⟩

theorem index_proj_lt {a : IntFmla n} {f : FSt n dom → ℤ} (ha : Denotes a f) (s : FSt n dom) :
    indexOfState (vproj s a.vbls) a.doms < a.stateMap.length := by
  rw [ha.len, ha.doms]
  exact index_lt (proj_inDoms s _)

theorem mapM_getElem {α β : Type} {f : α → Option β} : ∀ {l : List α} {ws : List β},
    l.mapM f = some ws → ws.length = l.length ∧ ∀ (i : ℕ) (h : i < l.length), f l[i] = ws[i]? := by
  intro l
  induction l with
  | nil => intro ws h; simp at h; subst h; simp
  | cons a l ih =>
    intro ws h
    rw [List.mapM_cons] at h
    cases ha : f a with
    | none => simp [ha] at h
    | some b =>
      cases hl : l.mapM f with
      | none => simp [ha, hl] at h
      | some bs =>
        simp [ha, hl] at h
        subst h
        obtain ⟨e1, e2⟩ := ih hl
        refine ⟨by simp [e1], fun i hi => ?_⟩
        cases i with
        | zero => simp [ha]
        | succ i => simpa using e2 i (by simpa using hi)

theorem mapM_eq_none {α β : Type} {f : α → Option β} : ∀ {l : List α},
    l.mapM f = none ↔ ∃ x ∈ l, f x = none := by
  intro l
  induction l with
  | nil => simp
  | cons a l ih =>
    rw [List.mapM_cons]
    cases ha : f a with
    | none => simp [ha]
    | some b =>
      simp only [Option.bind_eq_bind, Option.bind_some, List.mem_cons, exists_eq_or_imp, ha,
        reduceCtorEq, false_or, ← ih]
      cases l.mapM f <;> simp

/-- The result of an operation, when one operand has variables. -/
theorem binop_vbls (s0 : FSt n dom) (op : IntOp) {a b : IntFmla n} {f g : FSt n dom → ℤ}
    (ha : Denotes a f) (hb : Denotes b g) (hv : ¬ (a.vbls = [] ∧ b.vbls = [])) :
    (∀ r, a.binop op b = some r → r.vbls ≠ [] ∧
      ∃ h : FSt n dom → ℤ, Denotes r h ∧ ∀ s, op.eval (f s) (g s) = some (h s)) ∧
    (a.binop op b = none ↔ ∃ s : FSt n dom, op.eval (f s) (g s) = none) := by
  obtain ⟨m, a1, e, h1, hv1, hm⟩ := initOp_vbls s0 ha hb hv
  have hentry : ∀ s : FSt n dom, (a1.stateMap[indexOfState (vproj s a1.vbls) a1.doms]?.bind fun x =>
      (coerceLookup a1 b (indexOfState (vproj s a1.vbls) a1.doms) m).bind fun y => op.eval x y) =
      op.eval (f s) (g s) := by
    intro s
    rw [h1.val, coerceLookup_vbls h1 hb hv1 hm]
    rfl
  unfold IntFmla.binop
  simp only [e]
  cases hr : ((List.range a1.stateMap.length).mapM fun idx =>
        a1.stateMap[idx]?.bind fun x => (coerceLookup a1 b idx m).bind fun y => op.eval x y) with
  | none =>
    simp only [reduceCtorEq, false_implies, implies_true, true_iff, true_and]
    obtain ⟨idx, hi, hn⟩ := mapM_eq_none.1 hr
    obtain ⟨s, -, e2, -⟩ := stateMap_get s0 h1 (List.mem_range.1 hi)
    refine ⟨s, ?_⟩
    rw [← hentry, e2]
    exact hn
  | some mm =>
    obtain ⟨hl, hg⟩ := mapM_getElem hr
    rw [List.length_range] at hl
    have hval : ∀ s : FSt n dom, op.eval (f s) (g s) = mm[indexOfState (vproj s a1.vbls) a1.doms]? := by
      intro s
      have hlt := index_proj_lt h1 s
      have := hg (indexOfState (vproj s a1.vbls) a1.doms) (by simpa using hlt)
      rw [← this, List.getElem_range, hentry]
    have hsome : ∀ s : FSt n dom, ∃ z, op.eval (f s) (g s) = some z := by
      intro s
      rw [hval, List.getElem?_eq_getElem (by rw [hl]; exact index_proj_lt h1 s)]
      exact ⟨_, rfl⟩
    constructor
    · intro r hr
      simp only [Option.some.injEq] at hr
      subst hr
      refine ⟨hv1, fun s => (op.eval (f s) (g s)).getD 0, ⟨h1.ctx, h1.nodup, h1.doms, by rw [← h1.len]; exact hl,
        fun s => ?_⟩, fun s => ?_⟩
      · simp only
        rw [← hval]
        obtain ⟨z, hz⟩ := hsome s
        rw [hz]; rfl
      · obtain ⟨z, hz⟩ := hsome s
        simp only [hz, Option.getD_some]
    · simp only [reduceCtorEq, false_iff, not_exists]
      intro s hs
      obtain ⟨z, hz⟩ := hsome s
      rw [hz] at hs; cases hs

/-- `mapM` over the cells of a rectangle. -/
theorem mapM_range_mul {β : Type} (la lb : List ℤ) (F : ℤ → ℤ → Option β) :
    ((List.range (la.length * lb.length)).mapM fun i => (addDomain la lb.length)[i]?.bind fun x =>
      lb[i % lb.length]?.bind fun y => F x y) =
    (la.flatMap fun x => lb.map fun y => (x, y)).mapM fun p => F p.1 p.2 := by
  have hlen : (la.flatMap fun x => lb.map fun y => (x, y)).length = la.length * lb.length := by
    induction la with
    | nil => simp
    | cons x la ih => rw [List.flatMap_cons, List.length_append, ih]; simp; ring
  have hget : ∀ i (h : i < la.length * lb.length), ∃ x y, (addDomain la lb.length)[i]? = some x ∧
      lb[i % lb.length]? = some y ∧ (la.flatMap fun x => lb.map fun y => (x, y))[i]? = some (x, y) := by
    clear hlen
    induction la with
    | nil => intro i h; simp at h
    | cons x la ih =>
      intro i h
      have hpos : 0 < lb.length := by
        by_contra hc
        have : lb.length = 0 := by omega
        rw [this] at h; simp at h
      rw [List.flatMap_cons]
      by_cases hi : i < lb.length
      · rw [List.getElem?_append_left (by simpa using hi), Nat.mod_eq_of_lt hi, List.getElem?_map,
          List.getElem?_eq_getElem hi]
        refine ⟨x, lb[i], ?_, rfl, rfl⟩
        have := addDomain_get (x :: la) 0 i hi
        rw [zero_mul, zero_add] at this
        rw [this]; rfl
      · have hi2 : i - lb.length < la.length * lb.length := by
          rw [List.length_cons, Nat.add_mul] at h; omega
        obtain ⟨x', y', e1, e2, e3⟩ := ih _ hi2
        refine ⟨x', y', ?_, ?_, ?_⟩
        · unfold addDomain at e1 ⊢
          rw [List.flatMap_cons, List.getElem?_append_right (by simpa using hi)]
          simpa using e1
        · rw [← e2, Nat.mod_eq_sub_mod (by omega)]
        · rw [List.getElem?_append_right (by simpa using hi)]
          simpa using e3
  have hgen : ∀ (l1 : List ℕ) (l2 : List (ℤ × ℤ)), List.Forall₂ (fun i p =>
      (addDomain la lb.length)[i]? = some p.1 ∧ lb[i % lb.length]? = some p.2) l1 l2 →
      (l1.mapM fun i => (addDomain la lb.length)[i]?.bind fun x =>
        lb[i % lb.length]?.bind fun y => F x y) = l2.mapM fun p => F p.1 p.2 := by
    intro l1 l2 h
    induction h with
    | nil => rfl
    | @cons i p l1 l2 hp _ ih =>
      rw [List.mapM_cons, List.mapM_cons, ih, hp.1, hp.2]
      rfl
  apply hgen
  rw [List.forall₂_iff_get]
  refine ⟨by simp [hlen], fun i h1 h2 => ?_⟩
  simp only [List.length_range] at h1
  obtain ⟨x, y, e1, e2, e3⟩ := hget i h1
  have : (la.flatMap fun x => lb.map fun y => (x, y))[i]'h2 = (x, y) := by
    rw [List.getElem?_eq_getElem h2] at e3
    simpa using e3
  simp only [List.get_eq_getElem, List.getElem_range, this]
  exact ⟨e1, e2⟩

theorem mem_ofState {st : List ℕ} {vs : List (Fin n)} {s : FSt n dom} (h : st.length = vs.length) :
    s ∈ ofState dom st vs ↔ vproj s vs = st := by
  unfold ofState
  have hgen : ∀ (l : List (ℕ × Fin n)) (c : Finset (FSt n dom)),
      s ∈ l.foldl (fun conj p => conj ∩ Finset.univ.filter fun s => (s p.2).val = p.1) c ↔
      s ∈ c ∧ ∀ p ∈ l, (s p.2).val = p.1 := by
    intro l
    induction l with
    | nil => simp
    | cons p l ih =>
      intro c
      rw [List.foldl_cons, ih]
      simp only [Finset.mem_inter, Finset.mem_filter, Finset.mem_univ, true_and, List.mem_cons,
        forall_eq_or_imp]
      tauto
  rw [hgen]
  simp only [Finset.mem_univ, true_and]
  induction vs generalizing st with
  | nil =>
    have : st = [] := by simpa using h
    subst this; simp [vproj]
  | cons v vs ih =>
    cases st with
    | nil => simp at h
    | cons x st =>
      have := ih (st := st) (by simpa using h)
      simp only [vproj] at this ⊢
      simp only [List.zip_cons_cons, List.mem_cons, forall_eq_or_imp, List.map_cons, List.cons.injEq, this]

/-- A set (no variables): all combinations. -/
theorem binop_sets (op : IntOp) {a b : IntFmla n} (ha : a.vbls = []) (hb : b.vbls = [])
    (hca : a.ctx = false) (hcb : b.ctx = false) (hna : a.stateMap ≠ []) (hnb : b.stateMap ≠ []) :
    a.binop op b = ((a.stateMap.flatMap fun x => b.stateMap.map fun y => (x, y)).mapM
      fun p => op.eval p.1 p.2).map fun m => ⟨false, [], a.doms ++ b.doms, m⟩ := by
  unfold IntFmla.binop
  rw [initOp, if_neg (by simp [hna, hnb]), if_pos ⟨ha, hb⟩, if_neg (by simp [hca, hcb])]
  simp only [addDomain_length, hca, ha]
  rw [← mapM_range_mul]
  have : ∀ idx, coerceLookup (⟨false, [], a.doms ++ b.doms, addDomain a.stateMap b.stateMap.length⟩ : IntFmla n)
      b idx [] = b.stateMap[idx % b.stateMap.length]? := fun idx => by simp [coerceLookup]
  simp only [this]
  generalize (List.mapM _ _ : Option (List ℤ)) = r
  cases r <;> rfl

theorem foldlM_cmp {σ : Type} [DecidableEq σ] (X Y : ℕ → Option ℤ) (F : ℤ → ℤ → Bool) (P : ℕ → Finset σ) :
    ∀ (l : List ℕ) (d : Finset σ), (∀ i ∈ l, ∃ x y, X i = some x ∧ Y i = some y) →
    ∃ r, l.foldlM (fun disj idx => (X idx).bind fun x => (Y idx).bind fun y =>
      some (if F x y then disj ∪ P idx else disj)) d = some r ∧
      ∀ s, s ∈ r ↔ s ∈ d ∨ ∃ i ∈ l, ∃ x y, X i = some x ∧ Y i = some y ∧ F x y = true ∧ s ∈ P i := by
  intro l
  induction l with
  | nil => intro d _; exact ⟨d, rfl, by simp⟩
  | cons i l ih =>
    intro d h
    obtain ⟨x, y, hx, hy⟩ := h i (by simp)
    rw [List.foldlM_cons]
    simp only [hx, hy, Option.bind_some, Option.bind_eq_bind]
    obtain ⟨r, h1, h2⟩ := ih (if F x y = true then d ∪ P i else d) fun j hj => h j (by simp [hj])
    refine ⟨r, h1, fun s => ?_⟩
    rw [h2]
    simp only [List.mem_cons, exists_eq_or_imp, hx, hy, Option.some.injEq]
    constructor
    · rintro (h | h)
      · split at h
        · rename_i hf
          rcases Finset.mem_union.1 h with h | h
          · exact .inl h
          · exact .inr (.inl ⟨x, y, rfl, rfl, hf, h⟩)
        · exact .inl h
      · exact .inr (.inr h)
    · rintro (h | ⟨x', y', rfl, rfl, hf, h⟩ | h)
      · left; split <;> simp [h]
      · left; rw [if_pos hf]; simp [h]
      · exact .inr h

/-- `cmp` when one operand has variables. -/
theorem cmp_vbls (s0 : FSt n dom) (lt eq gt : Bool) {a b : IntFmla n} {f g : FSt n dom → ℤ}
    (ha : Denotes a f) (hb : Denotes b g) (hv : ¬ (a.vbls = [] ∧ b.vbls = [])) :
    ∃ r, a.cmp dom lt eq gt b = some r ∧ ∀ s, s ∈ r ↔
      (lt = true ∧ f s < g s) ∨ (eq = true ∧ f s = g s) ∨ (gt = true ∧ f s > g s) := by
  obtain ⟨m, a1, e, h1, hv1, hm⟩ := initOp_vbls s0 ha hb hv
  unfold IntFmla.cmp
  rw [if_neg (fun h => hv ⟨h.1, h.2.1⟩)]
  simp only [e]
  obtain ⟨r, hr1, hr2⟩ := foldlM_cmp (fun i => a1.stateMap[i]?) (fun i => coerceLookup a1 b i m)
    (fun x y => decide ((lt = true ∧ x < y) ∨ (eq = true ∧ x = y) ∨ (gt = true ∧ x > y)))
    (fun i => ofState dom (stateOfIndex i a1.doms) a1.vbls) (List.range a1.stateMap.length) ∅ (by
      intro i hi
      obtain ⟨s, -, e2, e3⟩ := stateMap_get s0 h1 (List.mem_range.1 hi)
      refine ⟨f s, g s, e3, ?_⟩
      rw [← e2]
      exact coerceLookup_vbls h1 hb hv1 hm s)
  simp only [decide_eq_true_eq] at hr1 hr2
  refine ⟨r, hr1, fun s => ?_⟩
  rw [hr2]
  simp only [Finset.notMem_empty, false_or]
  have hlen : ∀ i, (stateOfIndex i a1.doms).length = a1.vbls.length := by
    intro i; rw [state_length, h1.doms]; simp
  constructor
  · rintro ⟨i, hi, x, y, hx, hy, hc, hs⟩
    rw [mem_ofState (hlen i)] at hs
    have hi2 : i < a1.doms.prod := by rw [← h1.len]; exact List.mem_range.1 hi
    have he : indexOfState (vproj s a1.vbls) a1.doms = i := by
      rw [hs]; exact (index_state hi2).2
    rw [← he, h1.val] at hx
    rw [← he, coerceLookup_vbls h1 hb hv1 hm] at hy
    simp only [Option.some.injEq] at hx hy
    subst hx; subst hy
    exact hc
  · intro hc
    refine ⟨indexOfState (vproj s a1.vbls) a1.doms, List.mem_range.2 (index_proj_lt h1 s), f s, g s,
      h1.val s, coerceLookup_vbls h1 hb hv1 hm s, hc, ?_⟩
    rw [mem_ofState (hlen _), state_index]
    rw [h1.doms]; exact proj_inDoms s _

/-- `cmp` of two constants. -/
theorem cmp_consts (lt eq gt : Bool) {a b : IntFmla n} {x y : ℤ} (ha : a.vbls = []) (hb : b.vbls = [])
    (hca : a.ctx = false) (hcb : b.ctx = false) (hna : a.stateMap = [x]) (hnb : b.stateMap = [y]) :
    a.cmp dom lt eq gt b = some (if (lt = true ∧ x < y) ∨ (eq = true ∧ x = y) ∨ (gt = true ∧ x > y)
      then Finset.univ else ∅) := by
  unfold IntFmla.cmp
  rw [if_neg (by simp [hna, hnb]), initOp, if_neg (by simp [hna, hnb]), if_pos ⟨ha, hb⟩,
    if_neg (by simp [hca, hcb])]
  simp only [addDomain_length, hna, hnb, List.length_cons, List.length_nil, ha]
  have : List.range ((0 + 1) * (0 + 1)) = [0] := rfl
  rw [this]
  simp only [addDomain, coerceLookup, hnb, ofState, List.foldlM_cons, List.foldlM_nil]
  simp

/-! ### `img_eq` -/

/-- Keys of a map are increasing. -/
def KeysInc (m : List (ℤ × List ℕ)) : Prop := m.Pairwise fun p q => p.1 < q.1

/-- Index `i` is listed under key `k`. -/
def Listed (m : List (ℤ × List ℕ)) (k : ℤ) (i : ℕ) : Prop := ∃ l, (k, l) ∈ m ∧ i ∈ l

theorem mapPush_keys (key : ℤ) (i : ℕ) : ∀ (m : List (ℤ × List ℕ)) p, p ∈ mapPush key i m →
    p.1 = key ∨ ∃ q ∈ m, q.1 = p.1 := by
  intro m
  induction m with
  | nil => intro p hp; simp [mapPush] at hp; simp [hp]
  | cons q m ih =>
    obtain ⟨k, l⟩ := q
    intro p hp
    simp only [mapPush] at hp
    split at hp
    · rcases List.mem_cons.1 hp with rfl | hp
      · exact .inl rfl
      · exact .inr ⟨p, hp, rfl⟩
    · split at hp
      · rcases List.mem_cons.1 hp with rfl | hp
        · exact .inr ⟨_, by simp, rfl⟩
        · rcases ih p hp with h | ⟨q, hq, h⟩
          · exact .inl h
          · exact .inr ⟨q, by simp [hq], h⟩
      · rcases List.mem_cons.1 hp with rfl | hp
        · exact .inr ⟨(k, l), by simp, rfl⟩
        · exact .inr ⟨p, by simp [hp], rfl⟩

theorem mapPush_inc (key : ℤ) (i : ℕ) : ∀ (m : List (ℤ × List ℕ)), KeysInc m → KeysInc (mapPush key i m) := by
  intro m
  induction m with
  | nil => intro _; simp [mapPush, KeysInc]
  | cons q m ih =>
    obtain ⟨k, l⟩ := q
    intro h
    obtain ⟨h1, h2⟩ := List.pairwise_cons.1 h
    simp only [mapPush]
    split
    · rename_i hlt
      refine List.pairwise_cons.2 ⟨?_, h⟩
      intro p hp
      rcases List.mem_cons.1 hp with rfl | hp
      · exact hlt
      · exact lt_trans hlt (h1 p hp)
    · split
      · rename_i hlt
        refine List.pairwise_cons.2 ⟨?_, ih h2⟩
        intro p hp
        rcases mapPush_keys key i m p hp with e | ⟨q, hq, e⟩
        · rw [e]; exact hlt
        · rw [← e]; exact h1 q hq
      · exact List.pairwise_cons.2 ⟨h1, h2⟩

theorem mapPush_listed (key : ℤ) (i : ℕ) : ∀ (m : List (ℤ × List ℕ)), KeysInc m → ∀ k j,
    Listed (mapPush key i m) k j ↔ Listed m k j ∨ (k = key ∧ j = i) := by
  intro m
  induction m with
  | nil =>
    intro _ k j
    simp only [mapPush, Listed, List.mem_singleton, Prod.mk.injEq, List.not_mem_nil, false_and,
      exists_false, false_or]
    constructor
    · rintro ⟨l, ⟨rfl, rfl⟩, h⟩; simp at h; exact ⟨rfl, h⟩
    · rintro ⟨rfl, rfl⟩; exact ⟨_, ⟨rfl, rfl⟩, by simp⟩
  | cons q m ih =>
    obtain ⟨k0, l0⟩ := q
    intro h k j
    obtain ⟨h1, h2⟩ := List.pairwise_cons.1 h
    simp only [mapPush]
    split
    · simp only [Listed, List.mem_cons, Prod.mk.injEq]
      constructor
      · rintro ⟨l, ⟨rfl, rfl⟩ | hm, hj⟩
        · simp at hj; exact .inr ⟨rfl, hj⟩
        · exact .inl ⟨l, hm, hj⟩
      · rintro (⟨l, hm, hj⟩ | ⟨rfl, rfl⟩)
        · exact ⟨l, .inr hm, hj⟩
        · exact ⟨_, .inl ⟨rfl, rfl⟩, by simp⟩
    · split
      · have ih' := ih h2 k j
        simp only [Listed, List.mem_cons, Prod.mk.injEq] at ih' ⊢
        constructor
        · rintro ⟨l, ⟨rfl, rfl⟩ | hm, hj⟩
          · exact .inl ⟨l, .inl ⟨rfl, rfl⟩, hj⟩
          · rcases ih'.1 ⟨l, hm, hj⟩ with ⟨l', hm', hj'⟩ | h
            · exact .inl ⟨l', .inr hm', hj'⟩
            · exact .inr h
        · rintro (⟨l, ⟨rfl, rfl⟩ | hm, hj⟩ | h)
          · exact ⟨l, .inl ⟨rfl, rfl⟩, hj⟩
          · obtain ⟨l', hm', hj'⟩ := ih'.2 (.inl ⟨l, hm, hj⟩)
            exact ⟨l', .inr hm', hj'⟩
          · obtain ⟨l', hm', hj'⟩ := ih'.2 (.inr h)
            exact ⟨l', .inr hm', hj'⟩
      · have he : k0 = key := by omega
        subst he
        simp only [Listed, List.mem_cons, Prod.mk.injEq]
        constructor
        · rintro ⟨l, ⟨rfl, rfl⟩ | hm, hj⟩
          · rcases List.mem_append.1 hj with hj | hj
            · exact .inl ⟨l0, .inl ⟨rfl, rfl⟩, hj⟩
            · simp at hj; exact .inr ⟨rfl, hj⟩
          · exact .inl ⟨l, .inr hm, hj⟩
        · rintro (⟨l, ⟨rfl, rfl⟩ | hm, hj⟩ | ⟨rfl, rfl⟩)
          · exact ⟨_, .inl ⟨rfl, rfl⟩, by simp [hj]⟩
          · exact ⟨l, .inr hm, hj⟩
          · exact ⟨_, .inl ⟨rfl, rfl⟩, by simp⟩

theorem inverseMap_spec (l : List ℤ) :
    KeysInc (inverseMap l) ∧ ∀ k i, Listed (inverseMap l) k i ↔ l[i]? = some k := by
  unfold inverseMap
  have hgen : ∀ (ps : List (ℤ × ℕ)) (m : List (ℤ × List ℕ)), KeysInc m →
      KeysInc (ps.foldl (fun m p => mapPush p.1 p.2 m) m) ∧
      ∀ k i, Listed (ps.foldl (fun m p => mapPush p.1 p.2 m) m) k i ↔ Listed m k i ∨ (k, i) ∈ ps := by
    intro ps
    induction ps with
    | nil => intro m h; exact ⟨h, by simp⟩
    | cons p ps ih =>
      intro m h
      obtain ⟨e1, e2⟩ := ih _ (mapPush_inc p.1 p.2 m h)
      refine ⟨e1, fun k i => ?_⟩
      rw [List.foldl_cons, e2, mapPush_listed _ _ _ h, List.mem_cons, Prod.ext_iff]
      exact or_assoc
  obtain ⟨h1, h2⟩ := hgen l.zipIdx [] List.Pairwise.nil
  refine ⟨h1, fun k i => ?_⟩
  rw [h2, List.mem_zipIdx_iff_getElem?]
  simp [Listed]

theorem mem_statesOfIdcs {f : IntFmla n} (hl : f.doms.length = f.vbls.length) {idcs : List ℕ}
    {s : FSt n dom} :
    s ∈ statesOfIdcs dom f idcs ↔ ∃ i ∈ idcs, vproj s f.vbls = stateOfIndex i f.doms := by
  unfold statesOfIdcs
  have hgen : ∀ (l : List ℕ) (d : Finset (FSt n dom)),
      s ∈ l.foldl (fun disj i => disj ∪ ofState dom (stateOfIndex i f.doms) f.vbls) d ↔
      s ∈ d ∨ ∃ i ∈ l, vproj s f.vbls = stateOfIndex i f.doms := by
    intro l
    induction l with
    | nil => simp
    | cons i l ih =>
      intro d
      rw [List.foldl_cons, ih, Finset.mem_union, mem_ofState (by rw [state_length, hl])]
      simp only [List.mem_cons, exists_eq_or_imp]
      exact or_assoc
  rw [hgen]
  simp

/-- The states listed for a key are those with this value. -/
theorem mem_statesOfIdcs_iff {a : IntFmla n} {f : FSt n dom → ℤ} (ha : Denotes a f) {k : ℤ} {l : List ℕ}
    (hm : (k, l) ∈ inverseMap a.stateMap) (s : FSt n dom) :
    s ∈ statesOfIdcs dom a l ↔ f s = k := by
  have hl : a.doms.length = a.vbls.length := by simp [ha.doms]
  obtain ⟨hinc, hlist⟩ := inverseMap_spec a.stateMap
  rw [mem_statesOfIdcs hl]
  constructor
  · rintro ⟨i, hi, he⟩
    have h1 := (hlist k i).1 ⟨l, hm, hi⟩
    have hlt : i < a.doms.prod := by
      rw [← ha.len]
      exact (List.getElem?_eq_some_iff.1 h1).1
    have h2 := ha.val s
    rw [he, (index_state hlt).2, h1] at h2
    exact (Option.some.inj h2).symm
  · intro he
    obtain ⟨l', hm', hi'⟩ := (hlist k (indexOfState (vproj s a.vbls) a.doms)).2 (by rw [ha.val, he])
    have hll : l' = l := by
      have huniq : ∀ m : List (ℤ × List ℕ), KeysInc m → (k, l') ∈ m → (k, l) ∈ m → l' = l := by
        intro m
        induction m with
        | nil => intro _ h; simp at h
        | cons p m ih =>
          intro h h1 h2
          obtain ⟨g1, g2⟩ := List.pairwise_cons.1 h
          rcases List.mem_cons.1 h1 with e1 | i1 <;> rcases List.mem_cons.1 h2 with e2 | i2
          · exact congrArg Prod.snd (e1.trans e2.symm)
          · subst e1; exact absurd (g1 _ i2) (lt_irrefl _)
          · subst e2; exact absurd (g1 _ i1) (lt_irrefl _)
          · exact ih g2 i1 i2
      exact huniq _ hinc hm' hm
    subst hll
    refine ⟨_, hi', ?_⟩
    rw [state_index]
    rw [ha.doms]; exact proj_inDoms s _

/-- The invariant of the loop of `img_eq`: matching keys are either collected or in both rests. -/
structure ImgInv (A B : List (ℤ × List ℕ)) (R : ℤ → Finset (FSt n dom × FSt n dom))
    (st : List (ℤ × List ℕ) × List (ℤ × List ℕ) × Finset (FSt n dom × FSt n dom)) : Prop where
  sufA : st.1 <:+ A
  sufB : st.2.1 <:+ B
  sound : ∀ x ∈ st.2.2, ∃ k, (k ∈ A.map Prod.fst ∧ k ∈ B.map Prod.fst) ∧ x ∈ R k
  complete : ∀ k, k ∈ A.map Prod.fst → k ∈ B.map Prod.fst →
    R k ⊆ st.2.2 ∨ (k ∈ st.1.map Prod.fst ∧ k ∈ st.2.1.map Prod.fst)

theorem suffix_lowerBound {A t : List (ℤ × List ℕ)} (hA : KeysInc A) {p : ℤ × List ℕ} (h : p :: t <:+ A)
    {k : ℤ} (hk : p.1 < k) : lowerBound A k = lowerBound t k := by
  obtain ⟨u, rfl⟩ := h
  unfold lowerBound
  rw [List.dropWhile_append_of_pos, List.dropWhile_cons_of_pos (by simpa using hk)]
  intro q hq
  have := (List.pairwise_append.1 hA).2.2 q hq p (by simp)
  simpa using lt_trans this hk

theorem lowerBound_mem {A : List (ℤ × List ℕ)} (hA : KeysInc A) {k k' : ℤ} (hk : k ≤ k')
    (hm : k' ∈ A.map Prod.fst) : k' ∈ (lowerBound A k).map Prod.fst := by
  unfold lowerBound
  induction A with
  | nil => simp at hm
  | cons p A ih =>
    by_cases hp : p.1 < k
    · rw [List.dropWhile_cons_of_pos (by simpa using hp)]
      refine ih (List.pairwise_cons.1 hA).2 ?_
      rcases List.mem_cons.1 hm with h | h
      · omega
      · exact h
    · rw [List.dropWhile_cons_of_neg (by simpa using hp)]
      exact hm

theorem imgEq_loop (a b : IntFmla n) {A B : List (ℤ × List ℕ)} (hA : KeysInc A) (hB : KeysInc B)
    (R : ℤ → Finset (FSt n dom × FSt n dom))
    (hR : ∀ k la lb, (k, la) ∈ A → (k, lb) ∈ B → R k = statesOfIdcs dom b lb ×ˢ statesOfIdcs dom a la)
    (fuel : ℕ) (st) (hst : ImgInv A B R st) (hf : st.1.length + st.2.1.length < fuel) :
    ∃ r, loopFuel (imgEqBody dom a b A B) fuel st = some r ∧
      ∀ x, x ∈ r ↔ ∃ k, (k ∈ A.map Prod.fst ∧ k ∈ B.map Prod.fst) ∧ x ∈ R k := by
  refine loopFuel_total (ImgInv A B R) _ (fun st => st.1.length + st.2.1.length) ?_ ?_ fuel st hst hf
  · rintro ⟨sa, sb, d⟩ r hinv hb x
    have hd : d = r ∧ (sa = [] ∨ sb = []) := by
      unfold imgEqBody at hb
      cases sa with
      | nil => simp at hb; exact ⟨hb, .inl rfl⟩
      | cons p sa =>
        cases sb with
        | nil => simp at hb; exact ⟨hb, .inr rfl⟩
        | cons q sb =>
          obtain ⟨ka, ia⟩ := p
          obtain ⟨kb, ib⟩ := q
          simp only at hb
          split at hb
          · cases hb
          · split at hb <;> cases hb
    obtain ⟨rfl, he⟩ := hd
    constructor
    · exact hinv.sound x
    · rintro ⟨k, ⟨h1, h2⟩, hx⟩
      rcases hinv.complete k h1 h2 with h | ⟨h3, h4⟩
      · exact h hx
      · rcases he with rfl | rfl
        · simp at h3
        · simp at h4
  · rintro ⟨sa, sb, d⟩ st' hinv hb
    unfold imgEqBody at hb
    cases sa with
    | nil => simp at hb
    | cons p sa =>
      cases sb with
      | nil => simp at hb
      | cons q sb =>
        obtain ⟨ka, ia⟩ := p
        obtain ⟨kb, ib⟩ := q
        have hsA := hinv.sufA
        have hsB := hinv.sufB
        simp only at hsA hsB
        have hincA : KeysInc ((ka, ia) :: sa) := List.Pairwise.sublist hsA.sublist hA
        have hincB : KeysInc ((kb, ib) :: sb) := List.Pairwise.sublist hsB.sublist hB
        simp only at hb
        split at hb
        · rename_i hlt
          simp only [Sum.inr.injEq] at hb
          subst hb
          have hlb := suffix_lowerBound hA hsA (k := kb) hlt
          have hsuf : lowerBound A kb <:+ sa := by rw [hlb]; exact List.dropWhile_suffix _
          refine ⟨⟨?_, hsB, hinv.sound, fun k h1 h2 => ?_⟩, ?_⟩
          · exact hsuf.trans ((List.suffix_cons _ _).trans hsA)
          · rcases hinv.complete k h1 h2 with h | ⟨h3, h4⟩
            · exact .inl h
            · refine .inr ⟨lowerBound_mem hA ?_ h1, h4⟩
              rcases List.mem_cons.1 h4 with h | h
              · simp at h; omega
              · obtain ⟨z, hz, rfl⟩ := List.mem_map.1 h
                exact le_of_lt ((List.pairwise_cons.1 hincB).1 z hz)
          · have := hsuf.length_le
            simp only [List.length_cons]
            omega
        · split at hb
          · rename_i _ hlt
            simp only [Sum.inr.injEq] at hb
            subst hb
            have hlb := suffix_lowerBound hB hsB (k := ka) hlt
            have hsuf : lowerBound B ka <:+ sb := by rw [hlb]; exact List.dropWhile_suffix _
            refine ⟨⟨hsA, ?_, hinv.sound, fun k h1 h2 => ?_⟩, ?_⟩
            · exact hsuf.trans ((List.suffix_cons _ _).trans hsB)
            · rcases hinv.complete k h1 h2 with h | ⟨h3, h4⟩
              · exact .inl h
              · refine .inr ⟨h3, lowerBound_mem hB ?_ h2⟩
                rcases List.mem_cons.1 h3 with h | h
                · simp at h; omega
                · obtain ⟨z, hz, rfl⟩ := List.mem_map.1 h
                  exact le_of_lt ((List.pairwise_cons.1 hincA).1 z hz)
            · have := hsuf.length_le
              simp only [List.length_cons]
              omega
          · rename_i h1 h2
            have hk : ka = kb := by omega
            subst hk
            simp only [Sum.inr.injEq] at hb
            subst hb
            have hmA : (ka, ia) ∈ A := hsA.mem (by simp)
            have hmB : (ka, ib) ∈ B := hsB.mem (by simp)
            have hRk := hR ka ia ib hmA hmB
            refine ⟨⟨(List.suffix_cons _ _).trans hsA, (List.suffix_cons _ _).trans hsB, ?_, ?_⟩, ?_⟩
            · intro x hx
              rcases Finset.mem_union.1 hx with hx | hx
              · exact hinv.sound x hx
              · exact ⟨ka, ⟨List.mem_map.2 ⟨_, hmA, rfl⟩, List.mem_map.2 ⟨_, hmB, rfl⟩⟩, by rw [hRk]; exact hx⟩
            · intro k g1 g2
              rcases hinv.complete k g1 g2 with h | ⟨h3, h4⟩
              · exact .inl (h.trans Finset.subset_union_left)
              · by_cases hke : k = ka
                · subst hke
                  left
                  rw [hRk]
                  exact Finset.subset_union_right
                · right
                  simp only [List.map_cons, List.mem_cons] at h3 h4
                  exact ⟨h3.resolve_left hke, h4.resolve_left hke⟩
            · simp only [List.length_cons]; omega

end Verif.Proofs
