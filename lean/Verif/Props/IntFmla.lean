import Verif.Proofs.IntFmla
import Verif.Spec.Eval
import Mathlib.Data.Fin.VecNotation
import Mathlib.Tactic.FinCases
import Mathlib.Data.Fintype.Prod

/-! Property C39: integer expressions over the state. -/

set_option linter.unusedSectionVars false

namespace Verif.Props
open Verif.Model Verif.Proofs Verif.Spec

variable {n : ℕ} {dom : Fin n → ℕ}

theorem opVal_iff (op : IntOp) (x y z : ℤ) : op.eval x y = some z ↔ OpVal op x y z := by
  cases op <;> simp only [IntOp.eval, OpVal, Option.some.injEq]
  · exact eq_comm
  · exact eq_comm
  · exact eq_comm
  · split
    · rename_i h; simp [h]
    · rename_i h; simp [h, eq_comm]
  · split
    · rename_i h
      simp only [reduceCtorEq, false_iff]
      omega
    · rename_i h
      push Not at h
      simp only [Option.some.injEq]
      constructor
      · rintro rfl
        exact ⟨h, Int.emod_nonneg _ (by omega), Int.emod_lt_of_pos _ h, Int.dvd_self_sub_emod⟩
      · rintro ⟨-, h1, h2, h3⟩
        rw [show x.emod y = x % y from rfl, Int.emod_eq_emod_iff_emod_sub_eq_zero.2
          (Int.emod_eq_zero_of_dvd h3), Int.emod_eq_of_lt h1 h2]
  · split
    · rename_i h; simp only [reduceCtorEq, false_iff]; omega
    · rename_i h
      push Not at h
      have : ∀ k : ℕ, (fun v => v * x)^[k] 1 = x ^ k := by
        intro k
        induction k with
        | zero => simp
        | succ k ih => rw [Function.iterate_succ_apply', ih, pow_succ]
      simp only [this, Option.some.injEq, h, true_and]
      exact eq_comm
  · rw [min_def]; split <;> split <;> constructor <;> intro h <;> omega
  · rw [max_def]; split <;> split <;> constructor <;> intro h <;> omega

theorem denotes_const {a : IntFmla n} {f : FSt n dom → ℤ} (s0 : FSt n dom) (ha : Denotes a f)
    (hv : a.vbls = []) : a.ctx = false ∧ a.doms = [] ∧ a.stateMap = [f s0] ∧ ∀ s, f s = f s0 := by
  have hd : a.doms = [] := by simp [ha.doms, hv]
  have hl := ha.len
  rw [hd, List.prod_nil] at hl
  obtain ⟨x, hx⟩ := List.length_eq_one_iff.1 hl
  have hall : ∀ s, f s = x := by
    intro s
    have := ha.val s
    rw [hv, hd, hx] at this
    simpa [vproj, indexOfState] using this.symm
  refine ⟨by simp [ha.ctx, hv], hd, by rw [hx, hall s0], fun s => by rw [hall, hall]⟩

/-- **C39, operations.** If the tables of `a` and `b` represent the functions `f` and `g` of the state,
the result represents the function that applies the operation in each state; the operation is rejected
exactly when it has no result in some state. -/
theorem C39_binop (s0 : FSt n dom) (op : IntOp) (a b : IntFmla n) (f g : FSt n dom → ℤ)
    (ha : Denotes a f) (hb : Denotes b g) :
    (∀ r, a.binop op b = some r → ∃ h : FSt n dom → ℤ, Denotes r h ∧ ∀ s, OpVal op (f s) (g s) (h s)) ∧
    (a.binop op b = none ↔ ∃ s : FSt n dom, ¬ ∃ z, OpVal op (f s) (g s) z) := by
  have hno : ∀ x y, op.eval x y = none ↔ ¬ ∃ z, OpVal op x y z := by
    intro x y
    simp only [← opVal_iff]
    cases op.eval x y <;> simp
  by_cases hv : a.vbls = [] ∧ b.vbls = []
  · obtain ⟨a1, a2, a3, a4⟩ := denotes_const s0 ha hv.1
    obtain ⟨b1, b2, b3, b4⟩ := denotes_const s0 hb hv.2
    rw [binop_sets op hv.1 hv.2 a1 b1 (by simp [a3]) (by simp [b3]), a2, a3, b2, b3]
    simp only [List.flatMap_cons, List.flatMap_nil, List.map_cons, List.map_nil, List.append_nil,
      List.mapM_cons, List.mapM_nil]
    have hex : (∃ s : FSt n dom, ¬ ∃ z, OpVal op (f s) (g s) z) ↔ ¬ ∃ z, OpVal op (f s0) (g s0) z := by
      constructor
      · rintro ⟨s, hs⟩; rw [a4, b4] at hs; exact hs
      · intro h; exact ⟨s0, h⟩
    rw [hex, ← hno]
    cases he : op.eval (f s0) (g s0) with
    | none => simp
    | some z =>
      simp only [Option.bind_eq_bind, Option.bind_some, Option.pure_def, Option.map_some,
        Option.some.injEq, reduceCtorEq, iff_self, and_true]
      rintro r rfl
      refine ⟨fun _ => z, ⟨rfl, by simp, by simp, by simp, fun s => by simp [vproj, indexOfState]⟩, fun s => ?_⟩
      rw [a4, b4]
      exact (opVal_iff _ _ _ _).1 he
  · obtain ⟨h1, h2⟩ := binop_vbls s0 op ha hb hv
    refine ⟨fun r hr => ?_, ?_⟩
    · obtain ⟨-, h, hh1, hh2⟩ := h1 r hr
      exact ⟨h, hh1, fun s => (opVal_iff _ _ _ _).1 (hh2 s)⟩
    · rw [h2]
      exact exists_congr fun s => hno _ _

/-- **C39, comparisons.** A comparison is exactly the set of states in which it holds. -/
theorem C39_cmp (s0 : FSt n dom) (lt eq gt : Bool) (a b : IntFmla n) (f g : FSt n dom → ℤ)
    (ha : Denotes a f) (hb : Denotes b g) :
    ∃ r, a.cmp dom lt eq gt b = some r ∧ ∀ s, s ∈ r ↔
      (lt = true ∧ f s < g s) ∨ (eq = true ∧ f s = g s) ∨ (gt = true ∧ f s > g s) := by
  by_cases hv : a.vbls = [] ∧ b.vbls = []
  · obtain ⟨a1, a2, a3, a4⟩ := denotes_const s0 ha hv.1
    obtain ⟨b1, b2, b3, b4⟩ := denotes_const s0 hb hv.2
    refine ⟨_, cmp_consts lt eq gt hv.1 hv.2 a1 b1 a3 b3, fun s => ?_⟩
    rw [a4 s, b4 s]
    split <;> simp_all
  · exact cmp_vbls s0 lt eq gt ha hb hv

/-- **C39, negation and leaves.** -/
theorem C39_negate (a : IntFmla n) (f : FSt n dom → ℤ) (ha : Denotes a f) :
    Denotes a.negate fun s => - f s :=
  ⟨ha.ctx, ha.nodup, ha.doms, by simpa [IntFmla.negate] using ha.len, fun s => by
    simp only [IntFmla.negate, List.getElem?_map, ha.val s, Option.map_some]⟩

theorem C39_leaves (v : Fin n) (x : ℤ) :
    Denotes (IntFmla.ofVbl dom v) (fun s : FSt n dom => ((s v).val : ℤ)) ∧
    Denotes (IntFmla.ofInt x : IntFmla n) (fun _ : FSt n dom => x) := by
  refine ⟨⟨rfl, by simp [IntFmla.ofVbl], rfl, by simp [IntFmla.ofVbl], fun s => ?_⟩,
    ⟨rfl, by simp [IntFmla.ofInt], rfl, by simp [IntFmla.ofInt], fun s => by
      simp [IntFmla.ofInt, vproj, indexOfState]⟩⟩
  have : indexOfState (vproj s [v]) [dom v] = (s v).val := by simp [indexOfState, vproj]
  simp only [IntFmla.ofVbl, this]
  simp [(s v).isLt]

/-- **C39, sets.** Expressions without variables may be sets of numbers; an operation on two sets
gives the results for all pairs, in the order of the first operand, and is rejected exactly when some pair
has no result.  Comparing sets with more than one element is rejected. -/
theorem C39_sets (op : IntOp) (a b : IntFmla n) (ha : a.vbls = []) (hb : b.vbls = [])
    (hca : a.ctx = false) (hcb : b.ctx = false) (hna : a.stateMap ≠ []) (hnb : b.stateMap ≠ []) :
    (∀ r, a.binop op b = some r → r.vbls = [] ∧
      List.Forall₂ (fun p z => OpVal op p.1 p.2 z)
        (a.stateMap.flatMap fun x => b.stateMap.map fun y => (x, y)) r.stateMap) ∧
    (a.binop op b = none ↔ ∃ x ∈ a.stateMap, ∃ y ∈ b.stateMap, ¬ ∃ z, OpVal op x y z) ∧
    (∀ lt eq gt, a.stateMap.length ≠ 1 ∨ b.stateMap.length ≠ 1 → a.cmp dom lt eq gt b = none) := by
  rw [binop_sets op ha hb hca hcb hna hnb]
  refine ⟨?_, ?_, fun lt eq gt h => ?_⟩
  · intro r hr
    cases hm : ((a.stateMap.flatMap fun x => b.stateMap.map fun y => (x, y)).mapM
      fun p => op.eval p.1 p.2) with
    | none => simp [hm] at hr
    | some m =>
      simp only [hm, Option.map_some, Option.some.injEq] at hr
      subst hr
      refine ⟨rfl, ?_⟩
      obtain ⟨hl, hg⟩ := mapM_getElem hm
      rw [List.forall₂_iff_get]
      refine ⟨hl.symm, fun i h1 h2 => ?_⟩
      have := hg i h1
      rw [List.getElem?_eq_getElem h2] at this
      exact (opVal_iff _ _ _ _).1 this
  · rw [Option.map_eq_none_iff, mapM_eq_none]
    have hno : ∀ x y, op.eval x y = none ↔ ¬ ∃ z, OpVal op x y z := by
      intro x y
      simp only [← opVal_iff]
      cases op.eval x y <;> simp
    constructor
    · rintro ⟨p, hp, hn⟩
      obtain ⟨x, hx, hp⟩ := List.mem_flatMap.1 hp
      obtain ⟨y, hy, rfl⟩ := List.mem_map.1 hp
      exact ⟨x, hx, y, hy, (hno _ _).1 hn⟩
    · rintro ⟨x, hx, y, hy, hn⟩
      exact ⟨(x, y), List.mem_flatMap.2 ⟨x, hx, List.mem_map.2 ⟨y, hy, rfl⟩⟩, (hno _ _).2 hn⟩
  · unfold IntFmla.cmp
    rw [if_pos ⟨ha, hb, h⟩]

/-- **C39, assignments.** `a.img_eq(b)` is exactly the set of pairs of states in which `a` has in the
second state the value of `b` in the first one. -/
theorem C39_img_eq (s0 : FSt n dom) (a b : IntFmla n) (f g : FSt n dom → ℤ)
    (ha : Denotes a f) (hb : Denotes b g) :
    ∀ fuel, a.stateMap.length + b.stateMap.length < fuel →
    ∃ r, a.imgEq dom fuel b = some r ∧ ∀ s s', (s, s') ∈ r ↔ f s' = g s := by
  intro fuel hfuel
  unfold IntFmla.imgEq
  by_cases hv : a.vbls = []
  · obtain ⟨p, hp1, hp2⟩ := C39_cmp s0 false true false a b f g ha hb
    rw [if_pos hv, hp1]
    refine ⟨_, rfl, fun s s' => ?_⟩
    obtain ⟨-, -, -, a4⟩ := denotes_const s0 ha hv
    simp only [Finset.mem_product, Finset.mem_univ, and_true, hp2]
    simp [a4 s, a4 s']
  · rw [if_neg hv, if_neg (by simp [ha.doms, hb.doms])]
    obtain ⟨hA, hlA⟩ := inverseMap_spec a.stateMap
    obtain ⟨hB, hlB⟩ := inverseMap_spec b.stateMap
    have hkA : ∀ k, k ∈ (inverseMap a.stateMap).map Prod.fst ↔ ∃ s, f s = k := by
      intro k
      constructor
      · intro hk
        obtain ⟨⟨k', l⟩, hm, rfl⟩ := List.mem_map.1 hk
        have hne : l ≠ [] := by
          have hgen : ∀ (ps : List (ℤ × ℕ)) (m : List (ℤ × List ℕ)), (∀ p ∈ m, p.2 ≠ []) →
              ∀ p ∈ ps.foldl (fun m p => mapPush p.1 p.2 m) m, p.2 ≠ [] := by
            intro ps
            induction ps with
            | nil => intro m h; exact h
            | cons q ps ih =>
              intro m h
              refine ih _ ?_
              clear ih
              induction m with
              | nil => simp [mapPush]
              | cons r m ih =>
                obtain ⟨k0, l0⟩ := r
                have h0 := h (k0, l0) (by simp)
                have ih := ih fun p hp => h p (by simp [hp])
                simp only [mapPush]
                split
                · intro p hp
                  rcases List.mem_cons.1 hp with rfl | hp
                  · simp
                  · exact h p hp
                · split
                  · intro p hp
                    rcases List.mem_cons.1 hp with rfl | hp
                    · exact h0
                    · exact ih p hp
                  · intro p hp
                    rcases List.mem_cons.1 hp with rfl | hp
                    · simp
                    · exact h p (by simp [hp])
          exact hgen _ [] (by simp) _ hm
        obtain ⟨i, hi⟩ := List.exists_mem_of_ne_nil _ hne
        have h1 := (hlA k' i).1 ⟨l, hm, hi⟩
        obtain ⟨s, -, -, e3⟩ := stateMap_get s0 ha (List.getElem?_eq_some_iff.1 h1).1
        refine ⟨s, ?_⟩
        rw [h1] at e3
        exact (Option.some.inj e3).symm
      · rintro ⟨s, rfl⟩
        obtain ⟨l, hm, -⟩ := (hlA _ _).2 (ha.val s)
        exact List.mem_map.2 ⟨_, hm, rfl⟩
    have hkB : ∀ s, g s ∈ (inverseMap b.stateMap).map Prod.fst := by
      intro s
      obtain ⟨l, hm, -⟩ := (hlB _ _).2 (hb.val s)
      exact List.mem_map.2 ⟨_, hm, rfl⟩
    have hlenle : ∀ l : List ℤ, (inverseMap l).length ≤ l.length := by
      intro l
      have hgen : ∀ (ps : List (ℤ × ℕ)) (m : List (ℤ × List ℕ)),
          (ps.foldl (fun m p => mapPush p.1 p.2 m) m).length ≤ m.length + ps.length := by
        intro ps
        induction ps with
        | nil => simp
        | cons q ps ih =>
          intro m
          have h1 : ∀ m : List (ℤ × List ℕ), (mapPush q.1 q.2 m).length ≤ m.length + 1 := by
            intro m
            induction m with
            | nil => simp [mapPush]
            | cons r m ih =>
              obtain ⟨k0, l0⟩ := r
              simp only [mapPush]
              split
              · simp
              · split
                · simpa using ih
                · simp
          have := ih (mapPush q.1 q.2 m)
          have := h1 m
          rw [List.foldl_cons, List.length_cons]
          omega
      have := hgen l.zipIdx []
      simpa [inverseMap] using this
    generalize hBB : inverseMap b.stateMap = B at *
    cases B with
    | nil => exact absurd (hkB s0) (by simp)
    | cons p tb =>
      obtain ⟨kb, ib⟩ := p
      simp only
      obtain ⟨r, hr1, hr2⟩ := imgEq_loop a b hA hB
        (fun k => Finset.univ.filter fun x : FSt n dom × FSt n dom => f x.2 = k ∧ g x.1 = k)
        (by
          intro k la lb hla hlb
          ext ⟨x, y⟩
          rw [← hBB] at hlb
          simp only [Finset.mem_filter, Finset.mem_univ, true_and, Finset.mem_product,
            mem_statesOfIdcs_iff ha hla, mem_statesOfIdcs_iff hb hlb]
          tauto) fuel
        (lowerBound (inverseMap a.stateMap) kb, (kb, ib) :: tb, ∅)
        ⟨List.dropWhile_suffix _, List.suffix_rfl, by simp, fun k h1 h2 => .inr ⟨lowerBound_mem hA (by
          rcases List.mem_cons.1 h2 with h | h
          · simp at h; omega
          · obtain ⟨z, hz, rfl⟩ := List.mem_map.1 h
            exact le_of_lt ((List.pairwise_cons.1 hB).1 z hz)) h1, h2⟩⟩
        (by
          have e1 := hlenle a.stateMap
          have e2 := hlenle b.stateMap
          rw [hBB] at e2
          have e3 := (List.dropWhile_suffix (l := inverseMap a.stateMap) fun p => decide (p.1 < kb)).length_le
          simp only [lowerBound]
          omega)
      refine ⟨r, hr1, fun s s' => ?_⟩
      rw [hr2]
      simp only [Finset.mem_filter, Finset.mem_univ, true_and]
      constructor
      · rintro ⟨k, -, h1, h2⟩; rw [h1, h2]
      · intro h
        exact ⟨f s', ⟨(hkA _).2 ⟨s', rfl⟩, by rw [h]; exact hkB s⟩, rfl, h.symm⟩

/-! ### Concrete cases: two variables with values below 3 and 2 -/

def exDom : Fin 2 → ℕ := ![3, 2]

def exState : FSt 2 exDom := fun i => ⟨0, by fin_cases i <;> decide⟩

/-- `x0 * 2 + x1` -/
example : ((IntFmla.ofVbl exDom 0).binop .mul (.ofInt 2)).bind (·.binop .add (IntFmla.ofVbl exDom 1)) =
    some ⟨true, [0, 1], [3, 2], [0, 1, 2, 3, 4, 5]⟩ := by decide

/-- `x1 - x0`: the tables are merged in the order of the operands. -/
example : (IntFmla.ofVbl exDom 1).binop .sub (IntFmla.ofVbl exDom 0) =
    some ⟨true, [1, 0], [2, 3], [0, -1, -2, 1, 0, -1]⟩ := by decide

/-- `6 / x0` is rejected, `6 / (x0 + 1)` is not. -/
example : ((IntFmla.ofInt 6).binop .div (IntFmla.ofVbl exDom 0)) = none ∧
    (((IntFmla.ofVbl exDom 0).binop .add (.ofInt 1)).bind fun y => (IntFmla.ofInt 6).binop .div y) =
      some ⟨true, [0], [3], [6, 3, 2]⟩ := by decide

example : ∃ r, (IntFmla.ofVbl exDom 0).cmp exDom true false false (IntFmla.ofVbl exDom 1) = some r ∧
    ∀ s : FSt 2 exDom, s ∈ r ↔ ((s 0).val : ℤ) < (s 1).val := by
  obtain ⟨r, h1, h2⟩ := C39_cmp exState true false false (IntFmla.ofVbl exDom 0) (IntFmla.ofVbl exDom 1) _ _
    (C39_leaves 0 0).1 (C39_leaves 1 0).1
  exact ⟨r, h1, fun s => by rw [h2]; simp⟩

/-- `x0' == x1`: all pairs in which the new value of the first variable is the old value of the second. -/
example : ∃ r, (IntFmla.ofVbl exDom 0).imgEq exDom 6 (IntFmla.ofVbl exDom 1) = some r ∧
    ∀ s s' : FSt 2 exDom, (s, s') ∈ r ↔ ((s' 0).val : ℤ) = (s 1).val :=
  C39_img_eq exState _ _ _ _ (C39_leaves 0 0).1 (C39_leaves 1 0).1 6 (by decide)

/-- Sets: `{0,1} + {0,1,2}`. -/
example : (IntFmla.ofSet 1 0 2 : IntFmla 2).binop .add (.ofSet 1 0 3) =
    some ⟨false, [], [2, 3], [0, 1, 2, 1, 2, 3]⟩ := by decide

end Verif.Props
