import Verif.Model.Params
import Mathlib.Data.List.Forall2
import Mathlib.Algebra.BigOperators.Group.List.Basic
import Mathlib.Tactic.Ring

/-!
C121: the instances of a parameterized system.
-/

namespace Verif.Props

open Verif.Model

theorem rangeLoop_up : ∀ (k fuel : ℕ) (v d : ℤ), d ≠ 0 → k < fuel →
    rangeLoop (v + k * d) d fuel v = some ((List.range k).map fun i : ℕ => v + i * d)
  | 0, fuel + 1, v, d, _, _ => by simp [rangeLoop]
  | k + 1, fuel + 1, v, d, hd, h => by
    have hne : ¬v = v + ((k + 1 : ℕ) : ℤ) * d := by
      intro e
      have : ((k + 1 : ℕ) : ℤ) * d = 0 := by omega
      rcases mul_eq_zero.1 this with h1 | h1
      · omega
      · exact hd h1
    have e : v + ((k + 1 : ℕ) : ℤ) * d = (v + d) + k * d := by push_cast; ring
    rw [rangeLoop, if_neg hne, e, rangeLoop_up k fuel (v + d) d hd (by omega), Option.map_some, List.range_succ_eq_map,
      List.map_cons, List.map_map]
    congr 1
    simp only [Nat.cast_zero, zero_mul, add_zero, List.cons.injEq, true_and]
    refine List.map_congr_left fun i _ => ?_
    simp only [Function.comp]
    push_cast
    ring

/-- **C121**, ranges: a range has all numbers between its ends, once each, upwards or downwards from the first. -/
theorem C121_range (a b : ℤ) : ∃ l, rangeVals a b = some l ∧ l.length = (b - a).natAbs + 1 ∧
    ∀ i : ℕ, i ≤ (b - a).natAbs → l[i]? = some (if a < b then a + i else a - i) := by
  by_cases h : a < b
  · have e : b + 1 = a + (((b - a).natAbs + 1 : ℕ) : ℤ) * 1 := by omega
    refine ⟨_, by rw [rangeVals]; simp only [h, if_true]; rw [e, rangeLoop_up _ _ _ _ (by omega) (by omega)], by simp, ?_⟩
    intro i hi
    simp [h, Nat.lt_succ_of_le hi]
  · have e : b + -1 = a + (((b - a).natAbs + 1 : ℕ) : ℤ) * (-1) := by omega
    refine ⟨_, by rw [rangeVals]; simp only [h, if_false]; rw [e, rangeLoop_up _ _ _ _ (by omega) (by omega)], by simp, ?_⟩
    intro i hi
    simp only [h, if_false, List.getElem?_map, List.getElem?_range (Nat.lt_succ_of_le hi), Option.map_some, Option.some.injEq]
    ring

/-- `e` is the parameter `d` with one of its values; a list in parentheses is one value. -/
def IsChoice (e d : String × ParamVal) : Prop :=
  e.1 = d.1 ∧ e.2.scalar = d.2.scalar ∧
    if d.2.scalar = true then ∃ i v, d.2.membs[i]? = some v ∧ e.2.membs = [v] ∧ e.2.expr = if i = 0 then d.2.expr else [v]
    else e.2 = d.2

/-- `IsChoice` as the loop makes it. -/
def LoopChoice (e d : String × ParamVal) : Prop :=
  e = (d.1, firstVal d.2) ∨ (d.2.scalar = true ∧ ∃ v ∈ d.2.membs.drop 1, e = (d.1, ParamVal.ofInt v))

theorem loopChoice_iff {e d : String × ParamVal} (hd : d.2.scalar = true → d.2.membs ≠ []) :
    LoopChoice e d ↔ IsChoice e d := by
  obtain ⟨ek, em, ee, es⟩ := e
  obtain ⟨dk, dm, de, ds⟩ := d
  cases ds with
  | false =>
    simp only [LoopChoice, IsChoice, firstVal, Bool.false_eq_true, if_false, false_and, or_false, Prod.mk.injEq,
      ParamVal.mk.injEq]
    tauto
  | true =>
    obtain ⟨x, xs, rfl⟩ : ∃ x xs, dm = x :: xs := List.exists_cons_of_ne_nil (hd rfl)
    simp only [LoopChoice, IsChoice, firstVal, if_true, true_and, Prod.mk.injEq, ParamVal.mk.injEq, List.headD_cons,
      List.drop_succ_cons, List.drop_zero, ParamVal.ofInt]
    constructor
    · rintro (⟨rfl, rfl, rfl, rfl⟩ | ⟨v, hv, rfl, rfl, rfl, rfl⟩)
      · exact ⟨rfl, rfl, 0, x, by simp⟩
      · obtain ⟨i, hi, rfl⟩ := List.getElem_of_mem hv
        exact ⟨rfl, rfl, i + 1, xs[i], by simp⟩
    · rintro ⟨rfl, rfl, i, v, hv, rfl, rfl⟩
      cases i with
      | zero =>
        left
        simp at hv
        simp [hv]
      | succ i =>
        right
        refine ⟨v, ?_, by simp⟩
        simp at hv
        exact List.mem_of_getElem? hv

theorem setConst_append {key : String} {v : ℤ} {a b : ParamMap} {t : ParamVal} (ha : key ∉ a.map Prod.fst)
    (hb : key ∉ b.map Prod.fst) : setConst key v (a ++ (key, t) :: b) = a ++ (key, ParamVal.ofInt v) :: b := by
  have h : ∀ c : ParamMap, key ∉ c.map Prod.fst → setConst key v c = c := by
    intro c hc
    rw [setConst]
    conv_rhs => rw [← List.map_id c]
    refine List.map_congr_left fun e he => ?_
    have hk : ¬e.1 = key := fun hk => hc (List.mem_map.2 ⟨e, he, hk⟩)
    rw [if_neg hk]
    rfl
  have h1 := h a ha
  have h2 := h b hb
  simp only [setConst] at h1 h2 ⊢
  simp [h1, h2]

theorem choice_keys {a p : ParamMap} (h : List.Forall₂ LoopChoice a p) : a.map Prod.fst = p.map Prod.fst := by
  induction h with
  | nil => rfl
  | cons h _ ih =>
    rw [List.map_cons, List.map_cons, ih]
    rcases h with rfl | ⟨-, v, -, rfl⟩ <;> rfl

/-- The first values of the parameters that the loop has not reached. -/
def firsts (q : ParamMap) : ParamMap := q.map fun e => (e.1, firstVal e.2)

theorem push_loop : ∀ (q p : ParamMap) (cur : List ParamMap), ((p ++ q).map Prod.fst).Nodup →
    (∀ m, m ∈ cur ↔ ∃ a, List.Forall₂ LoopChoice a p ∧ m = a ++ firsts q) →
    ∀ m, m ∈ q.foldl pushParam cur ↔ List.Forall₂ LoopChoice m (p ++ q)
  | [], p, cur, _, h, m => by simp [h, firsts]
  | d :: q, p, cur, hn, h, m => by
    rw [List.foldl_cons, show p ++ d :: q = (p ++ [d]) ++ q by simp]
    refine push_loop q (p ++ [d]) _ (by simpa using hn) (fun m => ?_) m
    have hkeys : d.1 ∉ p.map Prod.fst ∧ d.1 ∉ (firsts q).map Prod.fst := by
      rw [List.map_append, List.map_cons, List.nodup_append] at hn
      obtain ⟨-, h2, h3⟩ := hn
      refine ⟨fun hp => h3 _ hp _ List.mem_cons_self rfl, fun hq => (List.nodup_cons.1 h2).1 ?_⟩
      simpa [firsts, Function.comp] using hq
    have happ : ∀ m, (∃ a, List.Forall₂ LoopChoice a (p ++ [d]) ∧ m = a ++ firsts q) ↔
        ∃ a e, List.Forall₂ LoopChoice a p ∧ LoopChoice e d ∧ m = a ++ e :: firsts q := by
      intro m
      constructor
      · rintro ⟨a, ha, rfl⟩
        have h1 := List.forall₂_take_append _ _ _ ha
        have h2 := List.forall₂_drop_append _ _ _ ha
        obtain ⟨e, l, he, hl, hel⟩ := List.forall₂_cons_right_iff.1 h2
        obtain rfl := List.forall₂_nil_right_iff.1 hl
        refine ⟨_, e, h1, he, ?_⟩
        conv_lhs => rw [← List.take_append_drop p.length a, hel]
        simp
      · rintro ⟨a, e, ha, he, rfl⟩
        exact ⟨a ++ [e], List.rel_append ha (.cons he .nil), by simp⟩
    rw [happ]
    have hf : ∀ a, a ++ firsts (d :: q) = a ++ (d.1, firstVal d.2) :: firsts q := fun a => rfl
    rw [pushParam]
    split_ifs with hs
    · simp only [List.mem_append, List.mem_flatMap, List.mem_map, h, hf]
      constructor
      · rintro (⟨a, ha, rfl⟩ | ⟨v, hv, _, ⟨a, ha, rfl⟩, rfl⟩)
        · exact ⟨a, _, ha, .inl rfl, rfl⟩
        · refine ⟨a, (d.1, ParamVal.ofInt v), ha, .inr ⟨hs, v, hv, rfl⟩, ?_⟩
          exact setConst_append (by rw [choice_keys ha]; exact hkeys.1) hkeys.2
      · rintro ⟨a, e, ha, rfl | ⟨-, v, hv, rfl⟩, rfl⟩
        · exact .inl ⟨a, ha, rfl⟩
        · refine .inr ⟨v, hv, _, ⟨a, ha, rfl⟩, ?_⟩
          exact setConst_append (by rw [choice_keys ha]; exact hkeys.1) hkeys.2
    · simp only [h, hf]
      constructor
      · rintro ⟨a, ha, rfl⟩
        exact ⟨a, _, ha, .inl rfl, rfl⟩
      · rintro ⟨a, e, ha, rfl | ⟨h', -⟩, rfl⟩
        · exact ⟨a, ha, rfl⟩
        · exact absurd h' hs

theorem push_length : ∀ (q : ParamMap) (cur : List ParamMap), (∀ d ∈ q, d.2.scalar = true → d.2.membs ≠ []) →
    (q.foldl pushParam cur).length = cur.length * (q.map fun d => if d.2.scalar then d.2.membs.length else 1).prod
  | [], cur, _ => by simp
  | d :: q, cur, h => by
    rw [List.foldl_cons, push_length q _ fun e he => h e (List.mem_cons_of_mem _ he), List.map_cons, List.prod_cons,
      ← Nat.mul_assoc]
    congr 1
    rw [pushParam]
    split_ifs with hs
    · have : 0 < d.2.membs.length := List.length_pos_iff.2 (h d List.mem_cons_self hs)
      simp only [List.length_append, List.length_flatMap, List.length_map, List.map_const', List.sum_replicate,
        List.length_drop]
      obtain ⟨k, hk⟩ : ∃ k, d.2.membs.length = k + 1 := ⟨d.2.membs.length - 1, by omega⟩
      rw [hk]
      simp
      ring
    · simp

/-- **C121**, instances: the instances so far are kept; the new ones are exactly the choices of one value for each
parameter that is a number, and their number is the product of the numbers of values.  The text of the first value of a
parameter is that of all its values (`expr` in `IsChoice`), so that the full statement, in which the text of a value is
the value, is false (`C121_text`). -/
theorem C121_instances_partial (instances : List ParamMap) (instdef : ParamMap) (hn : (instdef.map Prod.fst).Nodup)
    (hv : ∀ d ∈ instdef, d.2.scalar = true → d.2.membs ≠ []) :
    ∃ l, pushInstances instances instdef = instances ++ l ∧ (∀ m, m ∈ l ↔ List.Forall₂ IsChoice m instdef) ∧
      l.length = (instdef.map fun d => if d.2.scalar then d.2.membs.length else 1).prod := by
  refine ⟨_, rfl, fun m => ?_, ?_⟩
  · rw [push_loop instdef [] _ (by simpa using hn) (fun m => by simp [firsts])]
    rw [List.nil_append]
    constructor
    · intro h
      exact (List.forall₂_iff_get.2 ⟨h.length_eq, fun i h1 h2 =>
        (loopChoice_iff (hv _ (List.get_mem _ _))).1 (h.get h1 h2)⟩)
    · intro h
      exact (List.forall₂_iff_get.2 ⟨h.length_eq, fun i h1 h2 =>
        (loopChoice_iff (hv _ (List.get_mem _ _))).2 (h.get h1 h2)⟩)
  · rw [push_length _ _ hv]
    simp

/-- **C121** fails for the text: for `-param N 3..4` the constant of the first instance is 3, but its text, which
`oput_protocon_constants` writes (src/prot-ofile.cc:14-17), is `(3,4)`. -/
theorem C121_text : rangeVals 3 4 = some [3, 4] ∧
    pushInstances [] [("N", ⟨[3, 4], [3, 4], true⟩)] =
      [[("N", ⟨[3], [3, 4], true⟩)], [("N", ⟨[4], [4], true⟩)]] := by decide

/-- Two parameters with two values each and a list, after one instance. -/
example : rangeVals 2 0 = some [2, 1, 0] ∧
    (pushInstances [[]] [("M", ⟨[0, 1], [0, 1], true⟩), ("N", ⟨[3, 4], [3, 4], true⟩), ("P", ⟨[5, 6], [5, 6], false⟩)]).map
      (fun m => m.map fun e => e.2.membs) =
      [[], [[0], [3], [5, 6]], [[1], [3], [5, 6]], [[0], [4], [5, 6]], [[1], [4], [5, 6]]] := by decide

end Verif.Props
