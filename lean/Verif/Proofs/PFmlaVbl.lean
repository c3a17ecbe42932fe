import Verif.Proofs.PFmlaGlu

/-! Proofs about variables and picking states. -/

set_option linter.unusedSectionVars false

namespace Verif.Proofs
open Verif.Model Verif.Spec

variable {n : ℕ} {dom : Fin n → ℕ}

theorem mem_eqc (a : Fin n) (x : ℕ) (e : Env n dom) : e ∈ eqc a x ↔ (e .pre a).val = x := by
  unfold eqc
  split
  · have := (e .pre a).isLt
    constructor
    · intro h; simp at h
    · intro h; omega
  · simp

theorem mem_imgEqc (a : Fin n) (x : ℕ) (e : Env n dom) : e ∈ imgEqc a x ↔ (e .img a).val = x % dom a := by
  unfold imgEqc
  simp only [Finset.mem_filter, Finset.mem_univ, true_and]
  split
  · rfl
  · rename_i h; rw [Nat.mod_eq_of_lt (by omega)]

theorem mem_foldl_or (F : ℕ → Mdd n dom) (l : List ℕ) (S : Mdd n dom) (e : Env n dom) :
    e ∈ l.foldl (fun dst i => dst ∪ F i) S ↔ e ∈ S ∨ ∃ i ∈ l, e ∈ F i := by
  induction l generalizing S with
  | nil => simp
  | cons i l ih => simp [ih, or_assoc]

theorem pickVal_spec (a conj : Mdd n dom) (i : Fin n) (h : (conj ∩ a).Nonempty) :
    (∃ e ∈ conj ∩ a, (e .pre i).val = pickVal a conj i) ∧ ∀ e ∈ conj ∩ a, pickVal a conj i ≤ (e .pre i).val := by
  have key : ∀ val, conj ∩ eqc i val ∩ a ≠ ∅ ↔ ∃ e ∈ conj ∩ a, (e .pre i).val = val := by
    intro val
    rw [← Finset.nonempty_iff_ne_empty]
    constructor
    · rintro ⟨e, he⟩
      simp only [Finset.mem_inter, mem_eqc] at he
      exact ⟨e, by simp [he], he.1.2⟩
    · rintro ⟨e, he, hv⟩
      refine ⟨e, ?_⟩
      simp only [Finset.mem_inter, mem_eqc] at he ⊢
      exact ⟨⟨he.1, hv⟩, he.2⟩
  unfold pickVal
  cases hf : (List.range (dom i - 1)).find? fun val => decide (conj ∩ eqc i val ∩ a ≠ ∅) with
  | none =>
    simp only [List.find?_eq_none, decide_eq_true_eq, List.mem_range, key] at hf
    have hle : ∀ e ∈ conj ∩ a, dom i - 1 ≤ (e .pre i).val := by
      intro e he
      by_contra hlt
      exact hf _ (by omega) ⟨e, he, rfl⟩
    refine ⟨?_, hle⟩
    obtain ⟨e, he⟩ := h
    refine ⟨e, he, ?_⟩
    have := hle e he
    have := (e .pre i).isLt
    simp only [Option.getD_none]; omega
  | some v =>
    simp only [Option.getD_some]
    have h1 := List.find?_some hf
    simp only [decide_eq_true_eq, key] at h1
    refine ⟨h1, fun e he => ?_⟩
    by_contra hlt
    obtain ⟨-, as, bs, hl, hno⟩ := List.find?_eq_some_iff_append.1 hf
    have hv : v < dom i - 1 := by
      have : v ∈ List.range (dom i - 1) := by rw [hl]; simp
      simpa using this
    have hmem : (e .pre i).val ∈ as ++ v :: bs := by rw [← hl]; simp; omega
    have hlen : as = List.range v := by
      have h0 : as.length < (List.range (dom i - 1)).length := by rw [hl]; simp
      have h2 : (List.range (dom i - 1))[as.length]? = some v := by rw [hl]; simp
      rw [List.length_range] at h0
      rw [List.getElem?_range h0] at h2
      simp only [Option.some.injEq] at h2
      have h3 : (List.range (dom i - 1)).take as.length = as := by rw [hl]; simp
      rw [← h3, List.take_range, h2]
      congr 1; omega
    have : (e .pre i).val ∈ as := by rw [hlen]; simp; omega
    have := hno _ this
    simp only [Bool.not_eq_true', decide_eq_false_iff_not, key] at this
    exact this ⟨e, he, rfl⟩

theorem lexLe_length {l m : List ℕ} (h : LexLe l m) : l.length = m.length := by
  induction h with
  | nil => rfl
  | lt _ h => simp [h]
  | eq _ ih => simp [ih]

theorem stateLoop_spec (a : Mdd n dom) (l : List (Fin n)) (conj : Mdd n dom) :
    (stateLoop a l conj).1.length = l.length ∧
    (∀ e, e ∈ (stateLoop a l conj).2 ↔ e ∈ conj ∧ valsOf l (e .pre) = (stateLoop a l conj).1) ∧
    ((conj ∩ a).Nonempty → (∃ e ∈ conj ∩ a, valsOf l (e .pre) = (stateLoop a l conj).1) ∧
      ∀ e ∈ conj ∩ a, LexLe (stateLoop a l conj).1 (valsOf l (e .pre))) := by
  induction l generalizing conj with
  | nil =>
    refine ⟨rfl, fun e => by simp [stateLoop, valsOf], fun ⟨e, he⟩ => ⟨⟨e, he, rfl⟩, fun e _ => LexLe.nil⟩⟩
  | cons i l ih =>
    obtain ⟨g1, g2, g3⟩ := ih (conj ∩ eqc i (pickVal a conj i))
    refine ⟨by simp [stateLoop, g1], fun e => ?_, fun h => ?_⟩
    · simp only [stateLoop, g2, Finset.mem_inter, mem_eqc, valsOf, List.map_cons, List.cons.injEq]
      tauto
    · obtain ⟨⟨e0, he0, hv0⟩, hmin⟩ := pickVal_spec a conj i h
      have hne : (conj ∩ eqc i (pickVal a conj i) ∩ a).Nonempty := by
        refine ⟨e0, ?_⟩
        simp only [Finset.mem_inter, mem_eqc] at he0 ⊢
        exact ⟨⟨he0.1, hv0⟩, he0.2⟩
      obtain ⟨⟨e, he, hv⟩, hall⟩ := g3 hne
      refine ⟨⟨e, ?_, ?_⟩, fun e' he' => ?_⟩
      · simp only [Finset.mem_inter] at he ⊢; exact ⟨he.1.1, he.2⟩
      · simp only [Finset.mem_inter, mem_eqc] at he
        simp only [stateLoop, valsOf, List.map_cons, List.cons.injEq]
        exact ⟨he.1.2, hv⟩
      · rcases Nat.lt_or_eq_of_le (hmin e' he') with hlt | heq
        · exact LexLe.lt hlt (by rw [g1]; simp)
        · simp only [stateLoop, valsOf, List.map_cons]
          rw [← heq]
          refine LexLe.eq (hall e' ?_)
          simp only [Finset.mem_inter, mem_eqc] at he' ⊢
          exact ⟨⟨he'.1, heq.symm⟩, he'.2⟩

theorem stateLoop_empty (l : List (Fin n)) (conj : Mdd n dom) :
    (stateLoop ∅ l conj).1 = l.map fun i => dom i - 1 := by
  induction l generalizing conj with
  | nil => rfl
  | cons i l ih =>
    have : pickVal ∅ conj i = dom i - 1 := by
      unfold pickVal
      rw [List.find?_eq_none.2 (by simp)]; rfl
    simp [stateLoop, ih, this]

end Verif.Proofs
