import Verif.Proofs.GenBase
import Mathlib.Data.Finset.Card
import Mathlib.Data.List.Chain

/-! The depth-first search for a closed walk, `cycle_ck_from`. -/

set_option linter.unusedSectionVars false

namespace Verif.Proofs
open Verif.Model Verif.Spec

theorem mem_arcsOf {arcs : List (ℕ × ℕ)} {x y : ℕ} : y ∈ arcsOf arcs x ↔ (x, y) ∈ arcs := by
  simp only [arcsOf, List.mem_map, List.mem_filter, decide_eq_true_eq]
  constructor
  · rintro ⟨⟨a, b⟩, ⟨h, rfl⟩, rfl⟩; exact h
  · intro h; exact ⟨_, ⟨h, rfl⟩, rfl⟩

theorem nextArc_none {vis : Finset ℕ} {i : ℕ} {l : List ℕ} (h : nextArc vis i l = none) : ∀ y ∈ l, y ∈ vis := by
  induction l generalizing i with
  | nil => simp
  | cons x l ih =>
    rw [nextArc] at h
    split at h
    · rename_i hx
      intro y hy
      rcases List.mem_cons.1 hy with rfl | hy
      · exact hx
      · exact ih h y hy
    · cases h

theorem nextArc_some {vis : Finset ℕ} {i k y : ℕ} {l : List ℕ} (h : nextArc vis i l = some (k, y)) :
    i ≤ k ∧ l[k - i]? = some y ∧ y ∉ vis ∧ ∀ j < k - i, ∀ z, l[j]? = some z → z ∈ vis := by
  induction l generalizing i with
  | nil => simp [nextArc] at h
  | cons x l ih =>
    rw [nextArc] at h
    split at h
    · rename_i hx
      obtain ⟨h1, h2, h3, h4⟩ := ih h
      refine ⟨by omega, ?_, h3, fun j hj z hz => ?_⟩
      · rw [show k - i = k - (i + 1) + 1 by omega, List.getElem?_cons_succ]; exact h2
      · rcases j with _ | j
        · simp only [List.getElem?_cons_zero, Option.some.injEq] at hz; subst hz; exact hx
        · exact h4 j (by omega) z (by simpa using hz)
    · rename_i hx
      simp only [Option.some.injEq, Prod.mk.injEq] at h
      obtain ⟨rfl, rfl⟩ := h
      exact ⟨le_rfl, by simp, hx, fun j hj => by omega⟩

/-- Each entry of the stack, top first, was reached by an arc from the one below. -/
def StackChain (arcs : List (ℕ × ℕ)) (init : ℕ) : List (ℕ × ℕ) → Prop
  | [] => True
  | [p] => p.1 = init
  | p :: q :: l => (q.1, p.1) ∈ arcs ∧ StackChain arcs init (q :: l)

theorem StackChain.tail {arcs : List (ℕ × ℕ)} {init : ℕ} {p : ℕ × ℕ} {l : List (ℕ × ℕ)}
    (h : StackChain arcs init (p :: l)) : StackChain arcs init l := by
  cases l with
  | nil => trivial
  | cons q l => exact h.2

theorem StackChain.head {arcs : List (ℕ × ℕ)} {init : ℕ} {x i k : ℕ} {l : List (ℕ × ℕ)}
    (h : StackChain arcs init ((x, i) :: l)) : StackChain arcs init ((x, k) :: l) := by
  cases l with
  | nil => exact h
  | cons q l => exact h

theorem StackChain.walk {arcs : List (ℕ × ℕ)} {init : ℕ} {l : List (ℕ × ℕ)} (h : StackChain arcs init l)
    (h0 : l ≠ []) :
    (l.map Prod.fst).getLast? = some init ∧
      ∀ (i : ℕ) (x y : ℕ), (l.map Prod.fst)[i]? = some y → (l.map Prod.fst)[i + 1]? = some x → (x, y) ∈ arcs := by
  induction l with
  | nil => exact absurd rfl h0
  | cons p l ih =>
    cases l with
    | nil =>
      refine ⟨by simp [show p.1 = init from h], fun i x y h1 h2 => by simp at h2⟩
    | cons q l =>
      obtain ⟨i1, i2⟩ := ih h.2 (by simp)
      refine ⟨by simpa using i1, fun i x y h1 h2 => ?_⟩
      rcases i with _ | i
      · simp only [List.map_cons, List.getElem?_cons_zero, Option.some.injEq, zero_add,
          List.getElem?_cons_succ] at h1 h2
        subst h1 h2; exact h.1
      · exact i2 i x y (by simpa using h1) (by simpa using h2)

/-- Invariant of the search. -/
structure DfsInv (arcs : List (ℕ × ℕ)) (init : ℕ) (st : List (ℕ × ℕ) × Finset ℕ) : Prop where
  chain : StackChain arcs init st.1
  fresh : init ∉ st.2
  done : ∀ x i, (x, i) ∈ st.1 → ∀ j < i, ∀ y, (arcsOf arcs x)[j]? = some y → y ∈ st.2
  closed : ∀ x, x = init ∨ x ∈ st.2 → (∃ i, (x, i) ∈ st.1) ∨ ∀ y, (x, y) ∈ arcs → y ∈ st.2

/-- The remaining work. -/
def dfsWork (arcs : List (ℕ × ℕ)) (st : List (ℕ × ℕ) × Finset ℕ) : ℕ :=
  2 * ((arcs.map Prod.snd).toFinset \ st.2).card + st.1.length

/-- What the search establishes. -/
def DfsPost (arcs : List (ℕ × ℕ)) (init : ℕ) (stack : List (ℕ × ℕ)) : Prop :=
  (stack = [] ∧ ¬ OnClosedWalk (fun x y => (x, y) ∈ arcs) init) ∨
  (StackChain arcs init stack ∧ ∃ p l, stack = p :: l ∧ (p.1, init) ∈ arcs)

theorem dfs_break {arcs : List (ℕ × ℕ)} {init : ℕ} {st : List (ℕ × ℕ) × Finset ℕ} {r : List (ℕ × ℕ)}
    (h : DfsInv arcs init st) (hb : cycleFromBody arcs init st = .inl r) : DfsPost arcs init r := by
  obtain ⟨stack, vis⟩ := st
  unfold cycleFromBody at hb
  cases stack with
  | nil =>
    simp only [Sum.inl.injEq] at hb
    subst hb
    refine .inl ⟨rfl, fun hw => ?_⟩
    have key : ∀ y, Relation.TransGen (fun x y => (x, y) ∈ arcs) init y → y ∈ vis := by
      intro y hy
      induction hy with
      | single e =>
        rcases h.closed init (.inl rfl) with ⟨i, hi⟩ | hc
        · simp at hi
        · exact hc _ e
      | tail _ e ih =>
        rcases h.closed _ (.inr ih) with ⟨i, hi⟩ | hc
        · simp at hi
        · exact hc _ e
    exact h.fresh (key init hw)
  | cons p rest =>
    obtain ⟨x, i⟩ := p
    simp only at hb
    cases hn : nextArc vis i ((arcsOf arcs x).drop i) with
    | none => rw [hn] at hb; cases hb
    | some q =>
      obtain ⟨k, y⟩ := q
      rw [hn] at hb
      simp only at hb
      split at hb
      · rename_i hy
        simp only [Sum.inl.injEq] at hb
        subst hb hy
        obtain ⟨h1, h2, h3, h4⟩ := nextArc_some hn
        refine .inr ⟨h.chain.head, _, _, rfl, ?_⟩
        rw [← mem_arcsOf]
        rw [List.getElem?_drop] at h2
        exact List.mem_of_getElem? h2
      · cases hb

theorem dfs_step {arcs : List (ℕ × ℕ)} {init : ℕ} {st st' : List (ℕ × ℕ) × Finset ℕ}
    (h : DfsInv arcs init st) (hb : cycleFromBody arcs init st = .inr st') :
    DfsInv arcs init st' ∧ dfsWork arcs st' < dfsWork arcs st := by
  obtain ⟨stack, vis⟩ := st
  unfold cycleFromBody at hb
  cases stack with
  | nil => simp at hb
  | cons p rest =>
    obtain ⟨x, i⟩ := p
    simp only at hb
    have hd := h.done x i (by simp)
    cases hn : nextArc vis i ((arcsOf arcs x).drop i) with
    | none =>
      rw [hn] at hb
      simp only [Sum.inr.injEq] at hb
      subst hb
      have hall : ∀ y, (x, y) ∈ arcs → y ∈ vis := by
        intro y hy
        rw [← mem_arcsOf] at hy
        obtain ⟨j, hj⟩ := List.mem_iff_getElem?.1 hy
        by_cases hji : j < i
        · exact hd j hji y hj
        · refine nextArc_none hn y (List.mem_iff_getElem?.2 ⟨j - i, ?_⟩)
          rw [List.getElem?_drop, show i + (j - i) = j by omega]; exact hj
      refine ⟨⟨h.chain.tail, h.fresh, fun z j hz => h.done z j (by simp [hz]), fun z hz => ?_⟩, ?_⟩
      · rcases h.closed z hz with ⟨j, hj⟩ | hc
        · rcases List.mem_cons.1 hj with hj | hj
          · simp only [Prod.mk.injEq] at hj
            obtain ⟨rfl, -⟩ := hj
            exact .inr hall
          · exact .inl ⟨j, hj⟩
        · exact .inr hc
      · simp [dfsWork]
    | some q =>
      obtain ⟨k, y⟩ := q
      rw [hn] at hb
      simp only at hb
      split at hb
      · cases hb
      · rename_i hy
        simp only [Sum.inr.injEq] at hb
        subst hb
        obtain ⟨h1, h2, h3, h4⟩ := nextArc_some hn
        rw [List.getElem?_drop, show i + (k - i) = k by omega] at h2
        have harc : (x, y) ∈ arcs := mem_arcsOf.1 (List.mem_of_getElem? h2)
        refine ⟨⟨⟨harc, h.chain.head⟩, ?_, ?_, ?_⟩, ?_⟩
        · simp only [Finset.mem_insert, not_or]
          exact ⟨fun e => hy e.symm, h.fresh⟩
        · intro z j hz
          simp only [List.mem_cons, Prod.mk.injEq] at hz
          rcases hz with ⟨rfl, rfl⟩ | ⟨rfl, rfl⟩ | hz
          · intro j hj; omega
          · intro j hj w hw
            simp only [Finset.mem_insert]
            by_cases hji : j < i
            · exact .inr (hd j hji w hw)
            · by_cases hjk : j = k
              · subst hjk; rw [h2, Option.some.injEq] at hw; exact .inl hw.symm
              · refine .inr (h4 (j - i) (by omega) w ?_)
                rw [List.getElem?_drop, show i + (j - i) = j by omega]; exact hw
          · intro j' hj w hw
            exact Finset.mem_insert_of_mem (h.done z j (by simp [hz]) j' hj w hw)
        · intro z hz
          simp only [Finset.mem_insert] at hz
          by_cases hzy : z = y
          · subst hzy; exact .inl ⟨0, by simp⟩
          · rcases h.closed z (by rcases hz with h | h | h <;> simp_all) with ⟨j, hj⟩ | hc
            · rcases List.mem_cons.1 hj with hj | hj
              · simp only [Prod.mk.injEq] at hj
                obtain ⟨rfl, -⟩ := hj
                exact .inl ⟨k + 1, by simp⟩
              · exact .inl ⟨j, by simp [hj]⟩
            · exact .inr fun w hw => Finset.mem_insert_of_mem (hc w hw)
        · unfold dfsWork
          have hm : y ∈ (arcs.map Prod.snd).toFinset \ vis := by
            simp only [Finset.mem_sdiff, List.mem_toFinset, List.mem_map]
            exact ⟨⟨_, harc, rfl⟩, h3⟩
          have : (arcs.map Prod.snd).toFinset \ insert y vis = ((arcs.map Prod.snd).toFinset \ vis).erase y := by
            ext z; simp only [Finset.mem_sdiff, Finset.mem_insert, Finset.mem_erase]; tauto
          rw [this, Finset.card_erase_of_mem hm]
          have : 0 < ((arcs.map Prod.snd).toFinset \ vis).card := Finset.card_pos.2 ⟨y, hm⟩
          simp only [List.length_cons]
          omega

theorem onClosedWalk_of_closedWalk {E : ℕ → ℕ → Prop} {l : List ℕ} {x : ℕ} (h : ClosedWalk E l)
    (hx : l.head? = some x) : OnClosedWalk E x := by
  obtain ⟨h0, h1, h2⟩ := h
  cases l with
  | nil => exact absurd rfl h0
  | cons a l =>
    simp only [List.head?_cons, Option.some.injEq] at hx
    subst hx
    have key : ∀ (i y : ℕ), (a :: l)[i]? = some y → Relation.ReflTransGen E a y := by
      intro i
      induction i with
      | zero => intro y hy; simp only [List.getElem?_cons_zero, Option.some.injEq] at hy; subst hy; exact .refl
      | succ i ih =>
        intro y hy
        have hlt : i < (a :: l).length := by
          have := (List.getElem?_eq_some_iff.1 hy).1
          omega
        have hz := List.getElem?_eq_getElem hlt
        exact (ih _ hz).tail (h1 i _ _ hz hy)
    have hl := List.getLast?_eq_some_getLast (l := a :: l) (by simp)
    refine Relation.TransGen.tail' (key l.length ((a :: l).getLast (by simp)) ?_) (h2 _ _ hl rfl)
    rw [List.getLast?_eq_getElem?] at hl
    simpa using hl

/-- The search ends, and its result is right. -/
theorem cycleCkFrom_spec {arcs : List (ℕ × ℕ)} {init fuel : ℕ}
    (hf : 2 * (arcs.map Prod.snd).toFinset.card + 1 < fuel) :
    ∃ l, cycleCkFrom fuel arcs init = some l ∧
      ((l = [] ∧ ¬ OnClosedWalk (fun x y => (x, y) ∈ arcs) init) ∨
        (l.head? = some init ∧ ClosedWalk (fun x y => (x, y) ∈ arcs) l)) := by
  unfold cycleCkFrom
  split
  · rename_i h0
    refine ⟨[], rfl, .inl ⟨rfl, fun hw => ?_⟩⟩
    have : ∃ y, (init, y) ∈ arcs := by
      obtain ⟨y, hy, -⟩ := Relation.TransGen.head'_iff.1 hw
      exact ⟨y, hy⟩
    obtain ⟨y, hy⟩ := this
    rw [← mem_arcsOf, List.length_eq_zero_iff.1 h0] at hy
    simp at hy
  · obtain ⟨r, h1, h2⟩ := loopFuel_total (DfsInv arcs init) (DfsPost arcs init) (dfsWork arcs)
      (fun _ _ => dfs_break) (fun _ _ => dfs_step) fuel ([(init, 0)], ∅)
      ⟨rfl, by simp, fun x i h j hj => by simp at h; omega, fun x hx => .inl ⟨0, by simpa using hx⟩⟩
      (by simpa [dfsWork] using hf)
    rw [h1]
    refine ⟨_, rfl, ?_⟩
    rcases h2 with ⟨rfl, h⟩ | ⟨hc, p, l, rfl, hp⟩
    · exact .inl ⟨rfl, h⟩
    · obtain ⟨w1, w2⟩ := hc.walk (by simp)
      refine .inr ⟨by rw [List.head?_reverse]; exact w1, by simp, fun i x y hx hy => ?_, fun x y hx hy => ?_⟩
      · have hi : i + 1 < (p :: l).length := by
          have := (List.getElem?_eq_some_iff.1 hy).1
          simpa using this
        rw [List.getElem?_reverse (by simp at hi ⊢; omega)] at hx hy
        refine w2 _ x y hy ?_
        rw [← hx]; congr 1; simp at hi ⊢; omega
      · rw [List.head?_reverse, w1] at hy
        rw [List.getLast?_reverse] at hx
        simp only [Option.some.injEq, List.map_cons, List.head?_cons] at hx hy
        subst hx hy; exact hp

end Verif.Proofs
