import Verif.Proofs.Fmlae
import Verif.Proofs.Ring
import Verif.Proofs.Stab

/-! Helper lemmas: the sweep-based cycle check of unidirectional rings. -/

set_option linter.unusedSectionVars false

namespace Verif.Model
open Verif.Spec

universe u

section generic
variable {σ : Type u} [Fintype σ] [DecidableEq σ]

/-- A process acts if it can. -/
def Act (p : Finset (σ × σ)) (x z : σ) : Prop := (x, z) ∈ p ∨ ((∀ t, (x, t) ∉ p) ∧ z = x)

/-- The processes of a list take turns. -/
def SweepL : List (Finset (σ × σ)) → σ → σ → Prop
  | [], x, y => x = y
  | p :: l, x, y => ∃ z, Act p x z ∧ SweepL l z y

theorem mem_actSet {p : Finset (σ × σ)} {S : Finset σ} {z : σ} :
    z ∈ (S \ dom p) ∪ img p S ↔ ∃ x ∈ S, Act p x z := by
  simp only [Finset.mem_union, Finset.mem_sdiff, mem_dom, not_exists, mem_img, Act]
  constructor
  · rintro (⟨h1, h2⟩ | ⟨x, h1, h2⟩)
    · exact ⟨z, h1, Or.inr ⟨h2, rfl⟩⟩
    · exact ⟨x, h1, Or.inl h2⟩
  · rintro ⟨x, h1, h2 | ⟨h2, rfl⟩⟩
    · exact Or.inr ⟨x, h1, h2⟩
    · exact Or.inl ⟨h1, h2⟩

theorem mem_foldl_sweep (l : List (Finset (σ × σ))) (S : Finset σ) (y : σ) :
    y ∈ l.foldl (fun span1 p => (span1 \ dom p) ∪ img p span1) S ↔ ∃ x ∈ S, SweepL l x y := by
  induction l generalizing S with
  | nil => simp [SweepL]
  | cons p l ih =>
    rw [List.foldl_cons, ih]
    constructor
    · rintro ⟨z, hz, h⟩
      obtain ⟨x, hx, hxz⟩ := mem_actSet.1 hz
      exact ⟨x, hx, z, hxz, h⟩
    · rintro ⟨x, hx, z, hxz, h⟩
      exact ⟨z, mem_actSet.2 ⟨x, hx, hxz⟩, h⟩

theorem mem_sweep {ps : List (Finset (σ × σ))} {S : Finset σ} {y : σ} :
    y ∈ sweep ps S ↔ ∃ x ∈ S, SweepL ps.reverse x y := mem_foldl_sweep _ _ _

theorem act_total (p : Finset (σ × σ)) (x : σ) : ∃ z, Act p x z := by
  by_cases h : ∃ t, (x, t) ∈ p
  · obtain ⟨t, h⟩ := h; exact ⟨t, Or.inl h⟩
  · push Not at h; exact ⟨x, Or.inr ⟨h, rfl⟩⟩

theorem sweepL_total (l : List (Finset (σ × σ))) (x : σ) : ∃ y, SweepL l x y := by
  induction l generalizing x with
  | nil => exact ⟨x, rfl⟩
  | cons p l ih =>
    obtain ⟨z, hz⟩ := act_total p x
    obtain ⟨y, hy⟩ := ih z
    exact ⟨y, z, hz, hy⟩

theorem sweepL_append {l1 l2 : List (Finset (σ × σ))} {x y z : σ} (h1 : SweepL l1 x y)
    (h2 : SweepL l2 y z) : SweepL (l1 ++ l2) x z := by
  induction l1 generalizing x with
  | nil => cases h1; exact h2
  | cons p l ih => obtain ⟨w, hw, h⟩ := h1; exact ⟨w, hw, ih h⟩

/-- Either nothing happens, and then no process could act, or there is progress. -/
theorem sweepL_cases {xn : Finset (σ × σ)} {l : List (Finset (σ × σ))} (hl : ∀ p ∈ l, p ⊆ xn)
    {x y : σ} (h : SweepL l x y) :
    (x = y ∧ ∀ p ∈ l, ∀ t, (x, t) ∉ p) ∨ Relation.TransGen (Step xn) x y := by
  induction l generalizing x with
  | nil => left; exact ⟨h, by simp⟩
  | cons p l ih =>
    obtain ⟨z, hz, h⟩ := h
    have ih := ih (fun q hq => hl q (List.mem_cons_of_mem _ hq)) h
    rcases hz with hz | ⟨hz, rfl⟩
    · right
      have h0 : Step xn x z := hl p (List.mem_cons_self) hz
      rcases ih with ⟨rfl, _⟩ | ih
      · exact Relation.TransGen.single h0
      · exact Relation.TransGen.head h0 ih
    · rcases ih with ⟨h1, h2⟩ | ih
      · left
        refine ⟨h1, ?_⟩
        intro q hq
        rcases List.mem_cons.1 hq with rfl | hq
        · exact hz
        · exact h2 q hq
      · exact Or.inr ih

theorem sweepL_silent {l : List (Finset (σ × σ))} {x y : σ} (hx : ∀ p ∈ l, ∀ t, (x, t) ∉ p) :
    SweepL l x y ↔ y = x := by
  induction l with
  | nil => simp [SweepL, eq_comm]
  | cons p l ih =>
    have h1 := hx p List.mem_cons_self
    have ih := ih (fun q hq => hx q (List.mem_cons_of_mem _ hq))
    constructor
    · rintro ⟨z, hz | ⟨_, rfl⟩, h⟩
      · exact absurd hz (h1 z)
      · exact ih.1 h
    · rintro rfl
      exact ⟨y, Or.inr ⟨h1, rfl⟩, ih.2 rfl⟩

theorem sweepL_reach {xn : Finset (σ × σ)} {l : List (Finset (σ × σ))} (hl : ∀ p ∈ l, p ⊆ xn)
    {x y : σ} (h : SweepL l x y) : Reach xn x y := by
  rcases sweepL_cases hl h with ⟨rfl, _⟩ | h
  · exact Relation.ReflTransGen.refl
  · exact h.to_reflTransGen

/-- Functional processes make a functional sweep. -/
theorem sweepL_fun {l : List (Finset (σ × σ))}
    (hd : ∀ p ∈ l, ∀ x y z, (x, y) ∈ p → (x, z) ∈ p → y = z) {x y z : σ}
    (h1 : SweepL l x y) (h2 : SweepL l x z) : y = z := by
  induction l generalizing x with
  | nil => exact h1.symm.trans h2
  | cons p l ih =>
    obtain ⟨a, ha, h1⟩ := h1
    obtain ⟨b, hb, h2⟩ := h2
    have hab : a = b := by
      rcases ha with ha | ⟨ha, rfl⟩
      · rcases hb with hb | ⟨hb, rfl⟩
        · exact hd p List.mem_cons_self _ _ _ ha hb
        · exact absurd ha (hb _)
      · rcases hb with hb | ⟨hb, rfl⟩
        · exact absurd hb (ha _)
        · rfl
    subst hab
    exact ih (fun q hq => hd q (List.mem_cons_of_mem _ hq)) h1 h2

/-- What the collecting sweep collects. -/
theorem sweepCollect_sound (l : List (Finset (σ × σ))) (acc cur : Finset σ) (y : σ)
    (hy : y ∈ (l.foldl (fun (st : Finset σ × Finset σ) p =>
      let pf := img p st.2
      (st.1 ∪ pf, (st.2 \ dom p) ∪ pf)) (acc, cur)).1) :
    y ∈ acc ∨ ∃ x ∈ cur, ∃ l1 p l2 z, l = l1 ++ p :: l2 ∧ SweepL l1 x z ∧ (z, y) ∈ p := by
  induction l generalizing acc cur with
  | nil => exact Or.inl hy
  | cons p l ih =>
    rw [List.foldl_cons] at hy
    rcases ih _ _ hy with h | ⟨x, hx, l1, q, l2, z, rfl, h1, h2⟩
    · rcases Finset.mem_union.1 h with h | h
      · exact Or.inl h
      · obtain ⟨x, hx, h⟩ := mem_img.1 h
        exact Or.inr ⟨x, hx, [], p, l, x, rfl, rfl, h⟩
    · obtain ⟨w, hw, hwx⟩ := mem_actSet.1 hx
      exact Or.inr ⟨w, hw, p :: l1, q, l2, z, rfl, ⟨x, hwx, h1⟩, h2⟩

theorem sweepCollect_sup (l : List (Finset (σ × σ))) (acc cur : Finset σ) :
    acc ⊆ (l.foldl (fun (st : Finset σ × Finset σ) p =>
      let pf := img p st.2
      (st.1 ∪ pf, (st.2 \ dom p) ∪ pf)) (acc, cur)).1 := by
  induction l generalizing acc cur with
  | nil => exact Finset.Subset.refl _
  | cons p l ih =>
    rw [List.foldl_cons]
    exact Finset.Subset.trans Finset.subset_union_left (ih _ _)

theorem uniBody_cases (ps : List (Finset (σ × σ))) (inv : Option (Finset σ)) (st : CycSt σ) :
    (st.span0 = sweep ps st.span0 ∧ uniBody ps inv st = .inl (.inr st)) ∨
    (st.ptr = true ∧ ∃ n, 0 < st.out ∧ st.out < n ∧ uniBody ps inv st = .inl (.inl n)) ∨
    (st.span0 ≠ sweep ps st.span0 ∧ ∃ st', st'.span0 = sweep ps st.span0 ∧
      (st'.ptr = true → st.ptr = true ∧ st'.out = st.out) ∧ uniBody ps inv st = .inr st') := by
  by_cases h : st.span0 = sweep ps st.span0
  · left
    refine ⟨h, ?_⟩
    simp only [uniBody, ← h, if_true]
  · right
    by_cases hp : st.ptr = true
    · by_cases hi : inv.any (fun i => decide (st.span0 ⊆ i)) = true
      · right
        refine ⟨h, ⟨_, ?_, ?_, by simp only [uniBody, if_neg h, if_pos hp, if_pos hi]; rfl⟩⟩
        · rfl
        · intro h; cases h
      · by_cases hl : (decide (st.out > 0) && decide (st.nlayers + 1 > st.out)) = true
        · left
          refine ⟨hp, st.nlayers + 1, ?_, ?_, by
            simp only [uniBody, if_neg h, if_pos hp, if_neg hi, if_pos hl]⟩
          · simp at hl; exact hl.1
          · simp at hl; omega
        · right
          refine ⟨h, ⟨_, ?_, ?_, by
            simp only [uniBody, if_neg h, if_pos hp, if_neg hi, if_neg hl]; rfl⟩⟩
          · rfl
          · intro _; exact ⟨hp, rfl⟩
    · right
      refine ⟨h, ⟨_, ?_, ?_, by simp only [uniBody, if_neg h, if_neg hp]; rfl⟩⟩
      · rfl
      · intro h; exact absurd h hp

/-- The set the loop settles on. -/
structure Settled (ps : List (Finset (σ × σ))) (A S : Finset σ) : Prop where
  fix : S = sweep ps S
  sub : S ⊆ A
  sup : ∀ G : Finset σ, G ⊆ domE ps ∩ rngE ps ∩ A → G ⊆ sweep ps G → G ⊆ S

theorem sweep_mono {ps : List (Finset (σ × σ))} {S T : Finset σ} (h : S ⊆ T) :
    sweep ps S ⊆ sweep ps T := by
  intro y hy
  obtain ⟨x, hx, hxy⟩ := mem_sweep.1 hy
  exact mem_sweep.2 ⟨x, h hx, hxy⟩

theorem sweepL_live {ps : List (Finset (σ × σ))} {x y : σ} (h : SweepL ps.reverse x y) :
    (x ∉ domE ps ∧ y = x) ∨ (x ∈ domE ps ∧ Relation.TransGen (Step (xfmla ps)) x y) := by
  by_cases hx : x ∈ domE ps
  · right
    refine ⟨hx, ?_⟩
    rcases sweepL_cases (xn := xfmla ps) (fun p hp e he => mem_xfmla.2 ⟨p, List.mem_reverse.1 hp, he⟩) h
      with ⟨_, h2⟩ | h
    · obtain ⟨t, p, hp, h⟩ := mem_domE.1 hx
      exact absurd h (h2 p (List.mem_reverse.2 hp) t)
    · exact h
  · left
    refine ⟨hx, (sweepL_silent ?_).1 h⟩
    intro p hp t ht
    exact hx (mem_domE.2 ⟨t, p, List.mem_reverse.1 hp, ht⟩)

theorem uni_loop {ps : List (Finset (σ × σ))} {A : Finset σ} (hA : Closed (xfmla ps) A)
    (lim : Option ℕ) (inv : Option (Finset σ)) {fuel : ℕ} (hf : 2 * Fintype.card σ < fuel) :
    ∃ r, loopFuel (uniBody ps inv) fuel
        { span0 := domE ps ∩ rngE ps ∩ A, nlayers := 1, ptr := lim.isSome, out := lim.getD 0 }
        = some r ∧
      (match r with
        | .inl n => ∃ k, lim = some k ∧ 0 < k ∧ k < n
        | .inr st => Settled ps A st.span0) := by
  have hdead : ∀ x, x ∉ domE ps → ∀ S : Finset σ, x ∈ S → x ∈ sweep ps S := by
    intro x hx S hS
    obtain ⟨y, hy⟩ := sweepL_total ps.reverse x
    rcases sweepL_live hy with ⟨_, rfl⟩ | ⟨h, _⟩
    · exact mem_sweep.2 ⟨_, hS, hy⟩
    · exact absurd h hx
  refine loopFuel_total
    (P := fun st : CycSt σ => st.span0 ⊆ A ∧ sweep ps st.span0 ∩ domE ps ⊆ st.span0 ∧
      (∀ G : Finset σ, G ⊆ domE ps ∩ rngE ps ∩ A → G ⊆ sweep ps G → G ⊆ st.span0) ∧
      (st.ptr = true → lim = some st.out))
    (Q := fun r : ℕ ⊕ CycSt σ => match r with
        | .inl n => ∃ k, lim = some k ∧ 0 < k ∧ k < n
        | .inr st => Settled ps A st.span0)
    (m := fun st => (st.span0 ∩ domE ps).card + (Finset.univ \ (st.span0 \ domE ps)).card)
    ?_ ?_ fuel _ ?_ ?_
  · rintro st b ⟨h1, h2, h3, h4⟩ hb
    rcases uniBody_cases ps inv st with ⟨hfix, heq⟩ | ⟨hp, n, hn1, hn2, heq⟩ | ⟨_, st', _, _, heq⟩
    · rw [heq] at hb; cases hb
      exact ⟨hfix, h1, h3⟩
    · rw [heq] at hb; cases hb
      exact ⟨_, h4 hp, hn1, hn2⟩
    · rw [heq] at hb; cases hb
  · rintro st st' ⟨h1, h2, h3, h4⟩ hb
    rcases uniBody_cases ps inv st with ⟨hfix, heq⟩ | ⟨hp, n, hn1, hn2, heq⟩ | ⟨hne, st1, hs, hp, heq⟩
    · rw [heq] at hb; cases hb
    · rw [heq] at hb; cases hb
    · rw [heq] at hb; cases hb
      rw [hs]
      have hdec : sweep ps st.span0 ∩ domE ps ⊆ st.span0 ∩ domE ps := fun y hy =>
        Finset.mem_inter.2 ⟨h2 hy, (Finset.mem_inter.1 hy).2⟩
      have hinc : st.span0 \ domE ps ⊆ sweep ps st.span0 \ domE ps := by
        intro y hy
        obtain ⟨hy1, hy2⟩ := Finset.mem_sdiff.1 hy
        exact Finset.mem_sdiff.2 ⟨hdead y hy2 _ hy1, hy2⟩
      refine ⟨⟨?_, ?_, ?_, ?_⟩, ?_⟩
      · intro y hy
        obtain ⟨x, hx, hxy⟩ := mem_sweep.1 hy
        refine reach_closed hA (h1 hx) ?_
        rcases sweepL_live hxy with ⟨_, rfl⟩ | ⟨_, h⟩
        · exact Relation.ReflTransGen.refl
        · exact h.to_reflTransGen
      · intro y hy
        obtain ⟨hy1, hy2⟩ := Finset.mem_inter.1 hy
        obtain ⟨x, hx, hxy⟩ := mem_sweep.1 hy1
        rcases sweepL_live hxy with ⟨hd, rfl⟩ | ⟨hd, _⟩
        · exact absurd hy2 hd
        · exact mem_sweep.2 ⟨x, h2 (Finset.mem_inter.2 ⟨hx, hd⟩), hxy⟩
      · intro G hG hGs
        exact Finset.Subset.trans hGs (sweep_mono (h3 G hG hGs))
      · intro h
        obtain ⟨h5, h6⟩ := hp h
        rw [h6]; exact h4 h5
      · have c1 := Finset.card_le_card hdec
        have hsub : Finset.univ \ (sweep ps st.span0 \ domE ps) ⊆
            Finset.univ \ (st.span0 \ domE ps) := Finset.sdiff_subset_sdiff (Finset.Subset.refl _) hinc
        have c2 := Finset.card_le_card hsub
        by_contra hc
        have e1 := Finset.eq_of_subset_of_card_le hdec (by omega)
        have e2 := Finset.eq_of_subset_of_card_le hsub (by omega)
        apply hne
        ext y
        by_cases hy : y ∈ domE ps
        · have := Finset.ext_iff.1 e1 y
          simp only [Finset.mem_inter, hy, and_true] at this
          exact this.symm
        · have := Finset.ext_iff.1 e2 y
          simp only [Finset.mem_sdiff, Finset.mem_univ, hy, not_false_eq_true, and_true,
            true_and] at this
          tauto
  · refine ⟨Finset.inter_subset_right, ?_, fun G hG _ => hG, ?_⟩
    · intro y hy
      obtain ⟨hy1, hy2⟩ := Finset.mem_inter.1 hy
      obtain ⟨x, hx, hxy⟩ := mem_sweep.1 hy1
      rcases sweepL_live hxy with ⟨hd, rfl⟩ | ⟨_, h⟩
      · exact absurd hy2 hd
      · refine Finset.mem_inter.2 ⟨Finset.mem_inter.2 ⟨hy2, ?_⟩, ?_⟩
        · obtain ⟨w, _, hw⟩ := Relation.TransGen.tail'_iff.1 h
          obtain ⟨p, hp, hw⟩ := mem_xfmla.1 hw
          exact mem_rngE.2 ⟨w, p, hp, hw⟩
        · exact reach_closed hA (Finset.mem_inter.1 hx).2 h.to_reflTransGen
    · intro h
      cases lim with
      | none => cases h
      | some k => rfl
  · have c1 : ((domE ps ∩ rngE ps ∩ A) ∩ domE ps).card ≤ Fintype.card σ := Finset.card_le_univ _
    have c2 : (Finset.univ \ ((domE ps ∩ rngE ps ∩ A) \ domE ps)).card ≤ Fintype.card σ :=
      Finset.card_le_univ _
    simp only
    omega

theorem uniCycleCk_eq (fuel : ℕ) (ps : List (Finset (σ × σ))) (lim : Option ℕ)
    (inv : Option (Finset σ)) (as : Option (Finset σ)) : uniCycleCk fuel ps lim inv as =
    match loopFuel (uniBody ps inv) fuel
        { span0 := domE ps ∩ rngE ps ∩ as.getD Finset.univ, nlayers := 1, ptr := lim.isSome,
          out := lim.getD 0 } with
    | none => none
    | some (.inl n) => some (.ok { ret := false, scc := none, nlayers := n })
    | some (.inr st) =>
      if sweepCollect ps (st.span0 ∩ domE ps) ⊆ domE ps then
        some (.ok { ret := decide (sweepCollect ps (st.span0 ∩ domE ps)).Nonempty,
                    scc := some (sweepCollect ps (st.span0 ∩ domE ps)),
                    nlayers := if st.ptr then st.nlayers else st.out })
      else some .failed := by
  cases as with
  | none =>
    simp only [Option.getD_none, Finset.inter_univ]; rfl
  | some a => rfl

/-- The complete check, for any list of process relations. -/
theorem uni_total {ps : List (Finset (σ × σ))} {as : Option (Finset σ)}
    (hA : Closed (xfmla ps) (as.getD Finset.univ))
    (lim : Option ℕ) (inv : Option (Finset σ)) {fuel : ℕ} (hf : 2 * Fintype.card σ < fuel) :
    (∃ k n, lim = some k ∧ 0 < k ∧ k < n ∧
      uniCycleCk fuel ps lim inv as = some (.ok { ret := false, scc := none, nlayers := n })) ∨
    (∃ S scc, Settled ps (as.getD Finset.univ) S ∧ scc = sweepCollect ps (S ∩ domE ps) ∧
      ((scc ⊆ domE ps ∧ ∃ n, uniCycleCk fuel ps lim inv as =
        some (.ok { ret := decide scc.Nonempty, scc := some scc, nlayers := n })) ∨
       (¬ scc ⊆ domE ps ∧ uniCycleCk fuel ps lim inv as = some .failed))) := by
  obtain ⟨r, h1, h2⟩ := uni_loop hA lim inv hf
  rw [uniCycleCk_eq, h1]
  cases r with
  | inl n =>
    obtain ⟨k, hk1, hk2, hk3⟩ := h2
    exact Or.inl ⟨k, n, hk1, hk2, hk3, rfl⟩
  | inr st =>
    right
    refine ⟨st.span0, _, h2, rfl, ?_⟩
    by_cases hc : sweepCollect ps (st.span0 ∩ domE ps) ⊆ domE ps
    · left
      exact ⟨hc, _, if_pos hc⟩
    · right
      exact ⟨hc, if_neg hc⟩

theorem Settled.pred {ps : List (Finset (σ × σ))} {A S : Finset σ} (h : Settled ps A S) {y : σ}
    (hy : y ∈ S ∩ domE ps) : ∃ x ∈ S ∩ domE ps, SweepL ps.reverse x y := by
  obtain ⟨hy1, hy2⟩ := Finset.mem_inter.1 hy
  rw [h.fix] at hy1
  obtain ⟨x, hx, hxy⟩ := mem_sweep.1 hy1
  refine ⟨x, Finset.mem_inter.2 ⟨hx, ?_⟩, hxy⟩
  rcases sweepL_live hxy with ⟨hd, rfl⟩ | ⟨hd, _⟩
  · exact hy2
  · exact hd

/-- A nonempty settled live part contains a cycle. -/
theorem Settled.cycle {ps : List (Finset (σ × σ))} {A S : Finset σ} (h : Settled ps A S)
    (hne : (S ∩ domE ps).Nonempty) : ∃ c ∈ A, OnCycle (xfmla ps) c := by
  classical
  -- the relation "a sweep leads from live to live"
  let R : Finset (σ × σ) := Finset.univ.filter fun e =>
    e.1 ∈ S ∩ domE ps ∧ e.2 ∈ S ∩ domE ps ∧ SweepL ps.reverse e.1 e.2
  obtain ⟨y, hy⟩ := hne
  obtain ⟨c, hc1, hc2, _⟩ := exists_cycle_of_pred (xn := R) (G := S ∩ domE ps) (by
    intro y hy
    obtain ⟨x, hx, hxy⟩ := h.pred hy
    exact ⟨x, hx, by simp only [R, Finset.mem_filter, Finset.mem_univ, true_and]; exact ⟨hx, hy, hxy⟩⟩) hy
  refine ⟨c, h.sub (Finset.mem_inter.1 hc1).1, ?_⟩
  have hc3 : Relation.TransGen (Step R) c c := hc2
  have key : ∀ a b, Relation.TransGen (Step R) a b → Relation.TransGen (Step (xfmla ps)) a b := by
    intro a b hab
    have one : ∀ a b, Step R a b → Relation.TransGen (Step (xfmla ps)) a b := by
      intro a b hab
      simp only [Step, R, Finset.mem_filter, Finset.mem_univ, true_and] at hab
      rcases sweepL_live hab.2.2 with ⟨hd, _⟩ | ⟨_, h⟩
      · exact absurd (Finset.mem_inter.1 hab.1).2 hd
      · exact h
    induction hab with
    | single h => exact one _ _ h
    | tail _ h ih => exact ih.trans (one _ _ h)
  exact key _ _ hc3

/-- With functional processes the settled live states and everything the last sweep collects lie
on cycles; in particular the `Claim` holds. -/
theorem Settled.deterministic {ps : List (Finset (σ × σ))} {A S : Finset σ} (h : Settled ps A S)
    (hA : Closed (xfmla ps) A)
    (hd : ∀ p ∈ ps, ∀ x y z, (x, y) ∈ p → (x, z) ∈ p → y = z) {y : σ}
    (hy : y ∈ sweepCollect ps (S ∩ domE ps)) : y ∈ A ∧ OnCycle (xfmla ps) y := by
  classical
  have hd' : ∀ p ∈ ps.reverse, ∀ x y z, (x, y) ∈ p → (x, z) ∈ p → y = z :=
    fun p hp => hd p (List.mem_reverse.1 hp)
  choose φ hφ using sweepL_total ps.reverse
  have hfun : ∀ x y, SweepL ps.reverse x y → y = φ x := fun x y hxy => sweepL_fun hd' hxy (hφ x)
  have hsub : S ∩ domE ps ⊆ (S ∩ domE ps).image φ := by
    intro y hy
    obtain ⟨x, hx, hxy⟩ := h.pred hy
    exact Finset.mem_image.2 ⟨x, hx, (hfun _ _ hxy).symm⟩
  have himg : S ∩ domE ps = (S ∩ domE ps).image φ :=
    Finset.eq_of_subset_of_card_le hsub Finset.card_image_le
  have hstay : ∀ x ∈ S ∩ domE ps, φ x ∈ S ∩ domE ps := by
    intro x hx
    rw [himg]; exact Finset.mem_image_of_mem _ hx
  have hinj : Set.InjOn φ (S ∩ domE ps : Finset σ) :=
    Finset.card_image_iff.1 (by rw [← himg])
  have hiter : ∀ k, ∀ x ∈ S ∩ domE ps, φ^[k] x ∈ S ∩ domE ps := by
    intro k
    induction k with
    | zero => intro x hx; exact hx
    | succ k ih => intro x hx; rw [Function.iterate_succ_apply']; exact hstay _ (ih x hx)
  have hreach : ∀ k, ∀ x ∈ S ∩ domE ps, Reach (xfmla ps) x (φ^[k] x) := by
    intro k x hx
    induction k with
    | zero => exact Relation.ReflTransGen.refl
    | succ k ih =>
      rw [Function.iterate_succ_apply']
      refine ih.trans ?_
      rcases sweepL_live (hφ (φ^[k] x)) with ⟨_, h⟩ | ⟨_, h⟩
      · rw [h]
      · exact h.to_reflTransGen
  have hcyc : ∀ x ∈ S ∩ domE ps, ∃ k, φ^[k + 1] x = x := by
    intro x hx
    obtain ⟨i, j, hij, heq⟩ := Finite.exists_ne_map_eq_of_infinite (fun k => φ^[k] x)
    have cancel : ∀ i d, φ^[i] x = φ^[i + d + 1] x → φ^[d + 1] x = x := by
      intro i d
      induction i with
      | zero => intro h; rw [Nat.zero_add] at h; exact h.symm
      | succ i ih =>
        intro h
        apply ih
        have e : i + 1 + d + 1 = (i + d + 1) + 1 := by omega
        rw [e, Function.iterate_succ_apply', Function.iterate_succ_apply'] at h
        exact hinj (Finset.mem_coe.2 (hiter i x hx)) (Finset.mem_coe.2 (hiter _ x hx)) h
    rcases Nat.lt_or_gt_of_ne hij with hlt | hlt
    · exact ⟨j - i - 1, cancel i _ (by rw [show i + (j - i - 1) + 1 = j by omega]; exact heq)⟩
    · exact ⟨i - j - 1, cancel j _ (by rw [show j + (i - j - 1) + 1 = i by omega]; exact heq.symm)⟩
  -- from `φ x` back to `x`
  have hback : ∀ x ∈ S ∩ domE ps, Reach (xfmla ps) (φ x) x := by
    intro x hx
    obtain ⟨k, hk⟩ := hcyc x hx
    have := hreach k (φ x) (hstay x hx)
    rw [← Function.iterate_succ_apply φ k x, hk] at this
    exact this
  have hx_cyc : ∀ x ∈ S ∩ domE ps, OnCycle (xfmla ps) x := by
    intro x hx
    rcases sweepL_live (hφ x) with ⟨hd, _⟩ | ⟨_, h⟩
    · exact absurd (Finset.mem_inter.1 hx).2 hd
    · exact Relation.TransGen.trans_left h (hback x hx)
  rcases sweepCollect_sound _ _ _ y hy with hy | ⟨x, hx, l1, p, l2, z, hl, h1, h2⟩
  · exact ⟨h.sub (Finset.mem_inter.1 hy).1, hx_cyc y hy⟩
  · obtain ⟨w, hw⟩ := sweepL_total l2 y
    have hxw : SweepL ps.reverse x w := by
      rw [hl]; exact sweepL_append h1 ⟨y, Or.inl h2, hw⟩
    have hmem : ∀ q ∈ l1 ++ p :: l2, q ⊆ xfmla ps := by
      intro q hq e he
      exact mem_xfmla.2 ⟨q, List.mem_reverse.1 (hl ▸ hq), he⟩
    have hxz := sweepL_reach (xn := xfmla ps) (fun q hq => hmem q (by simp [hq])) h1
    have hyw := sweepL_reach (xn := xfmla ps) (fun q hq => hmem q (by simp [hq])) hw
    have hzy : Step (xfmla ps) z y := hmem p (by simp) h2
    rw [hfun _ _ hxw] at hyw
    have hxA : x ∈ A := h.sub (Finset.mem_inter.1 hx).1
    refine ⟨reach_closed hA hxA (hxz.tail hzy), ?_⟩
    exact (Relation.TransGen.tail' (hyw.trans ((hback x hx).trans hxz)) hzy)

theorem onCycle_live {ps : List (Finset (σ × σ))} {y : σ} (h : OnCycle (xfmla ps) y) :
    y ∈ domE ps := by
  obtain ⟨z, h1, _⟩ := Relation.TransGen.head'_iff.1 h
  obtain ⟨p, hp, h1⟩ := mem_xfmla.1 h1
  exact mem_domE.2 ⟨z, p, hp, h1⟩

/-- Along a cycle there is an execution that visits its start again and again. -/
theorem exec_of_cycle {xn : Finset (σ × σ)} {c : σ} (h : OnCycle xn c) :
    ∃ e : ℕ → σ, InfExec xn e ∧ e 0 = c ∧ ∀ t, ∃ t', t ≤ t' ∧ e t' = c := by
  classical
  -- distance back to `c`
  have hpath : ∀ a b, Relation.TransGen (Step xn) a b → ∃ k, StepN xn (k + 1) a b := by
    intro a b hab
    induction hab with
    | single h => exact ⟨0, _, h, rfl⟩
    | tail _ h ih =>
      obtain ⟨k, hk⟩ := ih
      exact ⟨k + 1, stepN_succ'.2 ⟨_, hk, h⟩⟩
  obtain ⟨k, hk⟩ := hpath c c h
  -- a cyclic walk
  have hwalk : ∀ m a b, StepN xn m a b → ∃ w : ℕ → σ, w 0 = a ∧ w m = b ∧
      ∀ i < m, Step xn (w i) (w (i + 1)) := by
    intro m
    induction m with
    | zero => intro a b hab; exact ⟨fun _ => a, rfl, hab, by simp⟩
    | succ m ih =>
      rintro a b ⟨u, hu, hub⟩
      obtain ⟨w, hw0, hwm, hw⟩ := ih u b hub
      refine ⟨fun i => if i = 0 then a else w (i - 1), by simp, by simp [hwm], ?_⟩
      intro i hi
      by_cases h0 : i = 0
      · subst h0; simp [hw0, hu]
      · have := hw (i - 1) (by omega)
        rw [show i - 1 + 1 = i by omega] at this
        simp [h0, this]
  obtain ⟨w, hw0, hwm, hw⟩ := hwalk _ _ _ hk
  refine ⟨fun t => w (t % (k + 1)), ?_, by simp [hw0], ?_⟩
  · intro t
    have hlt : t % (k + 1) < k + 1 := Nat.mod_lt t (Nat.succ_pos k)
    have hs := hw _ hlt
    by_cases hlast : t % (k + 1) + 1 = k + 1
    · have : (t + 1) % (k + 1) = 0 := by
        rw [← Nat.mod_add_mod, hlast, Nat.mod_self]
      rw [hlast, hwm, ← hw0] at hs
      simp only [this]; exact hs
    · have : (t + 1) % (k + 1) = t % (k + 1) + 1 := by
        rw [← Nat.mod_add_mod, Nat.mod_eq_of_lt (show t % (k + 1) + 1 < k + 1 by omega)]
      simp only [this]; exact hs
  · intro t
    exact ⟨t * (k + 1), Nat.le_mul_of_pos_right t (Nat.succ_pos k), by simp [hw0]⟩

end generic

section ring
variable {V : Type u} {n : ℕ} [NeZero n] [Fintype V] [DecidableEq V]

theorem _root_.Verif.Spec.IsRing.step {f : ZMod n → V → V → V → Prop}
    {ps : List (Finset ((ZMod n → V) × (ZMod n → V)))} (h : IsRing f ps) {x y : ZMod n → V} :
    Step (xfmla ps) x y ↔ RStep f x y := by
  constructor
  · intro hs
    obtain ⟨p, hp, hs⟩ := mem_xfmla.1 hs
    obtain ⟨k, hk, rfl⟩ := List.getElem_of_mem hp
    obtain ⟨c, hc, hy⟩ := (h.mem k hk x y).1 hs
    exact ⟨_, c, hc, hy⟩
  · rintro ⟨i, c, hc, hy⟩
    have hk : i.val < ps.length := by rw [h.length]; exact ZMod.val_lt i
    refine mem_xfmla.2 ⟨ps[i.val], List.getElem_mem hk, (h.mem _ hk x y).2 ⟨c, ?_, ?_⟩⟩
    · rw [ZMod.natCast_zmod_val]; exact hc
    · rw [ZMod.natCast_zmod_val]; exact hy

/-- Processes `m - 1, ..., 0` take turns without collision. -/
theorem Tiling.sweep (hn : 2 ≤ n) {f : ZMod n → V → V → V → Prop}
    {ps : List (Finset ((ZMod n → V) × (ZMod n → V)))} (h : IsRing f ps)
    {δ : ZMod n → ℕ} {v : ZMod n → ℕ → V} (ht : Tiling f δ v) :
    ∀ m ≤ n, ∀ K : ZMod n → ℕ, Valid δ K → K ((m : ZMod n) - 1) + δ m = K m →
      ∃ K', Valid δ K' ∧ K' (0 - 1) + δ 0 = K' 0 ∧
        SweepL (ps.take m).reverse (stateAt v K) (stateAt v K') := by
  intro m
  induction m with
  | zero =>
    intro _ K hK h0
    refine ⟨K, hK, by simpa using h0, by simp [SweepL]⟩
  | succ m ih =>
    intro hm K hK h0
    have hml : m < ps.length := by rw [h.length]; omega
    have hlist : (ps.take (m + 1)).reverse = ps[m] :: (ps.take m).reverse := by
      rw [List.take_succ_eq_append_getElem hml, List.reverse_append]; rfl
    rw [hlist]
    have hs : ((m + 1 : ℕ) : ZMod n) - 1 = m := by push_cast; ring
    rw [hs] at h0
    have hs2 : ((m + 1 : ℕ) : ZMod n) = (m : ZMod n) + 1 := by push_cast; rfl
    rw [hs2] at h0
    by_cases hen : K ((m : ZMod n) - 1) + δ m = K m + 1
    · obtain ⟨h4, h5, h6⟩ := ht.move hn hK hen h0
      have hpred : (m : ZMod n) - 1 ≠ m := fun hh => one_ne_zero_zmod hn (sub_eq_self.1 hh)
      obtain ⟨K', h7, h8, h9⟩ := ih (by omega) _ h4 (by
        rw [Function.update_self, Function.update_of_ne hpred]; exact hen)
      refine ⟨K', h7, h8, _, Or.inl ?_, h9⟩
      exact (h.mem m hml _ _).2 ⟨_, h5, h6⟩
    · have hdis : K ((m : ZMod n) - 1) + δ m = K m := by
        have := hK (m : ZMod n); omega
      obtain ⟨K', h7, h8, h9⟩ := ih (by omega) _ hK hdis
      refine ⟨K', h7, h8, _, Or.inr ⟨?_, rfl⟩, h9⟩
      intro t hmem
      obtain ⟨c, hc, _⟩ := (h.mem m hml _ _).1 hmem
      exact (ht.enabled_iff hK (m : ZMod n)).2 hdis c hc

theorem le_of_reach_sum {δ K K' : ZMod n → ℕ} (_ : Valid δ K) (_ : Valid δ K')
    (h : ∀ i, K i ≤ K' i) : ∃ m, ∑ i, K' i = ∑ i, K i + m :=
  ⟨∑ i, K' i - ∑ i, K i, by have := Finset.sum_le_sum (fun i (_ : i ∈ Finset.univ) => h i); omega⟩

/-- Every cycle state of the ring reaches, and is reached from, a live sweep cycle. -/
theorem ring_sweep_cycle (hn : 2 ≤ n) {f : ZMod n → V → V → V → Prop} (hsd : SelfDisabling f)
    {ps : List (Finset ((ZMod n → V) × (ZMod n → V)))} (h : IsRing f ps) {c : ZMod n → V}
    (hc : OnCycle (xfmla ps) c) :
    ∃ (s : ℕ → ZMod n → V) (a b : ℕ), a < b ∧ s a = s b ∧
      (∀ k, SweepL ps.reverse (s k) (s (k + 1)) ∧ s k ∈ domE ps ∧ Reach (xfmla ps) c (s k) ∧
        Reach (xfmla ps) (s k) c) := by
  classical
  obtain ⟨e, he, he0, hrec⟩ := exec_of_cycle hc
  have hre : RExec f e := fun t => h.step.1 (he t)
  have hanti := rexec_antitone hn hsd hre
  have hconst : ∀ t, (enab f (e t)).card = (enab f c).card := by
    intro t
    obtain ⟨t', h1, h2⟩ := hrec t
    have h3 := hanti 0 t (Nat.zero_le _)
    have h4 := hanti t t' h1
    rw [he0] at h3; rw [h2] at h4; omega
  obtain ⟨p, hp⟩ := run_of_const hn hsd hre (fun t => by rw [hconst, hconst])
  obtain ⟨v, hv, hval⟩ := hp.tiling hn hsd
  have hstate : ∀ t, e t = stateAt v (cnt p t) := fun t => funext fun i => hval t i
  have hRS : ∀ x y, Relation.ReflTransGen (RStep f) x y → Reach (xfmla ps) x y := by
    intro x y hxy
    exact Relation.ReflTransGen.mono (fun _ _ => h.step.2) _ _ hxy
  -- start just after process 0 has acted
  obtain ⟨t0, ht0, _⟩ := acts_at (hp.unbounded hn hsd 0) 0
  have hK1 : Valid (del f (e 0)) (cnt p (t0 + 1)) := hp.valid hn hsd _
  have hd0 : cnt p (t0 + 1) (0 - 1) + del f (e 0) 0 = cnt p (t0 + 1) 0 := by
    have hne : p t0 ≠ 0 - 1 := by
      rw [ht0]; intro hh; exact one_ne_zero_zmod hn (sub_eq_self.1 hh.symm)
    rw [cnt_succ_self ht0, cnt_succ_ne hne]
    have hact := hp.act t0
    rw [ht0] at hact
    rcases hp.inv hn hsd t0 0 with ⟨_, h1⟩ | ⟨h1, _⟩
    · exact h1
    · exact absurd hact (h1 _)
  have hsw : ∀ K : {K : ZMod n → ℕ // Valid (del f (e 0)) K ∧ K (0 - 1) + del f (e 0) 0 = K 0},
      ∃ K' : {K : ZMod n → ℕ // Valid (del f (e 0)) K ∧ K (0 - 1) + del f (e 0) 0 = K 0},
        SweepL ps.reverse (stateAt v K.1) (stateAt v K'.1) := by
    rintro ⟨K, hK, hK0⟩
    obtain ⟨K', h1, h2, h3⟩ := hv.sweep hn h n (le_refl _) K hK (by simpa using hK0)
    rw [List.take_of_length_le (by rw [h.length])] at h3
    exact ⟨⟨K', h1, h2⟩, h3⟩
  choose g hg using hsw
  let s : ℕ → ZMod n → V := fun k => stateAt v (g^[k] ⟨_, hK1, hd0⟩).1
  have hs : ∀ k, SweepL ps.reverse (s k) (s (k + 1)) := by
    intro k
    simp only [s, Function.iterate_succ_apply']
    exact hg _
  have hlive : ∀ k, s k ∈ domE ps := by
    intro k
    obtain ⟨i, hi⟩ := hv.exists_enabled (g^[k] ⟨_, hK1, hd0⟩).2.1
    have := hv.en i _ _ hi
    have hst : Step (xfmla ps) (s k) (Function.update (s k) i _) := h.step.2 ⟨i, _, this, rfl⟩
    obtain ⟨q, hq, hst⟩ := mem_xfmla.1 hst
    exact mem_domE.2 ⟨_, q, hq, hst⟩
  have hto : ∀ K, Valid (del f (e 0)) K → Reach (xfmla ps) (stateAt v K) c := by
    intro K hK
    -- wait until every process has acted often enough and the execution is at `c`
    have hbig : ∃ t, ∀ i, K i ≤ cnt p t i := by
      choose τ hτ using fun i => hp.unbounded hn hsd i (K i)
      refine ⟨Finset.univ.sup τ, fun i => (hτ i).trans ?_⟩
      exact cnt_mono p i (Finset.le_sup (f := τ) (Finset.mem_univ i))
    obtain ⟨t, ht⟩ := hbig
    obtain ⟨t', h1, h2⟩ := hrec t
    have hle : ∀ i, K i ≤ cnt p t' i := fun i => (ht i).trans (cnt_mono p i h1)
    obtain ⟨m, hm⟩ := le_of_reach_sum hK (hp.valid hn hsd t') hle
    have := hRS _ _ (hv.reach hn (hp.valid hn hsd t') m K hK hle hm)
    rw [← hstate t', h2] at this
    exact this
  have hfrom : ∀ k, Reach (xfmla ps) c (s k) := by
    intro k
    induction k with
    | zero =>
      have hr : ∀ t, Reach (xfmla ps) (e 0) (e t) := by
        intro t
        induction t with
        | zero => exact Relation.ReflTransGen.refl
        | succ t ih => exact ih.tail (he t)
      have := hr (t0 + 1)
      rw [he0, hstate (t0 + 1)] at this
      exact this
    | succ k ih =>
      refine ih.trans ?_
      exact sweepL_reach (fun q hq e he => mem_xfmla.2 ⟨q, List.mem_reverse.1 hq, he⟩) (hs k)
  obtain ⟨i, j, hij, heq⟩ := Finite.exists_ne_map_eq_of_infinite s
  have hall : ∀ k, SweepL ps.reverse (s k) (s (k + 1)) ∧ s k ∈ domE ps ∧
      Reach (xfmla ps) c (s k) ∧ Reach (xfmla ps) (s k) c :=
    fun k => ⟨hs k, hlive k, hfrom k, hto _ (g^[k] ⟨_, hK1, hd0⟩).2.1⟩
  rcases Nat.lt_or_gt_of_ne hij with hlt | hlt
  · exact ⟨s, i, j, hlt, heq, hall⟩
  · exact ⟨s, j, i, hlt, heq.symm, hall⟩

/-- In rings the settled set is nonempty if there is a cycle, and every cycle state is reachable
from it. -/
theorem Settled.ring (hn : 2 ≤ n) {f : ZMod n → V → V → V → Prop} (hsd : SelfDisabling f)
    {ps : List (Finset ((ZMod n → V) × (ZMod n → V)))} (hr : IsRing f ps)
    {A S : Finset (ZMod n → V)} (h : Settled ps A S) (hA : Closed (xfmla ps) A)
    {c : ZMod n → V} (hcA : c ∈ A) (hc : OnCycle (xfmla ps) c) :
    ∃ x ∈ S ∩ domE ps, Reach (xfmla ps) x c := by
  classical
  obtain ⟨s, a, b, hab, heq, hs⟩ := ring_sweep_cycle hn hsd hr hc
  let G : Finset (ZMod n → V) := (Finset.Ico a b).image s
  have hGS : G ⊆ S := by
    apply h.sup
    · intro x hx
      obtain ⟨k, _, rfl⟩ := Finset.mem_image.1 hx
      refine Finset.mem_inter.2 ⟨Finset.mem_inter.2 ⟨(hs k).2.1, ?_⟩, reach_closed hA hcA (hs k).2.2.1⟩
      -- the cycle through `c` enters `s k`
      have hcyc : Relation.TransGen (Step (xfmla ps)) (s k) (s k) :=
        Relation.TransGen.trans_right (hs k).2.2.2 (Relation.TransGen.trans_left hc (hs k).2.2.1)
      obtain ⟨w, _, hw⟩ := Relation.TransGen.tail'_iff.1 hcyc
      obtain ⟨p, hp, hw⟩ := mem_xfmla.1 hw
      exact mem_rngE.2 ⟨w, p, hp, hw⟩
    · intro x hx
      obtain ⟨k, hk, rfl⟩ := Finset.mem_image.1 hx
      obtain ⟨hk1, hk2⟩ := Finset.mem_Ico.1 hk
      by_cases hka : k = a
      · subst hka
        have := (hs (b - 1)).1
        rw [show b - 1 + 1 = b by omega, ← heq] at this
        exact mem_sweep.2 ⟨_, Finset.mem_image_of_mem _ (Finset.mem_Ico.2 ⟨by omega, by omega⟩), this⟩
      · have := (hs (k - 1)).1
        rw [show k - 1 + 1 = k by omega] at this
        exact mem_sweep.2 ⟨_, Finset.mem_image_of_mem _ (Finset.mem_Ico.2 ⟨by omega, by omega⟩), this⟩
  exact ⟨s a, Finset.mem_inter.2 ⟨hGS (Finset.mem_image_of_mem _ (Finset.mem_Ico.2 ⟨le_refl _, hab⟩)),
    (hs a).2.1⟩, (hs a).2.2.2⟩

theorem _root_.Verif.Spec.IsRing.functional {f : ZMod n → V → V → V → Prop} (hdet : Deterministic f)
    {ps : List (Finset ((ZMod n → V) × (ZMod n → V)))} (h : IsRing f ps) :
    ∀ p ∈ ps, ∀ x y z, (x, y) ∈ p → (x, z) ∈ p → y = z := by
  intro p hp x y z h1 h2
  obtain ⟨k, hk, rfl⟩ := List.getElem_of_mem hp
  obtain ⟨c, hc, rfl⟩ := (h.mem k hk x y).1 h1
  obtain ⟨d, hd, rfl⟩ := (h.mem k hk x z).1 h2
  rw [hdet _ _ _ _ _ hc hd]

end ring

end Verif.Model
