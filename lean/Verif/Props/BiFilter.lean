import Verif.Model.BiFilter
import Verif.Props.BiSearch

/-!
# Property C114: the filters of invariants of bidirectional rings

The filters are those of src/biring.cc, see Model/BiFilter; rings are those of Spec/Biring.
-/

namespace Verif.Props
open Verif.Spec Verif.Model Verif.Proofs

section
variable {d : ℕ}

/-- A ring from a word that is closed. -/
theorem biRing_of_word {legit : ℕ × ℕ × ℕ → Prop} {n : ℕ} (hn : 2 ≤ n) (f : ℕ → ℕ) (hd : ∀ j < n, f j < d)
    (hl : ∀ j < n, legit (f j, f (j + 1), f (j + 2))) (h0 : f n = f 0) (h1 : f (n + 1) = f 1) : BiRing d legit n := by
  have e1 : ∀ i, f ((i + 1) % n) = f (i % n + 1) := by
    intro i
    have hlt := Nat.mod_lt i (show n > 0 by omega)
    rw [← Nat.mod_add_mod]
    rcases Nat.lt_or_ge (i % n + 1) n with h | h
    · rw [Nat.mod_eq_of_lt h]
    · have : i % n + 1 = n := by omega
      rw [this, Nat.mod_self, h0]
  have e2 : ∀ i, f ((i + 2) % n) = f (i % n + 2) := by
    intro i
    have hlt := Nat.mod_lt i (show n > 0 by omega)
    rw [← Nat.mod_add_mod]
    rcases Nat.lt_or_ge (i % n + 2) n with h | h
    · rw [Nat.mod_eq_of_lt h]
    · rcases Nat.eq_or_lt_of_le h with h | h
      · rw [← h, Nat.mod_self, h0]
      · have h' : i % n + 2 = 1 + n := by omega
        rw [h', Nat.add_mod_right, Nat.mod_eq_of_lt (by omega), Nat.add_comm 1 n, h1]
  refine ⟨_, by omega, fun i => f (i % n), fun i => by simp, fun i => hd _ (Nat.mod_lt i (by omega)), fun i => ?_, rfl⟩
  show legit (f (i % n), f ((i + 1) % n), f ((i + 2) % n))
  rw [e1, e2]
  exact hl _ (Nat.mod_lt i (by omega))

/-- Two cycles of lengths 2 and 3 that can be passed through in any order: `a b` and `a c e`. -/
theorem biRing_seven {legit : ℕ × ℕ × ℕ → Prop} {a b c e : ℕ} (ha : a < d) (hb : b < d) (hc : c < d) (he : e < d)
    (h1 : legit (a, b, a)) (h2 : legit (a, c, e)) (h3 : legit (b, a, b)) (h4 : legit (b, a, c)) (h5 : legit (c, e, a))
    (h6 : legit (e, a, b)) (h7 : legit (e, a, c)) {n : ℕ} (hn : 2 ≤ n) : BiRing d legit n := by
  rcases Nat.even_or_odd' n with ⟨k, rfl | rfl⟩
  · refine biRing_of_word hn (fun j => if j % 2 = 0 then a else b) (fun j _ => by split_ifs <;> assumption)
      (fun j _ => ?_) ?_ ?_
    · rcases Nat.mod_two_eq_zero_or_one j with h | h
      · rw [if_pos h, if_neg (by omega), if_pos (by omega)]
        exact h1
      · rw [if_neg (by omega), if_pos (by omega), if_neg (by omega)]
        exact h3
    · rw [if_pos (by omega), if_pos rfl]
    · rw [if_neg (by omega), if_neg (by omega)]
  · obtain ⟨k, rfl⟩ : ∃ m, k = m + 1 := ⟨k - 1, by omega⟩
    obtain ⟨f, hf⟩ : ∃ f : ℕ → ℕ, f = fun j => if j = 0 ∨ j = 2 * k + 3 then e else if j = 2 * k + 2 then c else
      if j = 2 * k + 4 then a else if j % 2 = 1 then a else b := ⟨_, rfl⟩
    have f0 : f 0 = e := by rw [hf]; exact if_pos (by omega)
    have f3 : f (2 * k + 3) = e := by rw [hf]; exact if_pos (by omega)
    have f2 : f (2 * k + 2) = c := by rw [hf]; exact (if_neg (by omega)).trans (if_pos rfl)
    have f4 : f (2 * k + 4) = a := by
      rw [hf]; exact (if_neg (by omega)).trans ((if_neg (by omega)).trans (if_pos rfl))
    have fo : ∀ j, j < 2 * k + 3 → j % 2 = 1 → f j = a := fun j h h' => by
      rw [hf]; exact (if_neg (by omega)).trans ((if_neg (by omega)).trans ((if_neg (by omega)).trans (if_pos h')))
    have fe : ∀ j, 0 < j → j < 2 * k + 2 → j % 2 = 0 → f j = b := fun j h0 h h' => by
      rw [hf]; exact (if_neg (by omega)).trans ((if_neg (by omega)).trans ((if_neg (by omega)).trans (if_neg (by omega))))
    refine biRing_of_word hn f (fun j _ => by rw [hf]; dsimp only; split_ifs <;> assumption) (fun j hj => ?_)
      (f3.trans f0.symm) (f4.trans (fo 1 (by omega) rfl).symm)
    by_cases c0 : j = 0
    · subst c0
      rw [f0, fo (0 + 1) (by omega) rfl]
      rcases Nat.eq_zero_or_pos k with rfl | hk
      · rw [show f (0 + 2) = c from f2]; exact h7
      · rw [fe (0 + 2) (by omega) (by omega) rfl]; exact h6
    by_cases c1 : j = 2 * k + 2
    · subst c1; rw [f2, f3, f4]; exact h5
    by_cases c2 : j = 2 * k + 1
    · subst c2; rw [fo _ (by omega) (by omega), f2, f3]; exact h2
    by_cases c3 : j = 2 * k
    · subst c3; rw [fe _ (by omega) (by omega) (by omega), fo _ (by omega) (by omega), f2]; exact h4
    rcases Nat.mod_two_eq_zero_or_one j with h | h
    · rw [fe j (by omega) (by omega) h, fo _ (by omega) (by omega), fe _ (by omega) (by omega) (by omega)]; exact h3
    · rw [fo j (by omega) h, fe _ (by omega) (by omega) (by omega), fo _ (by omega) (by omega)]; exact h1

theorem biCk_iff {S : Finset ℕ} {a b c : ℕ} : biCk d S a b c = true ↔ enumIdxOfPcConfig (a, b, c) d ∈ S := by
  simp [biCk]

/-- **C114, `subck_match`.**  The answer is as its comment in the code says. -/
theorem C114_match (S : Finset ℕ) : subckMatch d S = true ↔ ∃ a b c e, a < d ∧ b < d ∧ c < d ∧ e < d ∧
    ((a ≠ b ∧ a ≠ c ∧ a ≠ e) ∨ (a = b ∧ a = c ∧ a = e)) ∧
    ∀ t ∈ [(a, b, a), (a, c, e), (b, a, b), (b, a, c), (c, e, a), (e, a, b), (e, a, c)], enumIdxOfPcConfig t d ∈ S := by
  unfold subckMatch
  simp only [List.any_eq_true, List.mem_range, Bool.and_eq_true, biCk_iff, Bool.or_eq_true, decide_eq_true_eq,
    Bool.not_eq_true', decide_eq_false_iff_not, List.forall_mem_cons, List.not_mem_nil, false_implies, implies_true,
    and_true]
  constructor
  · rintro ⟨a, ha, b, hb, ⟨h1, h2⟩, rfl | ⟨c, hc, ⟨h3, h4⟩, e, he, ⟨⟨⟨h5, h6⟩, h7⟩, h8⟩, h9⟩⟩
    · exact ⟨a, a, a, a, ha, ha, ha, ha, Or.inr ⟨rfl, rfl, rfl⟩, h1, h1, h1, h1, h1, h1, h1⟩
    · by_cases hab : a = b
      · subst hab
        exact ⟨a, a, a, a, ha, ha, ha, ha, Or.inr ⟨rfl, rfl, rfl⟩, h1, h1, h1, h1, h1, h1, h1⟩
      · exact ⟨a, b, c, e, ha, hb, hc, he, Or.inl ⟨hab, fun h => h3 h.symm, fun h => h5 h.symm⟩, h1, h6, h2, h4, h7, h8,
          h9⟩
  · rintro ⟨a, b, c, e, ha, hb, hc, he, hor, h1, h2, h3, h4, h5, h6, h7⟩
    refine ⟨a, ha, b, hb, ⟨h1, h3⟩, ?_⟩
    rcases hor with ⟨g1, g2, g3⟩ | ⟨g1, -, -⟩
    · exact Or.inr ⟨c, hc, ⟨fun h => g2 h.symm, h4⟩, e, he, ⟨⟨⟨fun h => g3 h.symm, h2⟩, h5⟩, h6⟩, h7⟩
    · exact Or.inl g1

/-- **C114, `subck_match` and sizes.**  A set that matches has rings of all sizes from 2. -/
theorem C114_match_rings {S : Finset ℕ} (h : subckMatch d S = true) (n : ℕ) (hn : 2 ≤ n) :
    BiRing d (fun c => enumIdxOfPcConfig c d ∈ S) n := by
  obtain ⟨a, b, c, e, ha, hb, hc, he, -, hm⟩ := (C114_match S).mp h
  exact biRing_seven ha hb hc he (hm _ (by simp)) (hm _ (by simp)) (hm _ (by simp)) (hm _ (by simp)) (hm _ (by simp))
    (hm _ (by simp)) (hm _ (by simp)) hn

theorem patternSet_spec : ∀ (l : List (ℕ × ℕ × ℕ)) (s : Finset ℕ), (∀ c ∈ l, c.1 < d ∧ c.2.1 < d ∧ c.2.2 < d) →
    ∃ p, l.foldlM (fun s c => if enumIdxOfPcConfig c d < d * d * d then some (insert (enumIdxOfPcConfig c d) s) else none)
      s = some p ∧ ∀ i, i ∈ p ↔ i ∈ s ∨ ∃ c ∈ l, enumIdxOfPcConfig c d = i := by
  intro l
  induction l with
  | nil => exact fun s _ => ⟨s, rfl, by simp⟩
  | cons c l ih =>
    intro s h
    obtain ⟨h1, h2, h3⟩ := h c (by simp)
    obtain ⟨p, hp, hm⟩ := ih (insert (enumIdxOfPcConfig c d) s) fun c hc => h c (by simp [hc])
    refine ⟨p, ?_, fun i => ?_⟩
    · rw [List.foldlM_cons, if_pos ((biCoded d).enc _ _ _ h1 h2 h3).2]
      exact hp
    · rw [hm]
      simp only [Finset.mem_insert, List.mem_cons, exists_eq_or_imp]
      constructor
      · rintro ((h | h) | h)
        · exact Or.inr (Or.inl h.symm)
        · exact Or.inl h
        · exact Or.inr (Or.inr h)
      · rintro (h | h | h)
        · exact Or.inl (Or.inr h)
        · exact Or.inl (Or.inl h.symm)
        · exact Or.inr h

/-- `subgraph_isomorphism_ck` on sets. -/
theorem subgraph_sets {P S : Finset ℕ} : ∃ b, subgraphIsomorphismCk (biBits d P) (biBits d S) d = some b ∧
    (b = true ↔ ∃ σ : Equiv.Perm (Fin d), ∀ i ∈ P, i < d * d * d → biRen σ i ∈ S) := by
  obtain ⟨b, h1, h2⟩ := C35_subgraph d _ _ (biBits_length P) (biBits_length S)
  refine ⟨b, h1, h2.trans (exists_congr fun σ => ?_)⟩
  have hlt : ∀ a b c : Fin d, ((a : ℕ) * d + b) * d + c < d * d * d := fun a b c => index3_lt a.2 b.2 c.2
  constructor
  · intro h i hi hlt'
    obtain ⟨x, y, z, rfl⟩ := index3_cases (d := d) hlt'
    have := h x y z (by rw [biBits_get (hlt x y z)]; simpa using hi)
    rw [biBits_get (hlt _ _ _)] at this
    rw [biRen_index]
    simpa using this
  · intro h x y z hx
    rw [biBits_get (hlt x y z)] at hx
    rw [biBits_get (hlt _ _ _), ← biRen_index]
    simpa using h _ (by simpa using hx) (hlt x y z)

/-- **C114, patterns.**  For values that are in the domain: some renaming of the pattern is in the set. -/
theorem C114_pattern_partial (l : List (ℕ × ℕ × ℕ)) (hl : ∀ c ∈ l, c.1 < d ∧ c.2.1 < d ∧ c.2.2 < d) (S : Finset ℕ) :
    ∃ b, subckPattern d l S = some b ∧ (b = true ↔ ∃ σ : Equiv.Perm (Fin d), ∀ x y z : Fin d,
      ((x : ℕ), (y : ℕ), (z : ℕ)) ∈ l → enumIdxOfPcConfig (σ x, σ y, σ z) d ∈ S) := by
  obtain ⟨p, hp, hm⟩ := patternSet_spec (d := d) l ∅ hl
  obtain ⟨b, h1, h2⟩ := subgraph_sets (d := d) (P := p) (S := S)
  refine ⟨b, by unfold subckPattern patternSet; rw [hp]; exact h1, h2.trans (exists_congr fun σ => ?_)⟩
  have e : ∀ x y z : Fin d, biRen σ (enumIdxOfPcConfig ((x : ℕ), (y : ℕ), (z : ℕ)) d) =
      enumIdxOfPcConfig ((σ x : ℕ), (σ y : ℕ), (σ z : ℕ)) d := fun x y z => by
    rw [biRen, ((biCoded d).enc _ _ _ x.2 y.2 z.2).1]
    simp [biConf, biVal_fin]
  constructor
  · intro h x y z hxyz
    rw [← e]
    exact h _ ((hm _).mpr (Or.inr ⟨_, hxyz, rfl⟩)) ((biCoded d).enc _ _ _ x.2 y.2 z.2).2
  · intro h i hi _
    obtain ⟨⟨x, y, z⟩, hc, rfl⟩ := ((hm i).mp hi).resolve_left (by simp)
    obtain ⟨h1, h2, h3⟩ := hl _ hc
    rw [e ⟨x, h1⟩ ⟨y, h2⟩ ⟨z, h3⟩]
    exact h ⟨x, h1⟩ ⟨y, h2⟩ ⟨z, h3⟩ hc

/-- **C114, known patterns and sizes.**  A set with one of the three patterns has rings of all sizes from 2. -/
theorem C114_known_rings {S : Finset ℕ} (n : ℕ) (hn : 2 ≤ n) :
    (2 ≤ d → subckPattern d match2 S = some true → BiRing d (fun c => enumIdxOfPcConfig c d ∈ S) n) ∧
    (3 ≤ d → subckPattern d match3 S = some true → BiRing d (fun c => enumIdxOfPcConfig c d ∈ S) n) ∧
    (3 ≤ d → subckPattern d next7 S = some true → BiRing d (fun c => enumIdxOfPcConfig c d ∈ S) n) := by
  refine ⟨fun hd h => ?_, fun hd h => ?_, fun hd h => ?_⟩
  · obtain ⟨b, h1, h2⟩ := C114_pattern_partial (d := d) match2 (fun c hc => by
      simp only [match2, List.mem_cons, List.not_mem_nil, or_false] at hc
      rcases hc with rfl | rfl | rfl | rfl <;> exact ⟨by dsimp only; omega, by dsimp only; omega, by dsimp only; omega⟩) S
    rw [h] at h1
    cases h1
    obtain ⟨σ, hσ⟩ := h2.mp rfl
    let v0 : Fin d := ⟨0, by omega⟩
    let v1 : Fin d := ⟨1, by omega⟩
    exact biRing_seven (a := σ v0) (b := σ v1) (c := σ v0) (e := σ v1) (σ v0).2 (σ v1).2 (σ v0).2 (σ v1).2
      (hσ _ _ _ (by simp [match2, v0, v1])) (hσ _ _ _ (by simp [match2, v0, v1])) (hσ _ _ _ (by simp [match2, v0, v1]))
      (hσ _ _ _ (by simp [match2, v0, v1])) (hσ _ _ _ (by simp [match2, v0, v1])) (hσ _ _ _ (by simp [match2, v0, v1]))
      (hσ _ _ _ (by simp [match2, v0, v1])) hn
  · obtain ⟨b, h1, h2⟩ := C114_pattern_partial (d := d) match3 (fun c hc => by
      simp only [match3, List.mem_cons, List.not_mem_nil, or_false] at hc
      rcases hc with rfl | rfl | rfl | rfl | rfl <;> exact ⟨by dsimp only; omega, by dsimp only; omega, by dsimp only; omega⟩) S
    rw [h] at h1
    cases h1
    obtain ⟨σ, hσ⟩ := h2.mp rfl
    let v0 : Fin d := ⟨0, by omega⟩
    let v1 : Fin d := ⟨1, by omega⟩
    let v2 : Fin d := ⟨2, by omega⟩
    exact biRing_seven (a := σ v0) (b := σ v1) (c := σ v1) (e := σ v2) (σ v0).2 (σ v1).2 (σ v1).2 (σ v2).2
      (hσ _ _ _ (by simp [match3, v0, v1, v2])) (hσ _ _ _ (by simp [match3, v0, v1, v2]))
      (hσ _ _ _ (by simp [match3, v0, v1, v2])) (hσ _ _ _ (by simp [match3, v0, v1, v2]))
      (hσ _ _ _ (by simp [match3, v0, v1, v2])) (hσ _ _ _ (by simp [match3, v0, v1, v2]))
      (hσ _ _ _ (by simp [match3, v0, v1, v2])) hn
  · obtain ⟨b, h1, h2⟩ := C114_pattern_partial (d := d) next7 (fun c hc => by
      simp only [next7, List.mem_cons, List.not_mem_nil, or_false] at hc
      rcases hc with rfl | rfl | rfl | rfl | rfl | rfl | rfl <;> exact ⟨by dsimp only; omega, by dsimp only; omega, by dsimp only; omega⟩) S
    rw [h] at h1
    cases h1
    obtain ⟨σ, hσ⟩ := h2.mp rfl
    let v0 : Fin d := ⟨0, by omega⟩
    let v1 : Fin d := ⟨1, by omega⟩
    let v2 : Fin d := ⟨2, by omega⟩
    exact biRing_seven (a := σ v1) (b := σ v2) (c := σ v0) (e := σ v0) (σ v1).2 (σ v2).2 (σ v0).2 (σ v0).2
      (hσ _ _ _ (by simp [next7, v0, v1, v2])) (hσ _ _ _ (by simp [next7, v0, v1, v2]))
      (hσ _ _ _ (by simp [next7, v0, v1, v2])) (hσ _ _ _ (by simp [next7, v0, v1, v2]))
      (hσ _ _ _ (by simp [next7, v0, v1, v2])) (hσ _ _ _ (by simp [next7, v0, v1, v2]))
      (hσ _ _ _ (by simp [next7, v0, v1, v2])) hn

theorem stringSet_spec {s : List Char} {n : ℕ} (hn : n ≤ s.length) : ∃ p, (List.range n).foldlM (fun acc i =>
      ((s ++ [Char.ofNat 0])[i]?).map fun ch => if ch = '1' then insert i acc else acc) (∅ : Finset ℕ) = some p ∧
    ∀ i, i ∈ p ↔ i < n ∧ s[i]? = some '1' := by
  induction n with
  | zero => exact ⟨∅, rfl, by simp⟩
  | succ n ih =>
    obtain ⟨p, hp, hm⟩ := ih (by omega)
    have e : (s ++ [Char.ofNat 0])[n]? = some s[n] := by
      rw [List.getElem?_append_left (by omega), List.getElem?_eq_getElem]
    refine ⟨if s[n] = '1' then insert n p else p, ?_, fun i => ?_⟩
    · rw [List.range_succ, List.foldlM_append, hp]
      simp only [Option.bind_eq_bind, Option.bind_some, List.foldlM_cons, List.foldlM_nil, e]
      rfl
    · have hin : i = n → (s[i]? = some '1' ↔ s[n] = '1') := by
        rintro rfl
        rw [List.getElem?_eq_getElem (by omega), Option.some.injEq]
      split_ifs with h
      · rw [Finset.mem_insert, hm]
        constructor
        · rintro (rfl | h')
          · exact ⟨by omega, (hin rfl).mpr h⟩
          · exact ⟨by omega, h'.2⟩
        · rintro ⟨h1, h2⟩
          rcases Nat.lt_succ_iff_lt_or_eq.mp h1 with h3 | h3
          · exact Or.inr ⟨h3, h2⟩
          · exact Or.inl h3
      · rw [hm]
        refine ⟨fun h' => ⟨by omega, h'.2⟩, fun h' => ⟨?_, h'.2⟩⟩
        rcases Nat.lt_succ_iff_lt_or_eq.mp h'.1 with h3 | h3
        · exact h3
        · exact absurd ((hin h3).mp h'.2) h

theorem next10Loop_spec (S : Finset ℕ) : ∀ l : List String, (∀ s ∈ l, s.toList.length = 27) → ∃ b,
    next10Loop 3 S l = some b ∧ (b = true ↔ ∃ s ∈ l, ∃ p, stringSet 3 s.toList = some p ∧
      ∃ σ : Equiv.Perm (Fin 3), ∀ i ∈ p, i < 27 → biRen σ i ∈ S) := by
  intro l
  induction l with
  | nil => exact fun _ => ⟨false, rfl, by simp⟩
  | cons s l ih =>
    intro hl
    obtain ⟨b, hb, hb'⟩ := ih fun s hs => hl s (by simp [hs])
    obtain ⟨p, hp, -⟩ := stringSet_spec (s := s.toList) (n := 27) (by rw [hl s (by simp)])
    have hp' : stringSet 3 s.toList = some p := hp
    obtain ⟨c, hc, hc'⟩ := subgraph_sets (d := 3) (P := p) (S := S)
    unfold next10Loop
    rw [hp', Option.bind_some, hc, Option.bind_some]
    cases c with
    | true =>
      refine ⟨true, rfl, ?_⟩
      obtain ⟨σ, hσ⟩ := hc'.mp rfl
      exact ⟨fun _ => ⟨s, by simp, p, hp', σ, hσ⟩, fun _ => rfl⟩
    | false =>
      refine ⟨b, by simpa using hb, hb'.trans ?_⟩
      constructor
      · rintro ⟨s', hs', h⟩
        exact ⟨s', by simp [hs'], h⟩
      · rintro ⟨s', hs', p', h1, h2⟩
        rcases List.mem_cons.mp hs' with rfl | hs'
        · rw [hp'] at h1
          cases h1
          exact absurd (hc'.mpr h2) (by simp)
        · exact ⟨s', hs', p', h1, h2⟩

/-- **C114, `subck_next10`.**  For three values: some renaming of one of the sets in the table is in the set, and then it
has rings of all sizes from 3. -/
theorem C114_next10_partial (S : Finset ℕ) : ∃ b, subckNext10 3 S = some b ∧
    (b = true ↔ ∃ s ∈ next10, ∃ σ : Equiv.Perm (Fin 3), ∀ x y z : Fin 3,
      s.toList[enumIdxOfPcConfig (x, y, z) 3]? = some '1' → enumIdxOfPcConfig (σ x, σ y, σ z) 3 ∈ S) ∧
    (b = true → ∀ n ≥ 3, BiRing 3 (fun c => enumIdxOfPcConfig c 3 ∈ S) n) := by
  have hlen : ∀ s ∈ next10, s.toList.length = 27 := by decide +kernel
  obtain ⟨b, h1, h2⟩ := next10Loop_spec S next10 hlen
  have e : ∀ (σ : Equiv.Perm (Fin 3)) (x y z : Fin 3), biRen σ (enumIdxOfPcConfig ((x : ℕ), (y : ℕ), (z : ℕ)) 3) =
      enumIdxOfPcConfig ((σ x : ℕ), (σ y : ℕ), (σ z : ℕ)) 3 := fun σ x y z => by
    rw [biRen, ((biCoded 3).enc _ _ _ x.2 y.2 z.2).1]
    simp [biConf, biVal_fin]
  refine ⟨b, h1, h2.trans ⟨?_, ?_⟩, fun hb n hn => ?_⟩
  · rintro ⟨s, hs, p, hp, σ, hσ⟩
    refine ⟨s, hs, σ, fun x y z hx => ?_⟩
    obtain ⟨p', hp', hm⟩ := stringSet_spec (s := s.toList) (n := 27) (by rw [hlen s hs])
    have : some p = some p' := hp.symm.trans hp'
    cases this
    have hlt := ((biCoded 3).enc _ _ _ x.2 y.2 z.2).2
    rw [← e]
    exact hσ _ ((hm _).mpr ⟨hlt, hx⟩) hlt
  · rintro ⟨s, hs, σ, hσ⟩
    obtain ⟨p, hp, hm⟩ := stringSet_spec (s := s.toList) (n := 27) (by rw [hlen s hs])
    refine ⟨s, hs, p, hp, σ, fun i hi hlt => ?_⟩
    obtain ⟨g1, g2, g3, g4⟩ := (biCoded 3).dec i hlt
    have g5 := hσ ⟨_, g2⟩ ⟨_, g3⟩ ⟨_, g4⟩ (by
      have := ((hm i).mp hi).2
      rw [← g1] at this
      exact this)
    rw [← e] at g5
    have g6 : enumIdxOfPcConfig ((pcConfigOfEnumIdx i 3).1, (pcConfigOfEnumIdx i 3).2.1, (pcConfigOfEnumIdx i 3).2.2) 3 = i :=
      g1
    rw [g6] at g5
    exact g5
  · obtain ⟨s, hs, p, hp, σ, hσ⟩ := h2.mp hb
    have hall : ∀ s ∈ next10, (stringSet 3 s.toList).bind (fun p => biSat 3 p 3) = some true := by decide +kernel
    have hsat := hall s hs
    rw [hp, Option.bind_some] at hsat
    obtain ⟨p', hp', hm⟩ := stringSet_spec (s := s.toList) (n := 27) (by rw [hlen s hs])
    have : some p = some p' := hp.symm.trans hp'
    cases this
    obtain ⟨b', g1, g2, -⟩ := C112_sat 3 (S := p) (fun i hi => ((hm i).mp hi).1) 3
    rw [hsat] at g1
    cases g1
    obtain ⟨c, hc⟩ := (g2 (by omega)).mp rfl n hn
    refine ⟨_, biRingAt_ren σ (fun a b c ha hb hc hl => ?_) hc⟩
    have := hσ _ hl ((biCoded 3).enc a b c ha hb hc).2
    rw [biRen, ((biCoded 3).enc a b c ha hb hc).1] at this
    exact this

/-- **C114, other numbers of values.**  The option `-subck-known` with two values writes outside of a table, and with four
values it reads behind the end of a string, whatever the set is. -/
theorem C114_known_undefined (S : Finset ℕ) : subckPattern 2 match3 S = none ∧ subckPattern 2 next7 S = none ∧
    subckNext10 4 S = none := by
  have h1 : patternSet 2 match3 = none := by decide +kernel
  have h2 : patternSet 2 next7 = none := by decide +kernel
  have h3 : stringSet 4 ("010100110101000001000011100" : String).toList = none := by decide +kernel
  refine ⟨?_, ?_, ?_⟩
  · unfold subckPattern; rw [h1]; rfl
  · unfold subckPattern; rw [h2]; rfl
  · unfold subckNext10 next10 next10Loop; rw [h3]; rfl

theorem lpValues_spec (S : Finset ℕ) (a c : ℕ) : ∀ l : List ℕ, ∃ b, lpValues d S a c l = some b ∧
    (b = true ↔ ∃ v ∈ l, enumIdxOfPcConfig (a, v, c) d ∈ S ∨
      ¬ Relation.TransGen (fun x y => y ∈ biConts d (insert (enumIdxOfPcConfig (a, v, c) d) S) x)
        (enumIdxOfPcConfig (a, v, c) d) (enumIdxOfPcConfig (a, v, c) d)) := by
  intro l
  induction l with
  | nil => exact ⟨false, rfl, by simp⟩
  | cons v l ih =>
    obtain ⟨b, h1, h2⟩ := ih
    unfold lpValues
    simp only
    split_ifs with h
    · exact ⟨true, rfl, fun _ => ⟨v, by simp, Or.inl h⟩, fun _ => rfl⟩
    · obtain ⟨g, g1, g2⟩ := biLegit_spec d (insert (enumIdxOfPcConfig (a, v, c) d) S) (enumIdxOfPcConfig (a, v, c) d)
      rw [g1, Option.bind_some]
      cases g with
      | false =>
        refine ⟨true, rfl, fun _ => ⟨v, by simp, Or.inr fun ht => ?_⟩, fun _ => rfl⟩
        exact absurd (g2.mpr ht) (by simp)
      | true =>
        refine ⟨b, by simpa using h1, h2.trans ?_⟩
        simp only [List.mem_cons, exists_eq_or_imp]
        exact ⟨fun h => Or.inr h, fun h' => h'.resolve_left fun h'' => h''.elim h fun hn => hn (g2.mp rfl)⟩

theorem lpLoop_spec (S : Finset ℕ) (P : ℕ → Prop) (hP : ∀ i, ∃ b,
      lpValues d S (pcConfigOfEnumIdx i d).1 (pcConfigOfEnumIdx i d).2.2 (List.range d) = some b ∧ (b = true ↔ P i)) :
    ∀ l : List ℕ, ∃ b, lpLoop d S l = some b ∧ (b = true ↔ ∀ i ∈ l, i ∉ S → P i) := by
  intro l
  induction l with
  | nil => exact ⟨true, rfl, by simp⟩
  | cons i l ih =>
    obtain ⟨b, h1, h2⟩ := ih
    unfold lpLoop
    simp only
    split_ifs with h
    · refine ⟨b, h1, h2.trans ?_⟩
      simp only [List.forall_mem_cons]
      exact ⟨fun h' => ⟨fun hn => absurd h hn, h'⟩, fun h' => h'.2⟩
    · obtain ⟨g, g1, g2⟩ := hP i
      rw [g1, Option.bind_some]
      cases g with
      | false =>
        refine ⟨false, rfl, ?_⟩
        simp only [Bool.false_eq_true, false_iff]
        exact fun hall => absurd (g2.mpr (hall i (by simp) h)) (by simp)
      | true =>
        refine ⟨b, by simpa using h1, h2.trans ?_⟩
        simp only [List.forall_mem_cons]
        exact ⟨fun h' => ⟨fun _ => g2.mp rfl, h'⟩, fun h' => h'.2⟩

/-- **C114, `local_propagation_syn`.**  It ends, and the answer is true if and only if for every configuration that is not
in the set the process has a value for which the configuration is in the set, or is in no ring of the configurations of
the set and itself. -/
theorem C114_propagation (S : Finset ℕ) (hS : ∀ i ∈ S, i < d * d * d) : ∃ r, localPropagationSyn d S = some r ∧
    (r = true ↔ ∀ a b c, a < d → b < d → c < d → enumIdxOfPcConfig (a, b, c) d ∉ S → ∃ v < d,
      enumIdxOfPcConfig (a, v, c) d ∈ S ∨
      ¬ ∃ n, BiRingAt d (fun t => enumIdxOfPcConfig t d = enumIdxOfPcConfig (a, v, c) d ∨ enumIdxOfPcConfig t d ∈ S) n
        (a, v, c)) := by
  obtain ⟨r, h1, h2⟩ := lpLoop_spec (d := d) S _ (fun i => lpValues_spec S _ _ _) (List.range (d * d * d))
  refine ⟨r, h1, h2.trans ?_⟩
  have key : ∀ a v c, a < d → v < d → c < d →
      (Relation.TransGen (fun x y => y ∈ biConts d (insert (enumIdxOfPcConfig (a, v, c) d) S) x)
        (enumIdxOfPcConfig (a, v, c) d) (enumIdxOfPcConfig (a, v, c) d) ↔
      ∃ n, BiRingAt d (fun t => enumIdxOfPcConfig t d = enumIdxOfPcConfig (a, v, c) d ∨ enumIdxOfPcConfig t d ∈ S) n
        (a, v, c)) := by
    intro a v c ha hv hc
    obtain ⟨e1, e2⟩ := (biCoded d).enc a v c ha hv hc
    rw [trans_iter]
    refine exists_congr fun n => ?_
    have hS' : ∀ i ∈ insert (enumIdxOfPcConfig (a, v, c) d) S, i < d * d * d := by
      intro i hi
      rcases Finset.mem_insert.mp hi with rfl | hi
      · exact e2
      · exact hS i hi
    rw [ring_iff (biCoded d) hS' (Finset.mem_insert_self _ _), e1]
    simp only [Finset.mem_insert]
  constructor
  · intro h a b c ha hb hc hn
    obtain ⟨e1, e2⟩ := (biCoded d).enc a b c ha hb hc
    obtain ⟨v, hv, hor⟩ := h _ (List.mem_range.mpr e2) hn
    rw [e1] at hor
    have hv' := List.mem_range.mp hv
    exact ⟨v, hv', hor.imp_right fun hk => by rw [← key a v c ha hv' hc]; exact hk⟩
  · intro h i hi hn
    obtain ⟨g1, g2, g3, g4⟩ := (biCoded d).dec i (List.mem_range.mp hi)
    obtain ⟨v, hv, hor⟩ := h (pcConfigOfEnumIdx i d).1 (pcConfigOfEnumIdx i d).2.1 (pcConfigOfEnumIdx i d).2.2 g2 g3 g4
      (fun hm => hn (g1 ▸ hm))
    exact ⟨v, List.mem_range.mpr hv, hor.imp_right fun hk => by rw [key _ v _ g2 hv g4]; exact hk⟩

theorem echo_spec (gt : List Bool → List Bool → Bool) (hgt : StrictTotal (d * d * d) gt) (minsz : ℕ) (S : Finset ℕ)
    (hS : ∀ i ∈ S, i < d * d * d) : ∀ (l : List ℕ) (out : List (List Bool)), out.Nodup → ∃ out',
    l.foldlM (echoRound gt d minsz S) out = some out' ∧ out'.Nodup ∧ ∀ c, c ∈ out' ↔ c ∈ out ∨ ∃ i ∈ l, ∃ T,
      biFix d (S.erase i) = some T ∧ biSat d T minsz = some true ∧ canonicalSet gt (biBits d T) d = some c := by
  intro l
  induction l with
  | nil => exact fun out h => ⟨out, rfl, h, by simp⟩
  | cons i l ih =>
    intro out hnd
    obtain ⟨T, t1, t2⟩ := C112_fixpoint d (S := S.erase i) fun j hj => hS j (Finset.mem_of_mem_erase hj)
    have hT : ∀ j ∈ T, j < d * d * d := fun j hj => hS j (Finset.mem_of_mem_erase ((t2 j).mp hj).1)
    obtain ⟨b, b1, -⟩ := C112_sat d hT minsz
    obtain ⟨⟨C, hC, -⟩, -⟩ := C35_canonical_set gt d hgt _ _ (biBits_length T) (biBits_length T)
    have step : ∃ o, echoRound gt d minsz S out i = some o ∧ o.Nodup ∧ ∀ c, c ∈ o ↔ c ∈ out ∨ (b = true ∧ c = C) := by
      unfold echoRound
      rw [t1, Option.bind_some, b1, Option.bind_some]
      cases b with
      | false => exact ⟨out, rfl, hnd, by simp⟩
      | true =>
        refine ⟨if C ∈ out then out else out ++ [C], by simp [hC], ?_, fun c => ?_⟩
        · split_ifs with h
          · exact hnd
          · rw [List.nodup_append]
            exact ⟨hnd, by simp, fun x hx y hy => by rw [List.mem_singleton.mp hy]; exact fun e => h (e ▸ hx)⟩
        · split_ifs with h
          · simp only [true_and]
            exact ⟨fun h' => Or.inl h', fun h' => h'.elim id fun e => e ▸ h⟩
          · simp
    obtain ⟨o, o1, o2, o3⟩ := step
    obtain ⟨out', q1, q2, q3⟩ := ih o o2
    refine ⟨out', by rw [List.foldlM_cons, o1]; exact q1, q2, fun c => ?_⟩
    rw [q3, o3]
    simp only [List.mem_cons, exists_eq_or_imp, t1, Option.some.injEq, or_assoc]
    refine or_congr_right (or_congr_left ?_)
    constructor
    · rintro ⟨rfl, rfl⟩
      exact ⟨T, rfl, b1, hC⟩
    · rintro ⟨T', rfl, h1, h2⟩
      rw [b1] at h1
      rw [hC] at h2
      exact ⟨Option.some.inj h1, (Option.some.inj h2).symm⟩

/-- **C114, `echo_subsets`.**  It ends and writes, each once, the canonical forms of the sets `T` of the configurations in
rings without a configuration `i` of the set, if they have rings of all sizes from `minsz`. -/
theorem C114_subsets (gt : List Bool → List Bool → Bool) (hgt : StrictTotal (d * d * d) gt) (minsz : ℕ) (hm : 0 < minsz)
    (S : Finset ℕ) (hS : ∀ i ∈ S, i < d * d * d) : ∃ out, echoSubsets gt d minsz S = some out ∧ out.Nodup ∧
    ∀ c, c ∈ out ↔ ∃ i ∈ S, ∃ T : Finset ℕ, (∀ j, j ∈ T ↔ j ∈ S ∧ j ≠ i ∧ ∃ n,
        BiRingAt d (fun t => enumIdxOfPcConfig t d ≠ i ∧ enumIdxOfPcConfig t d ∈ S) n (pcConfigOfEnumIdx j d)) ∧
      (∀ n ≥ minsz, BiRing d (fun t => enumIdxOfPcConfig t d ≠ i ∧ enumIdxOfPcConfig t d ∈ S) n) ∧
      canonicalSet gt (biBits d T) d = some c := by
  obtain ⟨out, h1, h2, h3⟩ := echo_spec gt hgt minsz S hS (biList d S) [] List.nodup_nil
  refine ⟨out, h1, h2, fun c => ?_⟩
  rw [h3]
  simp only [List.not_mem_nil, false_or, mem_biList hS]
  refine exists_congr fun i => and_congr_right fun hi => ?_
  have hSi : ∀ j ∈ S.erase i, j < d * d * d := fun j hj => hS j (Finset.mem_of_mem_erase hj)
  obtain ⟨T, t1, t2⟩ := C112_fixpoint d hSi
  have hT : ∀ j ∈ T, j < d * d * d := fun j hj => hSi j ((t2 j).mp hj).1
  obtain ⟨b, b1, b2, -⟩ := C112_sat d hT minsz
  have hring : ∀ n, BiRing d (fun t => enumIdxOfPcConfig t d ∈ T) n ↔
      BiRing d (fun t => enumIdxOfPcConfig t d ≠ i ∧ enumIdxOfPcConfig t d ∈ S) n := by
    intro n
    constructor
    · rintro ⟨c, hn, x, g1, g2, g3, g4⟩
      exact ⟨c, hn, x, g1, g2, fun k => Finset.mem_erase.mp ((t2 _).mp (g3 k)).1, g4⟩
    · rintro ⟨c, hn, x, g1, g2, g3, g4⟩
      exact ⟨c, hn, x, g1, g2, (C112_fixpoint_rings d hSi t1 n x hn g1 g2).mpr fun k => Finset.mem_erase.mpr (g3 k), g4⟩
  have ht : ∀ j, j ∈ T ↔ j ∈ S ∧ j ≠ i ∧ ∃ n,
      BiRingAt d (fun t => enumIdxOfPcConfig t d ≠ i ∧ enumIdxOfPcConfig t d ∈ S) n (pcConfigOfEnumIdx j d) := by
    intro j
    rw [t2]
    simp only [Finset.mem_erase]
    tauto
  constructor
  · rintro ⟨T', g1, g2, g3⟩
    rw [t1] at g1
    cases g1
    rw [b1] at g2
    exact ⟨T, ht, fun n hn => (hring n).mp ((b2 hm).mp (Option.some.inj g2) n hn), g3⟩
  · rintro ⟨T', g1, g2, g3⟩
    have : T' = T := by
      ext j
      rw [g1, ht]
    subst this
    refine ⟨T', t1, ?_, g3⟩
    rw [b1, (b2 hm).mpr fun n hn => (hring n).mpr (g2 n hn)]

/-- Cases of C114: the pattern `next7` itself matches, with three values; it has no configuration that is not needed; and a
set with the pattern `match2` and one more configuration can do without it. -/
example : subckMatch 3 {1, 3, 9, 11, 15, 17, 22} = true ∧ subckMatch 3 {1, 3, 9} = false ∧
    subckPattern 3 next7 {1, 3, 9, 11, 15, 17, 22} = some true ∧ subckPattern 3 match2 {1, 3, 9, 11, 15, 17, 22} = some false ∧
    localPropagationSyn 2 {1, 3, 4, 2} = some true ∧ localPropagationSyn 2 {1, 2} = some false ∧
    (echoSubsets sampleGt 2 3 {1, 2, 3, 4, 5}).map List.length = some 1 ∧
    (∀ i ∈ ({1, 2, 3, 4, 5} : Finset ℕ), i < 2 * 2 * 2) := by
  decide +kernel

end
end Verif.Props
