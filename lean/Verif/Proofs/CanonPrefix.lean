import Verif.Props.Canonical

/-! The canonical check accepts every beginning of an accepted function. -/

set_option linter.unusedSectionVars false

namespace Verif.Proofs
open Verif.Model Verif.Spec

variable {d : ℕ}

theorem lex_lt_iff {A B : List ℕ} {n : ℕ} (hA : A.length = n) (hB : B.length = n) (e : ℕ) :
    A < B ↔ ∃ i < n, A.getD i e < B.getD i e ∧ ∀ j < i, A.getD j e = B.getD j e := by
  rw [List.lt_iff_exists]
  simp only [List.getD_eq_getElem?_getD]
  constructor
  · rintro (⟨-, h⟩ | ⟨i, h1, h2, h3, h4⟩)
    · omega
    · refine ⟨i, by omega, ?_, fun j hj => ?_⟩
      · rw [List.getElem?_eq_getElem h1, List.getElem?_eq_getElem h2]; exact h4
      · rw [List.getElem?_eq_getElem (by omega), List.getElem?_eq_getElem (by omega)]
        exact h3 j hj
  · rintro ⟨i, hi, h1, h2⟩
    refine .inr ⟨i, by omega, by omega, fun j hj => ?_, ?_⟩
    · have := h2 j hj
      rwa [List.getElem?_eq_getElem (by omega), List.getElem?_eq_getElem (by omega)] at this
    · rwa [List.getElem?_eq_getElem (by omega), List.getElem?_eq_getElem (by omega)] at h1

theorem rval_lt (σ : Equiv.Perm (Fin d)) (v : ℕ) : rval σ v < d ↔ v < d := by
  unfold rval
  split
  · rename_i h; simp [h, (σ ⟨v, h⟩).2]
  · rename_i h; simp [h]

theorem rval_le (σ : Equiv.Perm (Fin d)) (v : ℕ) : rval σ v ≤ d := by
  unfold rval
  split
  · exact (Fin.is_lt _).le
  · exact le_refl _

/-- Renaming keeps the number of actions. -/
theorem card_renamed (σ : Equiv.Perm (Fin d)) {Q Q' : List ℕ}
    (h : ∀ a b : Fin d, pval d Q' (σ a) (σ b) = rval σ (pval d Q a b)) :
    (Finset.univ.filter fun x : Fin d × Fin d => pval d Q' x.1 x.2 < d).card =
      (Finset.univ.filter fun x : Fin d × Fin d => pval d Q x.1 x.2 < d).card := by
  symm
  refine Finset.card_equiv (Equiv.prodCongr σ σ) fun x => ?_
  simp only [Finset.mem_filter, Finset.mem_univ, true_and, Equiv.prodCongr_apply, Prod.map_fst, Prod.map_snd]
  rw [h, rval_lt]

/-- If a function is accepted, then so is its beginning up to any pair of values. -/
theorem canonical_prefix (hd : 0 < d) {P Q : List ℕ} (hP : P.length = d * d) (hQ : Q.length = d * d)
    (hv : ∀ v ∈ P, v ≤ d) {t : ℕ} (hlow : ∀ i ≤ t, Q.getD i d = P.getD i d) (hhigh : ∀ i, t < i → Q.getD i d = d)
    (hc : canonicalCk P d = some true) : canonicalCk Q d = some true := by
  obtain ⟨b, e, h⟩ := Props.canonical_ckLoop Q hd hQ (List.range ((uniPermDoms d).foldl (· * ·) 1))
    (fun k hk => List.mem_range.1 hk)
  obtain ⟨b', e', h'⟩ := Props.canonical_ckLoop P hd hP (List.range ((uniPermDoms d).foldl (· * ·) 1))
    (fun k hk => List.mem_range.1 hk)
  have e1 : canonicalCk P d = some b' := e'
  rw [hc, Option.some.injEq] at e1
  subst e1
  show canonicalCkLoop Q d _ = _
  rw [e]
  by_contra hb
  obtain ⟨k, hk, σ, eσ, Q', eQ, hlt⟩ := h.1 (by simpa using hb)
  obtain ⟨Q'', eQ', nQ, gQ⟩ := permutePcAct_spec σ Q hQ
  rw [eQ, Option.some.injEq] at eQ'
  subst eQ'
  obtain ⟨P', eP, nP, gP⟩ := permutePcAct_spec σ P hP
  have hbad := h'.2 ⟨k, hk, σ, eσ, P', eP, ?_⟩
  · cases hbad
  -- entries of the renamed functions
  have hpv : ∀ i, P.getD i d ≤ d := by
    intro i
    rw [List.getD_eq_getElem?_getD]
    cases hi : P[i]? with
    | none => simp
    | some v => simpa using hv v (List.mem_of_getElem? hi)
  have hqv : ∀ i, Q.getD i d ≤ d := by
    intro i
    rcases Nat.lt_or_ge t i with h | h
    · rw [hhigh i h]
    · rw [hlow i h]; exact hpv i
  have idx : ∀ i < d * d, ∃ a b : Fin d, i = (σ a : ℕ) * d + σ b := by
    intro i hi
    have hk : i / d < d := by rw [Nat.div_lt_iff_lt_mul hd]; omega
    refine ⟨σ.symm ⟨i / d, hk⟩, σ.symm ⟨i % d, Nat.mod_lt _ hd⟩, ?_⟩
    simp only [Equiv.apply_symm_apply]
    rw [Nat.mul_comm]; exact (Nat.div_add_mod i d).symm
  have hsub : ∀ i < d * d, Q'.getD i d = d ∨ P'.getD i d = Q'.getD i d := by
    intro i hi
    obtain ⟨a, b, rfl⟩ := idx i hi
    have h1 := gQ a b
    have h2 := gP a b
    simp only [pval] at h1 h2
    rw [h1, h2]
    rcases Nat.lt_or_ge t ((a : ℕ) * d + b) with h | h
    · left; rw [hhigh _ h]; simp [rval]
    · right; rw [hlow _ h]
  have hP'v : ∀ i < d * d, P'.getD i d ≤ d := by
    intro i hi
    obtain ⟨a, b, rfl⟩ := idx i hi
    have h2 := gP a b
    simp only [pval] at h2
    rw [h2]; exact rval_le _ _
  obtain ⟨i, hi, h1, h2⟩ := (lex_lt_iff nQ hQ d).1 hlt
  have hit : i ≤ t := by
    by_contra hit
    have hss : (Finset.univ.filter fun x : Fin d × Fin d => pval d Q x.1 x.2 < d) ⊂
        (Finset.univ.filter fun x : Fin d × Fin d => pval d Q' x.1 x.2 < d) := by
      rw [Finset.ssubset_iff_of_subset]
      · obtain ⟨a, b, rfl⟩ := idx i hi
        refine ⟨(σ a, σ b), ?_, ?_⟩
        · simp only [Finset.mem_filter, Finset.mem_univ, true_and]
          unfold pval
          exact lt_of_lt_of_le h1 (hqv _)
        · simp only [Finset.mem_filter, Finset.mem_univ, true_and]
          unfold pval
          rw [hhigh _ (by omega)]; omega
      · rintro ⟨a, b⟩ hx
        simp only [Finset.mem_filter, Finset.mem_univ, true_and] at hx ⊢
        unfold pval at hx ⊢
        have : (a : ℕ) * d + b < i := by
          by_contra hge
          rw [hhigh _ (by omega)] at hx
          omega
        rw [h2 _ this]; exact hx
    exact absurd (card_renamed σ gQ) (Finset.card_lt_card hss).ne'
  have hle : ∀ j < i, P'.getD j d ≤ P.getD j d := by
    intro j hj
    have hq := h2 j hj
    rw [hlow j (by omega)] at hq
    rcases hsub j (by omega) with h | h
    · rw [← hq, h]; exact hP'v j (by omega)
    · rw [h, hq]
  have hlt' : P'.getD i d < P.getD i d := by
    rw [hlow i hit] at h1
    rcases hsub i hi with h | h
    · have := hpv i; omega
    · rw [h]; exact h1
  rw [lex_lt_iff nP hP d]
  have hex : ∃ i, P'.getD i d < P.getD i d := ⟨i, hlt'⟩
  refine ⟨Nat.find hex, lt_of_le_of_lt (Nat.find_min' hex hlt') hi, Nat.find_spec hex, fun j hj => ?_⟩
  have := Nat.find_min hex hj
  have hji : j < i := lt_of_lt_of_le hj (Nat.find_min' hex hlt')
  have := hle j hji
  omega

end Verif.Proofs
