import Verif.Spec.Rename
import Verif.Proofs.Canonical
import Mathlib.Data.List.Lex
import Mathlib.Order.Defs.LinearOrder
import Mathlib.Data.Fintype.Perm
import Mathlib.Data.Finite.Prod
import Mathlib.Data.Finset.Max
import Mathlib.Data.Fin.VecNotation

/-!
C34, C35, C36: isomorph rejection of propagation functions and of sets of local configurations.
-/

set_option linter.unusedSectionVars false

namespace Verif.Props
open Verif.Model Verif.Spec Verif.Proofs

/-! ### C36 -/

/-- C36: numbers below `d³` and configurations over `{0..d-1}` correspond one to one. -/
theorem C36_config_index (d : ℕ) :
    (∀ i < d * d * d, enumIdxOfPcConfig (pcConfigOfEnumIdx i d) d = i ∧
      (pcConfigOfEnumIdx i d).1 < d ∧ (pcConfigOfEnumIdx i d).2.1 < d ∧
      (pcConfigOfEnumIdx i d).2.2 < d) ∧
    (∀ a b c, a < d → b < d → c < d →
      pcConfigOfEnumIdx (enumIdxOfPcConfig (a, b, c) d) d = (a, b, c) ∧
      enumIdxOfPcConfig (a, b, c) d < d * d * d) := by
  have fwd : ∀ a b c, a < d → b < d → c < d →
      pcConfigOfEnumIdx (enumIdxOfPcConfig (a, b, c) d) d = (a, b, c) := by
    intro a b c ha hb hc
    simp [pcConfigOfEnumIdx, enumIdxOfPcConfig, state_index (index3_inDoms hb ha hc)]
  refine ⟨fun i hi => ?_, fun a b c ha hb hc => ⟨fwd a b c ha hb hc, ?_⟩⟩
  · obtain ⟨a, b, c, rfl⟩ := index3_cases (d := d) hi
    have h := fwd b a c b.2 a.2 c.2
    have e : enumIdxOfPcConfig ((b : ℕ), (a : ℕ), (c : ℕ)) d = ((a : ℕ) * d + b) * d + c := by
      simp [enumIdxOfPcConfig, index3]
    rw [e] at h
    rw [h]
    exact ⟨e, b.2, a.2, c.2⟩
  · show indexOfState [b, a, c] [d, d, d] < _
    rw [index3]
    exact index3_lt hb ha hc

/-- A case of C36: the process value comes second in the tuple but first in the number. -/
example : pcConfigOfEnumIdx 14 3 = (1, 1, 2) ∧ pcConfigOfEnumIdx 5 3 = (1, 0, 2) := by decide

/-! ### C35 -/

/-- C35: the rounds of `canonical_set` enumerate every permutation of the values exactly once. -/
theorem C35_permutations (d : ℕ) :
    (∀ k < (biPermDoms d).foldl (· * ·) 1, ∃ m, biPermMap d k = some m ∧ m.Perm (List.range d)) ∧
    (∀ m : List ℕ, m.Perm (List.range d) →
      ∃! k, k < (biPermDoms d).foldl (· * ·) 1 ∧ biPermMap d k = some m) := by
  refine ⟨biPermMap_spec d, fun m hm => ?_⟩
  obtain ⟨k, h1, h2, h3⟩ := biPermMap_unique d m hm
  exact ⟨k, ⟨h1, h2⟩, fun k' h => h3 k' h.1 h.2⟩

/-- A case of C35: round 3 of 6. -/
example : (biPermDoms 3).foldl (· * ·) 1 = 6 ∧ biPermMap 3 3 = some [1, 2, 0] := by decide

variable {d : ℕ}

private theorem setRenamed_iff {σ : Equiv.Perm (Fin d)} {A B : List Bool}
    (hA : A.length = d * d * d) (hB : B.length = d * d * d) :
    SetRenamed σ A B ↔ ∀ a b c : Fin d, bit d B (σ a) (σ b) (σ c) = bit d A a b c := by
  unfold SetRenamed
  refine forall_congr' fun a => forall_congr' fun b => forall_congr' fun c => ?_
  have h1 := index3_lt a.2 b.2 c.2
  have h2 := index3_lt (σ a).2 (σ b).2 (σ c).2
  rw [List.getElem?_eq_getElem (by omega), List.getElem?_eq_getElem (by omega)]
  simp [bit, List.getD_eq_getElem?_getD, hA, hB, h1, h2]

private theorem setRenamed_unique {σ : Equiv.Perm (Fin d)} {A B C : List Bool}
    (hA : A.length = d * d * d) (hB : B.length = d * d * d) (hC : C.length = d * d * d)
    (h1 : SetRenamed σ A B) (h2 : SetRenamed σ A C) : B = C := by
  rw [setRenamed_iff hA hB] at h1
  rw [setRenamed_iff hA hC] at h2
  refine bit_ext hB hC fun a b c => ?_
  have e1 := h1 (σ.symm a) (σ.symm b) (σ.symm c)
  have e2 := h2 (σ.symm a) (σ.symm b) (σ.symm c)
  simp only [Equiv.apply_symm_apply] at e1 e2
  rw [e1, e2]

private theorem setRenamed_trans {σ τ : Equiv.Perm (Fin d)} {A B C : List Bool}
    (h1 : SetRenamed σ A B) (h2 : SetRenamed τ B C) : SetRenamed (σ.trans τ) A C := by
  intro a b c
  rw [← h1 a b c, ← h2 (σ a) (σ b) (σ c)]
  rfl

private theorem setRenamed_symm {σ : Equiv.Perm (Fin d)} {A B : List Bool}
    (h1 : SetRenamed σ A B) : SetRenamed σ.symm B A := by
  intro a b c
  have := h1 (σ.symm a) (σ.symm b) (σ.symm c)
  simp only [Equiv.apply_symm_apply] at this
  exact this.symm

private theorem setRenamed_refl (A : List Bool) : SetRenamed (Equiv.refl (Fin d)) A A := by
  intro a b c; rfl

private theorem round_map (d k : ℕ) (hk : k < (biPermDoms d).foldl (· * ·) 1) :
    ∃ σ : Equiv.Perm (Fin d), biPermMap d k = some (permList σ) := by
  obtain ⟨m, e, hm⟩ := biPermMap_spec d k hk
  obtain ⟨σ, rfl⟩ := exists_permList m hm
  exact ⟨σ, e⟩

private theorem permute_renamed (σ : Equiv.Perm (Fin d)) (A : List Bool)
    (hA : A.length = d * d * d) :
    ∃ B, permutePcConfig A (permList σ) = some B ∧ B.length = d * d * d ∧ SetRenamed σ A B := by
  obtain ⟨B, e, n, g⟩ := permutePcConfig_spec σ A hA
  exact ⟨B, e, n, (setRenamed_iff hA n).2 g⟩

private theorem canonical_fold {gt : List Bool → List Bool → Bool} (A : List Bool)
    (hA : A.length = d * d * d) (hgt : StrictTotal (d * d * d) gt) (L : List ℕ)
    (hL : ∀ k ∈ L, k < (biPermDoms d).foldl (· * ·) 1) (X : List Bool)
    (hX : X.length = d * d * d) (rX : ∃ σ : Equiv.Perm (Fin d), SetRenamed σ A X) :
    ∃ C, L.foldlM (canonicalRound gt A d) X = some C ∧ C.length = d * d * d ∧
      (∃ σ : Equiv.Perm (Fin d), SetRenamed σ A C) ∧ gt X C = false ∧
      ∀ k ∈ L, ∀ σ : Equiv.Perm (Fin d), biPermMap d k = some (permList σ) → ∀ B,
        B.length = d * d * d → SetRenamed σ A B → gt B C = false := by
  induction L generalizing X with
  | nil => exact ⟨X, rfl, hX, rX, hgt.irrefl X hX, by simp⟩
  | cons k L ih =>
    obtain ⟨σ, eσ⟩ := round_map d k (hL k (by simp))
    obtain ⟨B, eB, nB, rB⟩ := permute_renamed σ A hA
    set Y := if gt B X then B else X with hY
    have e : canonicalRound gt A d X k = some Y := by
      simp [canonicalRound, eσ, eB, hY]
    have nY : Y.length = d * d * d := by rw [hY]; split <;> assumption
    have rY : ∃ σ : Equiv.Perm (Fin d), SetRenamed σ A Y := by
      rw [hY]; split
      · exact ⟨σ, rB⟩
      · exact rX
    obtain ⟨C, eC, nC, rC, gC, hC⟩ := ih (fun k hk => hL k (by simp [hk])) Y nY rY
    have low : ∀ Z, Z.length = d * d * d → gt Z Y = false → gt Z C = false := by
      intro Z nZ hZ
      by_contra hc
      simp only [Bool.not_eq_false] at hc
      rcases hgt.total Z Y nZ nY with h | h | h
      · rw [h] at hZ; cases hZ
      · rw [← h, hc] at gC; cases gC
      · have := hgt.trans Y Z C nY nZ nC h hc
        rw [this] at gC; cases gC
    have hBY : gt B Y = false := by
      rw [hY]
      by_cases h : gt B X = true
      · rw [if_pos h]; exact hgt.irrefl B nB
      · rw [if_neg h]; simpa using h
    have hXY : gt X Y = false := by
      rw [hY]
      by_cases h : gt B X = true
      · rw [if_pos h]
        by_contra hc
        simp only [Bool.not_eq_false] at hc
        have := hgt.trans X B X hX nB hX hc h
        rw [hgt.irrefl X hX] at this; cases this
      · rw [if_neg h]; exact hgt.irrefl X hX
    refine ⟨C, ?_, nC, rC, low X hX hXY, ?_⟩
    · rw [List.foldlM_cons, e]; exact eC
    · intro k' hk' σ' e' B' nB' rB'
      rcases List.mem_cons.1 hk' with rfl | hk'
      · rw [eσ, Option.some.injEq] at e'
        have hs : σ = σ' := by
          ext i
          have h1 := permList_get σ i
          rw [e', permList_get, Option.some.injEq] at h1
          exact h1.symm
        subst hs
        have := setRenamed_unique hA nB nB' rB rB'
        subst this
        exact low _ nB hBY
      · exact hC k' hk' σ' e' B' nB' rB'

private theorem canonical_spec {gt : List Bool → List Bool → Bool} (A : List Bool)
    (hA : A.length = d * d * d) (hgt : StrictTotal (d * d * d) gt) :
    ∃ C, canonicalSet gt A d = some C ∧ C.length = d * d * d ∧
      (∃ σ : Equiv.Perm (Fin d), SetRenamed σ A C) ∧
      ∀ (σ : Equiv.Perm (Fin d)) (B : List Bool), B.length = d * d * d → SetRenamed σ A B →
        gt B C = false := by
  obtain ⟨C, e, n, r, -, h⟩ := canonical_fold A hA hgt _ (fun k hk => List.mem_range.1 hk) A hA
    ⟨_, setRenamed_refl A⟩
  refine ⟨C, e, n, r, fun σ B nB rB => ?_⟩
  obtain ⟨k, hk, ek, -⟩ := biPermMap_unique d (permList σ) (permList_perm σ)
  exact h k (List.mem_range.2 hk) σ ek B nB rB

/-- C35: `canonical_set` returns a renaming of its argument, and the same set for two arguments
exactly when one is a renaming of the other. -/
theorem C35_canonical_set (gt : List Bool → List Bool → Bool) (d : ℕ)
    (hgt : StrictTotal (d * d * d) gt) (A B : List Bool) (hA : A.length = d * d * d)
    (hB : B.length = d * d * d) :
    (∃ C, canonicalSet gt A d = some C ∧ C.length = d * d * d ∧
      ∃ σ : Equiv.Perm (Fin d), SetRenamed σ A C) ∧
    (canonicalSet gt A d = canonicalSet gt B d ↔ ∃ σ : Equiv.Perm (Fin d), SetRenamed σ A B) := by
  obtain ⟨C, eC, nC, ⟨σ, rC⟩, hC⟩ := canonical_spec A hA hgt
  obtain ⟨D, eD, nD, ⟨τ, rD⟩, hD⟩ := canonical_spec B hB hgt
  refine ⟨⟨C, eC, nC, σ, rC⟩, ?_⟩
  rw [eC, eD, Option.some.injEq]
  constructor
  · rintro rfl
    exact ⟨_, setRenamed_trans rC (setRenamed_symm rD)⟩
  · rintro ⟨ρ, r⟩
    have h1 := hC _ D nD (setRenamed_trans r rD)
    have h2 := hD _ C nC (setRenamed_trans (setRenamed_symm r) rC)
    rcases hgt.total C D nC nD with h | h | h
    · rw [h] at h2; cases h2
    · exact h
    · rw [h] at h1; cases h1

/-- Comparison of tables as binary numbers, most significant bit first: a strict total order. -/
def sampleGt (A B : List Bool) : Bool := decide (B < A)

theorem sampleGt_total (n : ℕ) : StrictTotal n sampleGt where
  irrefl A _ := by simp [sampleGt]
  trans A B C _ _ _ h1 h2 := by
    simp only [sampleGt, decide_eq_true_eq] at *
    exact lt_trans h2 h1
  total A B _ _ := by
    simp only [sampleGt, decide_eq_true_eq]
    rcases lt_trichotomy A B with h | h | h
    · exact Or.inr (Or.inr h)
    · exact Or.inr (Or.inl h)
    · exact Or.inl h

/-- A case of C35: two different sets, one the renaming of the other, and a third. -/
example :
    let A := [true, true, false, false, false, true, false, false]
    let B := [false, false, true, false, false, false, true, true]
    let C := [true, false, false, false, false, true, false, false]
    A.length = 2 * 2 * 2 ∧ A ≠ B ∧
    canonicalSet sampleGt A 2 = some A ∧ canonicalSet sampleGt B 2 = some A ∧
    canonicalSet sampleGt C 2 ≠ some A := by decide +kernel

private theorem bitSubset_iff {n : ℕ} {A B : List Bool} (hA : A.length = n) (hB : B.length = n) :
    bitSubset A B = true ↔ ∀ i < n, A[i]? = some true → B[i]? = some true := by
  simp only [bitSubset, List.all_eq_true]
  constructor
  · intro h i hi ha
    have h1 := h (A[i], B[i]) (by
      rw [List.mem_iff_getElem]
      exact ⟨i, by simp; omega, by simp⟩)
    rw [List.getElem?_eq_getElem (by omega), Option.some.injEq] at ha
    rw [List.getElem?_eq_getElem (by omega), Option.some.injEq]
    simpa [ha] using h1
  · intro h p hp
    obtain ⟨i, hi, rfl⟩ := List.mem_iff_getElem.1 hp
    simp only [List.length_zip] at hi
    have := h i (by omega)
    rw [List.getElem?_eq_getElem (by omega), List.getElem?_eq_getElem (by omega)] at this
    simp only [Option.some.injEq] at this
    simp only [List.getElem_zip]
    cases ha : A[i] with
    | false => rfl
    | true => simp [this ha]

private theorem subgraph_loop (A B : List Bool) (hA : A.length = d * d * d) (L : List ℕ)
    (hL : ∀ k ∈ L, k < (biPermDoms d).foldl (· * ·) 1) :
    ∃ b, subgraphLoop A B d L = some b ∧
      (b = true ↔ ∃ k ∈ L, ∃ σ : Equiv.Perm (Fin d), biPermMap d k = some (permList σ) ∧
        ∃ C, permutePcConfig A (permList σ) = some C ∧ bitSubset C B = true) := by
  induction L with
  | nil => exact ⟨false, rfl, by simp⟩
  | cons k L ih =>
    obtain ⟨σ, eσ⟩ := round_map d k (hL k (by simp))
    obtain ⟨C, eC, nC, rC⟩ := permute_renamed σ A hA
    obtain ⟨b, eb, hb⟩ := ih fun k hk => hL k (by simp [hk])
    have e : subgraphLoop A B d (k :: L) =
        if bitSubset C B then some true else subgraphLoop A B d L := by
      rw [subgraphLoop, eσ, Option.bind_some, eC, Option.bind_some]
    by_cases hs : bitSubset C B = true
    · refine ⟨true, by rw [e, if_pos hs], ?_⟩
      simp only [true_iff]
      exact ⟨k, by simp, σ, eσ, C, eC, hs⟩
    · refine ⟨b, by rw [e, if_neg hs, eb], hb.trans ⟨?_, ?_⟩⟩
      · rintro ⟨k', hk', h⟩; exact ⟨k', by simp [hk'], h⟩
      · rintro ⟨k', hk', σ', e', C', eC', h⟩
        rcases List.mem_cons.1 hk' with rfl | hk'
        · rw [eσ, Option.some.injEq] at e'
          rw [← e', eC, Option.some.injEq] at eC'
          rw [eC'] at hs
          exact absurd h hs
        · exact ⟨k', hk', σ', e', C', eC', h⟩

/-- C35: `subgraph_isomorphism_ck` decides whether some renaming of the first set is contained in
the second. -/
theorem C35_subgraph (d : ℕ) (A B : List Bool) (hA : A.length = d * d * d)
    (hB : B.length = d * d * d) :
    ∃ b, subgraphIsomorphismCk A B d = some b ∧
      (b = true ↔ ∃ (σ : Equiv.Perm (Fin d)), ∀ x y z : Fin d,
        A[((x : ℕ) * d + y) * d + z]? = some true →
        B[((σ x : ℕ) * d + σ y) * d + σ z]? = some true) := by
  obtain ⟨b, e, h⟩ := subgraph_loop A B hA (List.range ((biPermDoms d).foldl (· * ·) 1))
    (fun k hk => List.mem_range.1 hk)
  refine ⟨b, e, h.trans ⟨?_, ?_⟩⟩
  · rintro ⟨k, -, σ, -, C, eC, hs⟩
    obtain ⟨C', eC', nC, rC⟩ := permute_renamed σ A hA
    rw [eC, Option.some.injEq] at eC'
    subst eC'
    refine ⟨σ, fun x y z hx => ?_⟩
    rw [← rC x y z] at hx
    exact (bitSubset_iff nC hB).1 hs _ (index3_lt (σ x).2 (σ y).2 (σ z).2) hx
  · rintro ⟨σ, hσ⟩
    obtain ⟨k, hk, ek, -⟩ := biPermMap_unique d (permList σ) (permList_perm σ)
    obtain ⟨C, eC, nC, rC⟩ := permute_renamed σ A hA
    refine ⟨k, List.mem_range.2 hk, σ, ek, C, eC, (bitSubset_iff nC hB).2 fun i hi hc => ?_⟩
    obtain ⟨x, y, z, rfl⟩ := index3_cases (d := d) hi
    have h1 := rC (σ.symm x) (σ.symm y) (σ.symm z)
    have h2 := hσ (σ.symm x) (σ.symm y) (σ.symm z)
    simp only [Equiv.apply_symm_apply] at h1 h2
    exact h2 (h1 ▸ hc)

/-- A case of C35_subgraph: contained only after renaming. -/
example :
    subgraphIsomorphismCk [true, false, false, false, false, false, false, false]
      [false, false, false, false, true, false, false, true] 2 = some true ∧
    subgraphIsomorphismCk [true, false, true, false, false, false, false, false]
      [false, false, false, false, true, false, false, true] 2 = some false := by decide +kernel

/-! ### C34 -/

theorem ppgRenamed_iff {σ : Equiv.Perm (Fin d)} {P Q : List ℕ}
    (hP : P.length = d * d) (hQ : Q.length = d * d) (hv : ∀ v ∈ P, v ≤ d) :
    PpgRenamed σ P Q ↔ ∀ a b : Fin d, pval d Q (σ a) (σ b) = rval σ (pval d P a b) := by
  unfold PpgRenamed
  refine forall_congr' fun a => forall_congr' fun b => ?_
  have h1 := pair_lt' a.2 b.2
  have h2 := pair_lt' (σ a).2 (σ b).2
  have hp : P[(a : ℕ) * d + b]? = some (pval d P a b) := by
    simp [pval, List.getD_eq_getElem?_getD, hP, h1]
  have hq : Q[(σ a : ℕ) * d + σ b]? = some (pval d Q (σ a) (σ b)) := by
    simp [pval, List.getD_eq_getElem?_getD, hQ, h2]
  have hle : pval d P a b ≤ d := hv _ (List.mem_of_getElem? hp)
  rw [hp, hq]
  simp only [Option.some.injEq]
  by_cases hc : pval d P a b < d
  · simp only [rval, hc, dite_true]
    constructor
    · intro h; exact h.1 ⟨_, hc⟩ rfl
    · intro h
      refine ⟨fun c hcc => ?_, fun h' => by omega⟩
      rw [h]; congr 2; exact Fin.ext hcc
  · have he : pval d P a b = d := by omega
    simp only [rval, hc, dite_false]
    constructor
    · intro h; exact h.2 he
    · intro h
      exact ⟨fun c hcc => by have := c.2; omega, fun _ => h⟩

theorem permuteAct_renamed (σ : Equiv.Perm (Fin d)) (P : List ℕ)
    (hP : P.length = d * d) (hv : ∀ v ∈ P, v ≤ d) :
    ∃ Q, permutePcAct P (permList σ) = some Q ∧ Q.length = d * d ∧ PpgRenamed σ P Q := by
  obtain ⟨Q, e, n, g⟩ := permutePcAct_spec σ P hP
  exact ⟨Q, e, n, (ppgRenamed_iff hP n hv).2 g⟩

theorem canonical_ckLoop (P : List ℕ) (hd : 0 < d) (hP : P.length = d * d)
    (L : List ℕ) (hL : ∀ k ∈ L, k < (uniPermDoms d).foldl (· * ·) 1) :
    ∃ b, canonicalCkLoop P d L = some b ∧
      (b = false ↔ ∃ k ∈ L, ∃ σ : Equiv.Perm (Fin d), uniPermMap d k = some (permList σ) ∧
        ∃ Q, permutePcAct P (permList σ) = some Q ∧ Q < P) := by
  induction L with
  | nil => exact ⟨true, rfl, by simp⟩
  | cons k L ih =>
    obtain ⟨σ, eσ⟩ := uniPermMap_spec hd k (hL k (by simp))
    obtain ⟨Q, eQ, -, -⟩ := permutePcAct_spec σ P hP
    obtain ⟨b, eb, hb⟩ := ih fun k hk => hL k (by simp [hk])
    have e : canonicalCkLoop P d (k :: L) =
        if Q < P then some false else canonicalCkLoop P d L := by
      rw [canonicalCkLoop, eσ, Option.bind_some, eQ, Option.bind_some]
    by_cases hs : Q < P
    · refine ⟨false, by rw [e, if_pos hs], ?_⟩
      simp only [true_iff]
      exact ⟨k, by simp, σ, eσ, Q, eQ, hs⟩
    · refine ⟨b, by rw [e, if_neg hs, eb], hb.trans ⟨?_, ?_⟩⟩
      · rintro ⟨k', hk', h⟩; exact ⟨k', by simp [hk'], h⟩
      · rintro ⟨k', hk', σ', e', Q', eQ', h⟩
        rcases List.mem_cons.1 hk' with rfl | hk'
        · rw [eσ, Option.some.injEq] at e'
          rw [← e', eQ, Option.some.injEq] at eQ'
          rw [eQ'] at hs
          exact absurd h hs
        · exact ⟨k', hk', σ', e', Q', eQ', h⟩

/-- C34, rejection is justified: a function is rejected only if some renaming of it is
lexicographically smaller.  Missing for the full claim: the converse, which is false for `d ≥ 3`
(`C34_counterexample`). -/
theorem C34_canonical_ck_partial (d : ℕ) (hd : 0 < d) (P : List ℕ) (hP : P.length = d * d)
    (hv : ∀ v ∈ P, v ≤ d) :
    ∃ b, canonicalCk P d = some b ∧
      ((∀ (σ : Equiv.Perm (Fin d)) (Q : List ℕ), Q.length = d * d → PpgRenamed σ P Q → ¬ Q < P) →
        b = true) := by
  obtain ⟨b, e, h⟩ := canonical_ckLoop P hd hP (List.range ((uniPermDoms d).foldl (· * ·) 1))
    (fun k hk => List.mem_range.1 hk)
  refine ⟨b, e, fun hmin => ?_⟩
  by_contra hb
  obtain ⟨k, -, σ, -, Q, eQ, hlt⟩ := h.1 (by simpa using hb)
  obtain ⟨Q', eQ', n, r⟩ := permuteAct_renamed σ P hP hv
  rw [eQ, Option.some.injEq] at eQ'
  subst eQ'
  exact hmin σ Q n r hlt

/-- A case of C34_canonical_ck_partial: accepted and rejected functions of the same class. -/
example : canonicalCk [1, 2, 2, 2] 2 = some true ∧ canonicalCk [2, 2, 2, 0] 2 = some false ∧
    [1, 2, 2, 2].length = 2 * 2 ∧ ∀ v ∈ [1, 2, 2, 2], v ≤ 2 := by decide +kernel

/-- Every isomorphism class has a least member. -/
theorem exists_least_renaming (d : ℕ) (hd : 0 < d) (P : List ℕ) (hP : P.length = d * d)
    (hv : ∀ v ∈ P, v ≤ d) :
    ∃ (σ : Equiv.Perm (Fin d)) (Q : List ℕ), Q.length = d * d ∧ PpgRenamed σ P Q ∧
      (∀ v ∈ Q, v ≤ d) ∧
      ∀ (τ : Equiv.Perm (Fin d)) (Q' : List ℕ), Q'.length = d * d → PpgRenamed τ Q Q' → ¬ Q' < Q := by
  choose R eR nR rR using fun σ : Equiv.Perm (Fin d) => permuteAct_renamed σ P hP hv
  obtain ⟨σ, -, hσ⟩ := Finset.exists_min_image (Finset.univ : Finset (Equiv.Perm (Fin d))) R
    ⟨1, Finset.mem_univ _⟩
  have hval : ∀ v ∈ R σ, v ≤ d := by
    intro v hvm
    obtain ⟨i, hi, rfl⟩ := List.mem_iff_getElem.1 hvm
    have hi' : i < d * d := by rw [← nR σ]; exact hi
    have hk : i / d < d := by rw [Nat.div_lt_iff_lt_mul hd]; omega
    have h := (ppgRenamed_iff hP (nR σ) hv).1 (rR σ) (σ.symm ⟨i / d, hk⟩)
      (σ.symm ⟨i % d, Nat.mod_lt _ hd⟩)
    have ee : i / d * d + i % d = i := by rw [Nat.mul_comm]; exact Nat.div_add_mod i d
    simp only [Equiv.apply_symm_apply, pval, ee, List.getD_eq_getElem?_getD,
      List.getElem?_eq_getElem hi, Option.getD_some] at h
    rw [h]
    unfold rval
    split
    · exact (Fin.is_lt _).le
    · exact le_refl _
  refine ⟨σ, R σ, nR σ, rR σ, hval, ?_⟩
  intro τ Q nQ rQ hlt
  have hr : PpgRenamed (σ.trans τ) P Q := by
    intro a b
    refine ⟨fun c hc => ?_, fun hc => ?_⟩
    · exact (rQ (σ a) (σ b)).1 (σ c) ((rR σ a b).1 c hc)
    · exact (rQ (σ a) (σ b)).2 ((rR σ a b).2 hc)
  have : Q = R (σ.trans τ) := by
    have h1 := (ppgRenamed_iff hP nQ hv).1 hr
    have h2 := (ppgRenamed_iff hP (nR _) hv).1 (rR (σ.trans τ))
    refine pval_ext nQ (nR _) fun a b => ?_
    have e1 := h1 ((σ.trans τ).symm a) ((σ.trans τ).symm b)
    have e2 := h2 ((σ.trans τ).symm a) ((σ.trans τ).symm b)
    simp only [Equiv.apply_symm_apply] at e1 e2
    rw [e1, e2]
  rw [this] at hlt
  exact absurd hlt (not_lt.2 (hσ _ (Finset.mem_univ _)))

/-- C34: at least one member of every isomorphism class is accepted. -/
theorem C34_class_kept (d : ℕ) (hd : 0 < d) (P : List ℕ) (hP : P.length = d * d)
    (hv : ∀ v ∈ P, v ≤ d) :
    ∃ (σ : Equiv.Perm (Fin d)) (Q : List ℕ), Q.length = d * d ∧ PpgRenamed σ P Q ∧
      canonicalCk Q d = some true := by
  obtain ⟨σ, Q, n, r, hval, hmin⟩ := exists_least_renaming d hd P hP hv
  obtain ⟨b, e, h⟩ := C34_canonical_ck_partial d hd Q n hval
  exact ⟨σ, Q, n, r, by rw [e, h hmin]⟩

/-- A case of C34_class_kept: of a class of three functions, exactly one is accepted. -/
example : canonicalCk [1, 3, 3, 3, 3, 3, 3, 3, 3] 3 = some true ∧
    canonicalCk [3, 3, 3, 3, 0, 3, 3, 3, 3] 3 = some false ∧
    canonicalCk [3, 3, 3, 3, 3, 3, 3, 3, 0] 3 = some false := by decide +kernel

/-- C34 for domains of at most two values: the check is exact. -/
theorem C34_small_domains (d : ℕ) (hd : 0 < d) (hd2 : d ≤ 2) (P : List ℕ) (hP : P.length = d * d)
    (hv : ∀ v ∈ P, v ≤ d) :
    canonicalCk P d = some true ↔
      ∀ (σ : Equiv.Perm (Fin d)) (Q : List ℕ), Q.length = d * d → PpgRenamed σ P Q → ¬ Q < P := by
  obtain ⟨b, e, h⟩ := canonical_ckLoop P hd hP (List.range ((uniPermDoms d).foldl (· * ·) 1))
    (fun k hk => List.mem_range.1 hk)
  have e' : canonicalCk P d = some b := e
  have all : ∀ σ : Equiv.Perm (Fin d), ∃ k ∈ List.range ((uniPermDoms d).foldl (· * ·) 1),
      uniPermMap d k = some (permList σ) := by
    clear * - hd hd2
    obtain rfl | rfl : d = 1 ∨ d = 2 := by omega
    · decide +kernel
    · decide +kernel
  constructor
  · intro ht σ Q nQ rQ hlt
    rw [e', Option.some.injEq] at ht
    obtain ⟨k, hk, ek⟩ := all σ
    obtain ⟨Q', eQ', n', r'⟩ := permuteAct_renamed σ P hP hv
    have : Q = Q' := by
      have h1 := (ppgRenamed_iff hP nQ hv).1 rQ
      have h2 := (ppgRenamed_iff hP n' hv).1 r'
      refine pval_ext nQ n' fun a b => ?_
      have e1 := h1 (σ.symm a) (σ.symm b)
      have e2 := h2 (σ.symm a) (σ.symm b)
      simp only [Equiv.apply_symm_apply] at e1 e2
      rw [e1, e2]
    have hf := h.2 ⟨k, hk, σ, ek, Q', eQ', this ▸ hlt⟩
    rw [ht] at hf; cases hf
  · intro hmin
    obtain ⟨b', eb, hb⟩ := C34_canonical_ck_partial d hd P hP hv
    rw [eb, hb hmin]

/-- C34 fails for three values: the function below is accepted although the renaming 0→2, 1→0,
2→1 gives a smaller one, since the swaps of src/uni/canonical.cc:53-55 produce only four of the six
permutations. -/
theorem C34_counterexample :
    let P := [1, 3, 1, 2, 2, 3, 2, 2, 3]
    let Q := [1, 3, 1, 1, 3, 1, 3, 0, 0]
    canonicalCk P 3 = some true ∧ Q < P ∧
    ∃ σ : Equiv.Perm (Fin 3), PpgRenamed σ P Q := by
  refine ⟨by decide +kernel, by decide +kernel, ?_⟩
  refine ⟨⟨![2, 0, 1], ![1, 2, 0], by decide, by decide⟩, ?_⟩
  unfold PpgRenamed
  decide +kernel

/-- Hence two members of one class are accepted. -/
theorem C34_two_representatives :
    ∃ P Q : List ℕ, P ≠ Q ∧ P.length = 3 * 3 ∧ Q.length = 3 * 3 ∧
      (∃ σ : Equiv.Perm (Fin 3), PpgRenamed σ P Q) ∧
      canonicalCk P 3 = some true ∧ canonicalCk Q 3 = some true := by
  refine ⟨[1, 3, 1, 2, 2, 3, 2, 2, 3], [1, 3, 1, 1, 3, 1, 3, 0, 0], by decide, rfl, rfl,
    ⟨⟨![2, 0, 1], ![1, 2, 0], by decide, by decide⟩, ?_⟩, by decide +kernel, by decide +kernel⟩
  unfold PpgRenamed
  decide +kernel

end Verif.Props
