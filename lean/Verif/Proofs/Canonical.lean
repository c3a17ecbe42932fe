import Verif.Model.Canonical
import Verif.Proofs.Rep
import Verif.Proofs.Ppg
import Mathlib.Data.Fintype.EquivFin
import Mathlib.Data.Fintype.Card
import Mathlib.Data.List.OfFn
import Mathlib.Data.List.FinRange
import Mathlib.Data.Fintype.List

/-! Enumeration of permutations by swaps; renamings. -/

set_option linter.unusedSectionVars false

namespace Verif.Proofs
open Verif.Model

/-- What remains after moving entry `v` of `y :: ys` to the front by a swap. -/
def fyRest (y : ℕ) (ys : List ℕ) : ℕ → List ℕ
  | 0 => ys
  | k + 1 => ys.set k y

theorem fyRest_length (y : ℕ) (ys : List ℕ) (v : ℕ) : (fyRest y ys v).length = ys.length := by
  cases v <;> simp [fyRest]

theorem set_perm (y : ℕ) (ys : List ℕ) (k : ℕ) (hk : k < ys.length) :
    (ys[k] :: ys.set k y).Perm (y :: ys) := by
  induction ys generalizing k with
  | nil => simp at hk
  | cons z zs ih =>
    cases k with
    | zero => simpa using List.Perm.swap _ _ _
    | succ k =>
      simp only [List.set_cons_succ, List.getElem_cons_succ]
      have hk' : k < zs.length := by simpa using hk
      have := ih k hk'
      calc (zs[k] :: z :: zs.set k y).Perm (z :: zs[k] :: zs.set k y) := List.Perm.swap _ _ _
        _ |>.Perm (z :: y :: zs) := this.cons _
        _ |>.Perm (y :: z :: zs) := List.Perm.swap _ _ _

theorem fyRest_perm (y : ℕ) (ys : List ℕ) (v : ℕ) (hv : v < (y :: ys).length) :
    ((y :: ys)[v] :: fyRest y ys v).Perm (y :: ys) := by
  cases v with
  | zero => exact List.Perm.refl _
  | succ k => exact set_perm y ys k (by simpa using hv)

theorem swapAt_fy (pre : List ℕ) (y : ℕ) (ys : List ℕ) (v : ℕ) (hv : v < (y :: ys).length) :
    swapAt (pre ++ y :: ys) pre.length (pre.length + v) =
      some ((pre ++ [(y :: ys)[v]]) ++ fyRest y ys v) := by
  unfold swapAt
  rw [List.getElem?_append_right (le_refl _), List.getElem?_append_right (by omega),
    Nat.sub_self, Nat.add_sub_cancel_left, List.getElem?_eq_getElem hv]
  simp only [List.getElem?_cons_zero, Option.bind_some, Option.map_some]
  rw [List.set_append_right _ _ (le_refl _), List.set_append_right _ _ (by omega)]
  cases v with
  | zero => simp [fyRest]
  | succ k => simp [fyRest]

theorem biPermDoms_step (n : ℕ) : biPermDoms (n + 2) = (n + 2) :: biPermDoms (n + 1) := by
  simp only [biPermDoms, Nat.add_sub_cancel]
  rw [show n + 2 - 1 = n + 1 by omega, List.range_succ_eq_map, List.map_cons, List.map_map]
  congr 1
  apply List.map_congr_left
  intro i _
  simp

/-- Swaps with a later (or the same) entry produce every permutation from exactly one sequence of
offsets. -/
theorem shuffle_bi (n : ℕ) (L pre : List ℕ) (hL : L.length = n) (hn : L.Nodup) :
    (∀ vs, InDoms vs (biPermDoms n) → ∃ L', L'.Perm L ∧
      shuffleLoop (fun i v => i + v) pre.length vs (pre ++ L) = some (pre ++ L')) ∧
    (∀ L', L'.Perm L → ∃! vs, InDoms vs (biPermDoms n) ∧
      shuffleLoop (fun i v => i + v) pre.length vs (pre ++ L) = some (pre ++ L')) := by
  induction n generalizing L pre with
  | zero =>
    have : L = [] := List.length_eq_zero_iff.1 hL
    subst this
    refine ⟨fun vs h => ?_, fun L' hp => ?_⟩
    · cases h; exact ⟨[], List.Perm.refl _, rfl⟩
    · have : L' = [] := hp.eq_nil
      subst this
      refine ⟨[], ⟨List.Forall₂.nil, rfl⟩, ?_⟩
      rintro vs ⟨h, -⟩
      cases h; rfl
  | succ n ih =>
    cases n with
    | zero =>
      obtain ⟨x, rfl⟩ := List.length_eq_one_iff.1 hL
      refine ⟨fun vs h => ?_, fun L' hp => ?_⟩
      · cases h; exact ⟨[x], List.Perm.refl _, rfl⟩
      · have : L' = [x] := List.perm_singleton.1 hp
        subst this
        refine ⟨[], ⟨List.Forall₂.nil, rfl⟩, ?_⟩
        rintro vs ⟨h, -⟩
        cases h; rfl
    | succ n =>
      obtain ⟨y, ys, rfl⟩ : ∃ y ys, L = y :: ys := by
        cases L with
        | nil => simp at hL
        | cons y ys => exact ⟨y, ys, rfl⟩
      have hys : ys.length = n + 1 := by simpa using hL
      have rest : ∀ v, v < n + 2 → (fyRest y ys v).length = n + 1 ∧ (fyRest y ys v).Nodup := by
        intro v hv
        refine ⟨by rw [fyRest_length, hys], ?_⟩
        have := (fyRest_perm y ys v (by simp [hys]; omega)).nodup_iff.2 hn
        exact (List.nodup_cons.1 this).2
      have step : ∀ v (hv : v < (y :: ys).length) vs,
          shuffleLoop (fun i v => i + v) pre.length (v :: vs) (pre ++ y :: ys) =
          shuffleLoop (fun i v => i + v) (pre ++ [(y :: ys)[v]]).length vs
            ((pre ++ [(y :: ys)[v]]) ++ fyRest y ys v) := by
        intro v hv vs
        rw [shuffleLoop, swapAt_fy pre y ys v hv, Option.bind_some]
        simp
      rw [biPermDoms_step]
      refine ⟨fun vs h => ?_, fun L' hp => ?_⟩
      · cases h with
        | @cons v _ vs _ hv ht =>
          obtain ⟨r1, r2⟩ := rest v hv
          obtain ⟨L', hp, e⟩ := (ih (fyRest y ys v) (pre ++ [(y :: ys)[v]'(by simp [hys]; omega)])
            r1 r2).1 vs ht
          refine ⟨(y :: ys)[v]'(by simp [hys]; omega) :: L', ?_, ?_⟩
          · exact (hp.cons _).trans (fyRest_perm y ys v (by simp [hys]; omega))
          · rw [step v (by simp [hys]; omega), e]; simp
      · obtain ⟨x, T, rfl⟩ : ∃ x T, L' = x :: T := by
          cases L' with
          | nil => have := hp.length_eq; simp at this
          | cons x T => exact ⟨x, T, rfl⟩
        obtain ⟨v, hv, hx⟩ := List.mem_iff_getElem.1 (hp.subset (List.mem_cons_self ..) : x ∈ y :: ys)
        have hv' : v < n + 2 := by simpa [hys] using hv
        obtain ⟨r1, r2⟩ := rest v hv'
        have hT : T.Perm (fyRest y ys v) := by
          have := hp.trans (fyRest_perm y ys v hv).symm
          rw [hx] at this
          exact (List.perm_cons x).1 this
        obtain ⟨vs, ⟨h1, h2⟩, hu⟩ := (ih (fyRest y ys v) (pre ++ [(y :: ys)[v]]) r1 r2).2 T hT
        refine ⟨v :: vs, ⟨List.Forall₂.cons hv' h1, ?_⟩, ?_⟩
        · rw [step v hv, h2, hx]; simp
        · rintro ws ⟨w1, w2⟩
          cases w1 with
          | @cons w _ ws _ hw hws =>
            have hw' : w < (y :: ys).length := by simp [hys]; omega
            rw [step w hw'] at w2
            obtain ⟨q1, q2⟩ := rest w hw
            obtain ⟨L2, -, e2⟩ := (ih (fyRest y ys w) (pre ++ [(y :: ys)[w]]) q1 q2).1 ws hws
            rw [e2, Option.some.injEq, List.append_assoc] at w2
            have := List.append_cancel_left w2
            simp only [List.singleton_append, List.cons.injEq] at this
            have hwv : w = v := by
              rw [← hx] at this
              exact (hn.getElem_inj_iff).1 this.1
            subst hwv
            rw [hu ws ⟨hws, by rw [e2, this.2]⟩]

/-- The permutation maps of all rounds. -/
def biMaps (d : ℕ) : List (Option (List ℕ)) :=
  (List.range ((biPermDoms d).foldl (· * ·) 1)).map (biPermMap d)

theorem biPermMap_spec (d k : ℕ) (hk : k < (biPermDoms d).foldl (· * ·) 1) :
    ∃ m, biPermMap d k = some m ∧ m.Perm (List.range d) := by
  rw [foldl_mul, Nat.one_mul] at hk
  obtain ⟨h1, h2⟩ := index_state hk
  obtain ⟨m, hp, e⟩ := (shuffle_bi d (List.range d) [] (by simp) List.nodup_range).1 _ h1
  exact ⟨m, by simpa [biPermMap] using e, hp⟩

theorem biPermMap_unique (d : ℕ) (m : List ℕ) (hm : m.Perm (List.range d)) :
    ∃ k < (biPermDoms d).foldl (· * ·) 1, biPermMap d k = some m ∧
      ∀ k' < (biPermDoms d).foldl (· * ·) 1, biPermMap d k' = some m → k' = k := by
  obtain ⟨vs, ⟨h1, h2⟩, hu⟩ := (shuffle_bi d (List.range d) [] (by simp) List.nodup_range).2 m hm
  have hlt := index_lt h1
  refine ⟨indexOfState vs (biPermDoms d), by rw [foldl_mul, Nat.one_mul]; exact hlt, ?_, ?_⟩
  · unfold biPermMap
    rw [state_index h1]
    simpa using h2
  · intro k' hk' e
    rw [foldl_mul, Nat.one_mul] at hk'
    obtain ⟨g1, g2⟩ := index_state hk'
    have := hu (stateOfIndex k' (biPermDoms d)) ⟨g1, by simpa [biPermMap] using e⟩
    rw [← this, g2]

/-! ### Renamings as permutations of `Fin d` -/

variable {d : ℕ}

/-- The table of a permutation. -/
def permList (σ : Equiv.Perm (Fin d)) : List ℕ := List.ofFn fun i => (σ i : ℕ)

theorem permList_get (σ : Equiv.Perm (Fin d)) (i : Fin d) : (permList σ)[(i : ℕ)]? = some (σ i : ℕ) := by
  simp [permList]

theorem permList_length (σ : Equiv.Perm (Fin d)) : (permList σ).length = d := by simp [permList]

theorem permList_perm (σ : Equiv.Perm (Fin d)) : (permList σ).Perm (List.range d) := by
  rw [List.perm_ext_iff_of_nodup _ List.nodup_range]
  · intro k
    simp only [permList, List.mem_ofFn, List.mem_range]
    constructor
    · rintro ⟨i, rfl⟩; exact (σ i).2
    · intro hk; exact ⟨σ.symm ⟨k, hk⟩, by simp⟩
  · rw [permList, List.nodup_ofFn]
    intro i j h
    exact σ.injective (Fin.ext h)

theorem exists_permList (m : List ℕ) (hm : m.Perm (List.range d)) :
    ∃ σ : Equiv.Perm (Fin d), m = permList σ := by
  have hl : m.length = d := by rw [hm.length_eq]; simp
  have hlt : ∀ i (h : i < m.length), m[i] < d := fun i h => by
    have := hm.subset (List.getElem_mem h)
    simpa using this
  let f : Fin d → Fin d := fun i => ⟨m[i.1]'(by omega), hlt _ _⟩
  have hinj : Function.Injective f := by
    intro i j h
    have h1 : m[i.1]'(by omega) = m[j.1]'(by omega) := congrArg Fin.val h
    exact Fin.ext (((hm.nodup_iff.2 List.nodup_range).getElem_inj_iff).1 h1)
  refine ⟨Equiv.ofBijective f (Finite.injective_iff_bijective.1 hinj), ?_⟩
  apply List.ext_getElem (by simp [permList, hl])
  intro i h1 h2
  simp [permList, f]

theorem index3 (a b c d : ℕ) : indexOfState [a, b, c] [d, d, d] = (a * d + b) * d + c := by
  simp [indexOfState]

theorem index3_lt {a b c : ℕ} (ha : a < d) (hb : b < d) (hc : c < d) :
    (a * d + b) * d + c < d * d * d := by
  have h1 : a * d + b + 1 ≤ d * d := by
    calc a * d + b + 1 ≤ a * d + d := by omega
      _ = (a + 1) * d := by ring
      _ ≤ d * d := Nat.mul_le_mul_right _ ha
  calc (a * d + b) * d + c < (a * d + b) * d + d := by omega
    _ = (a * d + b + 1) * d := by ring
    _ ≤ d * d * d := Nat.mul_le_mul_right _ h1

theorem index3_inDoms {a b c : ℕ} (ha : a < d) (hb : b < d) (hc : c < d) :
    InDoms [a, b, c] [d, d, d] :=
  List.Forall₂.cons ha (List.Forall₂.cons hb (List.Forall₂.cons hc List.Forall₂.nil))

theorem index3_cases {k : ℕ} (hk : k < d * d * d) :
    ∃ a b c : Fin d, k = ((a : ℕ) * d + b) * d + c := by
  have hk' : k < [d, d, d].prod := by
    rw [List.prod_cons, List.prod_cons, List.prod_singleton, ← Nat.mul_assoc]; exact hk
  obtain ⟨h1, h2⟩ := index_state hk'
  obtain ⟨a, b, c, e⟩ : ∃ a b c, stateOfIndex k [d, d, d] = [a, b, c] := by
    rw [state_cons, state_cons, state_cons, state_nil]
    exact ⟨_, _, _, rfl⟩
  rw [e] at h1 h2
  rw [index3] at h2
  cases h1 with
  | cons ha h1 => cases h1 with
    | cons hb h1 => cases h1 with
      | cons hc h1 => exact ⟨⟨a, ha⟩, ⟨b, hb⟩, ⟨c, hc⟩, h2.symm⟩

theorem index3_inj {a b c a' b' c' : Fin d}
    (h : ((a : ℕ) * d + b) * d + c = ((a' : ℕ) * d + b') * d + c') : a = a' ∧ b = b' ∧ c = c' := by
  have := index_inj (index3_inDoms a.2 b.2 c.2) (index3_inDoms a'.2 b'.2 c'.2)
    (by rw [index3, index3, h])
  simp only [List.cons.injEq, and_true] at this
  exact ⟨Fin.ext this.1, Fin.ext this.2.1, Fin.ext this.2.2⟩

/-- Membership of a local configuration in a set. -/
def bit (d : ℕ) (A : List Bool) (a b c : ℕ) : Bool := A.getD ((a * d + b) * d + c) false

theorem bit_ext {A B : List Bool} (hA : A.length = d * d * d) (hB : B.length = d * d * d)
    (h : ∀ a b c : Fin d, bit d A a b c = bit d B a b c) : A = B := by
  refine List.ext_getElem (by omega) fun k k1 k2 => ?_
  obtain ⟨a, b, c, rfl⟩ := index3_cases (d := d) (k := k) (by omega)
  have := h a b c
  simpa [bit, List.getD_eq_getElem?_getD, k1, k2] using this

theorem setTrue_foldlM {τ : ℕ → ℕ} (L : List ℕ) (f : List Bool → ℕ → Option (List Bool)) (n : ℕ)
    (hf : ∀ bt i, bt.length = n → i ∈ L → f bt i = some (bt.set (τ i) true))
    (hτ : ∀ i ∈ L, τ i < n) (bt : List Bool) (hb : bt.length = n) :
    ∃ bt', L.foldlM f bt = some bt' ∧ bt'.length = n ∧
      ∀ k, bt'.getD k false = (bt.getD k false || decide (∃ i ∈ L, τ i = k)) := by
  induction L generalizing bt with
  | nil => exact ⟨bt, rfl, hb, by simp⟩
  | cons i L ih =>
    obtain ⟨bt', e, n', g⟩ := ih (fun bt j h1 h2 => hf bt j h1 (by simp [h2]))
      (fun j hj => hτ j (by simp [hj])) (bt.set (τ i) true) (by simp [hb])
    refine ⟨bt', ?_, n', fun k => ?_⟩
    · rw [List.foldlM_cons, hf bt i hb (by simp)]; exact e
    · rw [g]
      have hi := hτ i (by simp)
      by_cases hk : τ i = k
      · subst hk
        simp [List.getD_eq_getElem?_getD, hb, hi]
      · simp only [List.mem_cons, exists_eq_or_imp, hk, false_or, List.getD_eq_getElem?_getD,
          List.getElem?_set_ne hk]

/-- Renaming a set of configurations. -/
theorem permutePcConfig_spec (σ : Equiv.Perm (Fin d)) (A : List Bool) (hA : A.length = d * d * d) :
    ∃ B, permutePcConfig A (permList σ) = some B ∧ B.length = d * d * d ∧
      ∀ a b c : Fin d, bit d B (σ a) (σ b) (σ c) = bit d A a b c := by
  let τ : ℕ → ℕ := fun i => indexOfState ((stateOfIndex i [d, d, d]).map fun v =>
    (permList σ).getD v 0) [d, d, d]
  have hτ : ∀ a b c : Fin d, τ (((a : ℕ) * d + b) * d + c) =
      ((σ a : ℕ) * d + σ b) * d + σ c := by
    intro a b c
    have := state_index (index3_inDoms a.2 b.2 c.2)
    rw [index3] at this
    simp only [τ, this, List.map_cons, List.map_nil, List.getD_eq_getElem?_getD, permList_get,
      Option.getD_some, index3]
  have hround : ∀ bt i, bt.length = d * d * d → i < d * d * d →
      permuteRound d (permList σ) bt i = some (bt.set (τ i) true) := by
    intro bt i hb hi
    obtain ⟨a, b, c, rfl⟩ := index3_cases (d := d) hi
    have hs := state_index (index3_inDoms a.2 b.2 c.2)
    rw [index3] at hs
    unfold permuteRound
    rw [hs, hτ]
    simp only [List.mapM_cons, List.mapM_nil, permList_get]
    show (if _ then _ else _) = _
    rw [if_pos, index3]
    rw [index3, hb]
    exact index3_lt (σ a).2 (σ b).2 (σ c).2
  have hidx : ∀ i ∈ bitIndices A, i < d * d * d := by
    intro i hi
    have := (List.mem_filter.1 hi).1
    rw [List.mem_range, hA] at this
    exact this
  obtain ⟨B, e, n, g⟩ := setTrue_foldlM (τ := τ) (bitIndices A) (permuteRound d (permList σ))
    (d * d * d) (fun bt i hb hi => hround bt i hb (hidx i hi)) (fun i hi => by
      obtain ⟨a, b, c, rfl⟩ := index3_cases (d := d) (hidx i hi)
      rw [hτ]
      exact index3_lt (σ a).2 (σ b).2 (σ c).2) (List.replicate A.length false) (by simp [hA])
  refine ⟨B, ?_, n, fun a b c => ?_⟩
  · unfold permutePcConfig
    rw [permList_length]
    exact e
  · unfold bit
    rw [g]
    have h0 : (List.replicate A.length false).getD (((σ a : ℕ) * d + σ b) * d + σ c) false = false := by
      simp only [List.getD_eq_getElem?_getD, List.getElem?_replicate]
      split <;> rfl
    rw [h0, Bool.false_or]
    have hlt := index3_lt a.2 b.2 c.2
    by_cases hb : A.getD (((a : ℕ) * d + b) * d + c) false = true
    · rw [hb, decide_eq_true_eq]
      refine ⟨((a : ℕ) * d + b) * d + c, ?_, hτ a b c⟩
      rw [bitIndices, List.mem_filter]
      exact ⟨List.mem_range.2 (by omega), hb⟩
    · have hb' : A.getD (((a : ℕ) * d + b) * d + c) false = false := by simpa using hb
      rw [hb', decide_eq_false_iff_not]
      rintro ⟨i, hi, he⟩
      obtain ⟨a', b', c', rfl⟩ := index3_cases (d := d) (hidx i hi)
      rw [hτ] at he
      obtain ⟨e1, e2, e3⟩ := index3_inj he
      rw [σ.injective e1, σ.injective e2, σ.injective e3] at hi
      exact hb (List.mem_filter.1 hi).2

/-! ### Propagation functions -/

theorem pair_lt' {a b : ℕ} (ha : a < d) (hb : b < d) : a * d + b < d * d := by
  calc a * d + b < a * d + d := by omega
    _ = (a + 1) * d := by ring
    _ ≤ d * d := Nat.mul_le_mul_right _ ha

/-- Value of a propagation function at a pair. -/
def pval (d : ℕ) (P : List ℕ) (a b : ℕ) : ℕ := P.getD (a * d + b) d

/-- Renaming of a value; values that are not below `d` mean "undefined". -/
def rval (σ : Equiv.Perm (Fin d)) (v : ℕ) : ℕ := if h : v < d then (σ ⟨v, h⟩ : ℕ) else d

theorem pval_ext {P Q : List ℕ} (hP : P.length = d * d) (hQ : Q.length = d * d)
    (h : ∀ a b : Fin d, pval d P a b = pval d Q a b) : P = Q := by
  refine List.ext_getElem (by omega) fun k k1 k2 => ?_
  have hd : 0 < d := by
    rcases Nat.eq_zero_or_pos d with h | h
    · subst h; simp at hP; omega
    · exact h
  have hk : k / d < d := by rw [Nat.div_lt_iff_lt_mul hd]; omega
  have := h ⟨k / d, hk⟩ ⟨k % d, Nat.mod_lt _ hd⟩
  have e : k / d * d + k % d = k := by rw [Nat.mul_comm]; exact Nat.div_add_mod k d
  simpa [pval, e, List.getD_eq_getElem?_getD, k1, k2] using this

theorem permuteActRound_eq (σ : Equiv.Perm (Fin d)) (P q : List ℕ) (hP : P.length = d * d)
    (hq : q.length = d * d) (a b : Fin d) :
    permuteActRound P (permList σ) q (a, b) =
      some (if pval d P a b < d then q.set ((σ a : ℕ) * d + σ b) (rval σ (pval d P a b)) else q) := by
  have hlt := pair_lt' a.2 b.2
  have hget : P[(a : ℕ) * d + b]? = some (pval d P a b) := by
    simp [pval, List.getD_eq_getElem?_getD, show (a : ℕ) * d + b < P.length by omega]
  unfold permuteActRound
  rw [permList_length]
  simp only [idOf2, a.2, b.2, and_self, if_true, Option.bind_some, hget]
  by_cases hc : pval d P a b < d
  · have h3 : (permList σ)[pval d P a b]? = some (rval σ (pval d P a b)) := by
      have := permList_get σ ⟨pval d P a b, hc⟩
      simpa [rval, hc] using this
    have hj := pair_lt' (σ a).2 (σ b).2
    simp only [hc, if_true, permList_get, h3, Option.bind_some, (σ a).2, (σ b).2, and_self]
    rw [if_pos (by omega)]
  · simp [hc]

theorem permuteAct_fold (σ : Equiv.Perm (Fin d)) (P : List ℕ) (hP : P.length = d * d)
    (L : List (ℕ × ℕ)) (hL : ∀ p ∈ L, p.1 < d ∧ p.2 < d) (q : List ℕ) (hq : q.length = d * d) :
    ∃ q', L.foldlM (permuteActRound P (permList σ)) q = some q' ∧ q'.length = d * d ∧
      ∀ a b : Fin d, pval d q' (σ a) (σ b) =
        if ((a : ℕ), (b : ℕ)) ∈ L ∧ pval d P a b < d then rval σ (pval d P a b)
        else pval d q (σ a) (σ b) := by
  induction L generalizing q with
  | nil => exact ⟨q, rfl, hq, by simp⟩
  | cons p L ih =>
    obtain ⟨h1, h2⟩ := hL p (by simp)
    have e := permuteActRound_eq σ P q hP hq ⟨p.1, h1⟩ ⟨p.2, h2⟩
    set q1 := if pval d P p.1 p.2 < d then
      q.set ((σ ⟨p.1, h1⟩ : ℕ) * d + σ ⟨p.2, h2⟩) (rval σ (pval d P p.1 p.2)) else q with hq1
    have hl1 : q1.length = d * d := by
      rw [hq1]; split <;> simp [hq]
    obtain ⟨q', e', n', g⟩ := ih (fun r hr => hL r (by simp [hr])) q1 hl1
    refine ⟨q', ?_, n', fun a b => ?_⟩
    · rw [List.foldlM_cons]
      have : permuteActRound P (permList σ) q p = some q1 := e
      rw [this]; exact e'
    · rw [g]
      by_cases hd : pval d P a b < d
      · by_cases hm : ((a : ℕ), (b : ℕ)) ∈ L
        · simp [hm, hd]
        · by_cases hp : ((a : ℕ), (b : ℕ)) = p
          · subst hp
            have hj := pair_lt' (σ a).2 (σ b).2
            simp only [hm, hd, and_true, if_false, List.mem_cons, true_or, if_true, hq1]
            simp [pval, List.getD_eq_getElem?_getD, hq, hj]
          · have hm' : ((a : ℕ), (b : ℕ)) ∉ p :: L := by simp [hm, hp]
            simp only [hm, hm', false_and, if_false, hq1]
            split
            · have hne : ¬ ((σ ⟨p.1, h1⟩ : ℕ) * d + σ ⟨p.2, h2⟩ = (σ a : ℕ) * d + σ b) := by
                intro he
                have := (pair_inj (σ ⟨p.2, h2⟩).2 (σ b).2).1 he
                apply hp
                have i1 := σ.injective (Fin.ext this.1)
                have i2 := σ.injective (Fin.ext this.2)
                rw [← i1, ← i2]
              simp [pval, List.getD_eq_getElem?_getD, List.getElem?_set_ne hne]
            · rfl
      · simp only [hd, and_false, if_false, hq1]
        split
        · rename_i hdp
          have hne : ¬ ((σ ⟨p.1, h1⟩ : ℕ) * d + σ ⟨p.2, h2⟩ = (σ a : ℕ) * d + σ b) := by
            intro he
            have := (pair_inj (σ ⟨p.2, h2⟩).2 (σ b).2).1 he
            have i1 := σ.injective (Fin.ext this.1)
            have i2 := σ.injective (Fin.ext this.2)
            rw [← i1, ← i2] at hd
            exact hd hdp
          simp [pval, List.getD_eq_getElem?_getD, List.getElem?_set_ne hne]
        · rfl

theorem permutePcAct_spec (σ : Equiv.Perm (Fin d)) (P : List ℕ) (hP : P.length = d * d) :
    ∃ Q, permutePcAct P (permList σ) = some Q ∧ Q.length = d * d ∧
      ∀ a b : Fin d, pval d Q (σ a) (σ b) = rval σ (pval d P a b) := by
  obtain ⟨Q, e, n, g⟩ := permuteAct_fold σ P hP (pairsUpTo d)
    (fun p hp => mem_pairsUpTo.1 hp) (List.replicate (d * d) d) (by simp)
  refine ⟨Q, by unfold permutePcAct; rw [permList_length]; exact e, n, fun a b => ?_⟩
  rw [g]
  have hm : ((a : ℕ), (b : ℕ)) ∈ pairsUpTo d := mem_pairsUpTo.2 ⟨a.2, b.2⟩
  by_cases hd : pval d P a b < d
  · simp [hm, hd]
  · have := pair_lt' (σ a).2 (σ b).2
    have h0 : pval d (List.replicate (d * d) d) (σ a) (σ b) = d := by
      simp [pval, List.getD_eq_getElem?_getD, this]
    rw [if_neg (fun h => hd h.2), h0, rval, dif_neg hd]

/-- Swaps inside the table permute it. -/
theorem swapAt_perm {l : List ℕ} {i j : ℕ} (hi : i < l.length) (hj : j < l.length) :
    ∃ l', swapAt l i j = some l' ∧ l'.Perm l := by
  obtain ⟨l', e, n, g⟩ := swapAt_spec hi hj
  refine ⟨l', e, ?_⟩
  have h : l' = (List.range l.length).map fun k => l.getD (Equiv.swap i j k) 0 := by
    refine List.ext_getElem (by simp [n]) fun k k1 k2 => ?_
    have := g k
    simpa [List.getD_eq_getElem?_getD, k1] using this
  have h2 : l = (List.range l.length).map fun k => l.getD k 0 := by
    refine List.ext_getElem (by simp) fun k k1 k2 => ?_
    simp [List.getD_eq_getElem?_getD, k1]
  rw [h]
  conv_rhs => rw [h2]
  have h3 : ((List.range l.length).map (Equiv.swap i j)).Perm (List.range l.length) := by
    rw [List.perm_ext_iff_of_nodup (List.nodup_range.map (Equiv.injective _)) List.nodup_range]
    intro k
    simp only [List.mem_map, List.mem_range]
    have b : ∀ k, k < l.length → Equiv.swap i j k < l.length := by
      intro k hk
      rw [Equiv.swap_apply_def]
      split
      · exact hj
      · split
        · exact hi
        · exact hk
    constructor
    · rintro ⟨k', hk', rfl⟩; exact b k' hk'
    · intro hk; exact ⟨_, b k hk, by simp⟩
  have := h3.map fun k => l.getD k 0
  rw [List.map_map] at this
  exact this

theorem uniPermMap_spec (hd : 0 < d) (k : ℕ) (hk : k < (uniPermDoms d).foldl (· * ·) 1) :
    ∃ σ : Equiv.Perm (Fin d), uniPermMap d k = some (permList σ) := by
  rw [foldl_mul, Nat.one_mul] at hk
  obtain ⟨h1, h2⟩ := index_state hk
  have key : ∀ (vs : List ℕ) (i : ℕ) (m : List ℕ), m.length = d → i + vs.length < d →
      (∀ j (hj : j < vs.length), vs[j] < i + j + 2) →
      ∃ m', shuffleLoop (fun _ v => v) i vs m = some m' ∧ m'.Perm m := by
    intro vs
    induction vs with
    | nil => intro i m _ _ _; exact ⟨m, rfl, List.Perm.refl _⟩
    | cons v vs ih =>
      intro i m hm hi hb
      have hv := hb 0 (by simp)
      simp only [List.length_cons] at hi
      simp only [List.getElem_cons_zero] at hv
      obtain ⟨m1, e1, p1⟩ := swapAt_perm (l := m) (i := i) (j := v) (by omega) (by omega)
      obtain ⟨m2, e2, p2⟩ := ih (i + 1) m1 (by rw [p1.length_eq, hm]) (by omega) (fun j hj => by
        have := hb (j + 1) (by simpa using hj)
        simp only [List.getElem_cons_succ] at this
        omega)
      exact ⟨m2, by rw [shuffleLoop, e1, Option.bind_some, e2], p2.trans p1⟩
  have hlen : (stateOfIndex k (uniPermDoms d)).length = d - 1 := by
    rw [state_length]; simp [uniPermDoms]
  obtain ⟨m, e, p⟩ := key (stateOfIndex k (uniPermDoms d)) 0 (List.range d) (by simp)
    (by rw [hlen]; omega) (fun j hj => by
      have := (List.forall₂_iff_get.1 h1).2 j hj (by rw [← state_length k]; exact hj)
      simpa [uniPermDoms] using this)
  obtain ⟨σ, rfl⟩ := exists_permList m p
  exact ⟨σ, e⟩

end Verif.Proofs
