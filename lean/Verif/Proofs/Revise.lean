import Verif.Proofs.Search
import Mathlib.Algebra.BigOperators.Group.Finset.Basic
import Mathlib.Algebra.Order.BigOperators.Group.Finset

/-!
Lemmas for property C79: what `revise_actions` does to solutions, from a contract on
`revise_actions_alone`.
-/

set_option linter.unusedSectionVars false

namespace Verif.Proofs
open Verif.Model

universe u v
variable {γ : Type u} {α : Type v}

/-- The solution `T` can still be found from the instance `x` of system `i`: the chosen actions are
in `T`, and the others of `T` are candidates or redundant (`Red`). -/
def FitsInst (env : SearchEnv γ α) (Red : ℕ → SInst α → ℕ → Prop) (T : Finset ℕ) (i : ℕ) (x : SInst α) :
    Prop :=
  (∀ a ∈ x.actions, a ∈ T) ∧ ∀ a ∈ T, a ∈ x.actions ∨ a ∈ env.candidates x.rest ∨ Red i x a

/-- The same for all instances. -/
def FitsAll (env : SearchEnv γ α) (Red : ℕ → SInst α → ℕ → Prop) (T : Finset ℕ) (L : List (SInst α)) : Prop :=
  ∀ (i : ℕ) (x : SInst α), L[i]? = some x → FitsInst env Red T i x

/-- The candidates of an instance as a set. -/
def candSet (env : SearchEnv γ α) (x : SInst α) : Finset ℕ := (env.candidates x.rest).toFinset

/-- The contract on `revise_actions_alone` and its surroundings.  `V` says that the conflict database
is valid, `Stop` that the program has been told to stop, `W0` that an instance is well formed, `W` that it has also passed the checks, `Act` that an
action may be added. -/
structure RevCert (env : SearchEnv γ α) (Sol : Finset ℕ → Prop) (V Stop : γ → Prop)
    (W0 W : ℕ → SInst α → Prop) (Red : ℕ → SInst α → ℕ → Prop) (Act : ℕ → Prop) : Prop where
  optimal : ∀ g, V g → env.optimal g = 0
  changes : ∀ g ps, env.changes g ps = (g, none)
  weaken : ∀ i x, W i x → W0 i x
  nodup : ∀ i x, W0 i x → x.actions.Nodup
  noabort : ∀ g i L x A D, V g → L[i]? = some x → W0 i x → (∀ e ∈ A, Act e) → ∀ g', env.alone g 0 i L A D ≠ (g', .abort)
  fails : ∀ g i L x A D, V g → L[i]? = some x → W0 i x → (∀ e ∈ A, Act e) → ∀ g' y, env.alone g 0 i L A D = (g', .fail y) →
    V g' ∧ W0 i y ∧ (Stop g' ∨
      ∀ T, Sol T → FitsInst env Red T i x → A ⊆ T → (∀ d ∈ D, d ∉ T ∨ (Red i x d ∧ d ∉ A)) → False)
  oks : ∀ g i L x A D, V g → L[i]? = some x → W0 i x → (∀ e ∈ A, Act e) → ∀ g' r A' D' R',
    env.alone g 0 i L A D = (g', .ok r A' D' R') →
    V g' ∧ W i ⟨addActs x.actions A, x.noPartial, r⟩ ∧ R' ⊆ D' ∧
    (∀ a, Red i x a → Red i ⟨addActs x.actions A, x.noPartial, r⟩ a) ∧
    (env.candidates r).toFinset ⊆ candSet env x \ (A ∪ D) ∧
    A' ⊆ (env.candidates r).toFinset ∧ R' ⊆ (env.candidates r).toFinset ∧
    (∀ a ∈ A', ¬ Red i ⟨addActs x.actions A, x.noPartial, r⟩ a) ∧
    ∀ T, Sol T → FitsInst env Red T i x → A ⊆ T → (∀ d ∈ D, d ∉ T ∨ (Red i x d ∧ d ∉ A)) →
      FitsInst env Red T i ⟨addActs x.actions A, x.noPartial, r⟩ ∧ A' ⊆ T ∧ (∀ d ∈ R', d ∉ T) ∧
      ∀ d ∈ D', d ∉ T ∨ Red i ⟨addActs x.actions A, x.noPartial, r⟩ d

variable {env : SearchEnv γ α} {Sol : Finset ℕ → Prop} {V Stop : γ → Prop} {W0 W : ℕ → SInst α → Prop}
  {Red : ℕ → SInst α → ℕ → Prop} {Act : ℕ → Prop}

/-- The solution `T` agrees with everything in the state of the loop of `revise_actions`. -/
structure FitsSt (env : SearchEnv γ α) (Red : ℕ → SInst α → ℕ → Prop) (T : Finset ℕ) (st : RevSt γ α) :
    Prop where
  insts : FitsAll env Red T st.insts
  adds : ∀ (i : ℕ) (a : Finset ℕ), st.adds[i]? = some a → a ⊆ T
  dels : ∀ (i : ℕ) (a d : Finset ℕ), st.adds[i]? = some a → st.dels[i]? = some d → ∀ e ∈ d, e ∉ T ∨
    (e ∉ a ∧ ∀ (k : ℕ) (y : SInst α), st.insts[k]? = some y → Red k y e)

/-- The candidates of instance `i` that are not waiting to be added or deleted. -/
def freeAt (env : SearchEnv γ α) (st : RevSt γ α) (i : ℕ) : Finset ℕ :=
  match st.insts[i]?, st.adds[i]?, st.dels[i]? with
  | some x, some a, some d => candSet env x \ (a ∪ d)
  | _, _, _ => ∅

/-- The number of rounds of `revise_actions` that are still possible. -/
def freeSum (env : SearchEnv γ α) (st : RevSt γ α) : ℕ :=
  ∑ i ∈ Finset.range st.insts.length, (freeAt env st i).card

/-- The invariant of the loop of `revise_actions`; `ps`, `A`, `D` are its arguments. -/
structure RevOk (env : SearchEnv γ α) (Sol : Finset ℕ → Prop) (V : γ → Prop)
    (W0 W : ℕ → SInst α → Prop) (Red : ℕ → SInst α → ℕ → Prop) (Act : ℕ → Prop) (n : ℕ)
    (L : List (SInst α)) (A D : Finset ℕ)
    (st : RevSt γ α) : Prop where
  valid : V st.g
  len : st.insts.length = n
  lenA : st.adds.length = n
  lenD : st.dels.length = n
  w0 : ∀ (i : ℕ) (x : SInst α), st.insts[i]? = some x → W0 i x
  pend : ∀ (i : ℕ) (x : SInst α) (a d : Finset ℕ), st.insts[i]? = some x → st.adds[i]? = some a →
    st.dels[i]? = some d → W i x ∨ a ≠ ∅ ∨ d ≠ ∅ ∨ st.force = true
  acts : ∀ (i : ℕ) (a : Finset ℕ), st.adds[i]? = some a → ∀ e ∈ a, Act e
  frees : ∀ i, ∀ e ∈ freeAt env st i, Act e
  shrink : ∀ (i : ℕ) (x : SInst α), L[i]? = some x → freeAt env st i ⊆ candSet env x \ (A ∪ D)
  total : ∃ S, A ⊆ S ∧ (∀ x ∈ L, x.actions.toFinset ⊆ S) ∧ ∀ (i : ℕ) (x : SInst α) (a : Finset ℕ),
    st.insts[i]? = some x → st.adds[i]? = some a → x.actions.toFinset ∪ a = S
  fits : ∀ T, Sol T → FitsAll env Red T L → A ⊆ T → (∀ d ∈ D, d ∉ T) → FitsSt env Red T st

/-- The instances that a failed call leaves behind. -/
def LeftOk (W0 : ℕ → SInst α → Prop) (n : ℕ) (l : List (SInst α)) : Prop :=
  l.length = n ∧ ∀ (i : ℕ) (x : SInst α), l[i]? = some x → W0 i x

/-- What the `common_dels` must satisfy once the systems below `j` have been revised. -/
def CommonOk (env : SearchEnv γ α) (Sol : Finset ℕ → Prop) (Red : ℕ → SInst α → ℕ → Prop)
    (L : List (SInst α)) (A D : Finset ℕ) (j : ℕ) (st : RevSt γ α) : Prop :=
  ∀ T, Sol T → FitsAll env Red T L → A ⊆ T → (∀ d ∈ D, d ∉ T) → ∀ e ∈ st.common, e ∉ T ∨
    ∀ k < j, ∀ (x : SInst α) (a : Finset ℕ), st.insts[k]? = some x → st.adds[k]? = some a → Red k x e ∧ e ∉ a

/-- Nothing is waiting for instance `k`, which has passed its checks. -/
def Settled (W : ℕ → SInst α → Prop) (st : RevSt γ α) (k : ℕ) : Prop :=
  st.adds[k]? = some ∅ ∧ st.dels[k]? = some ∅ ∧ ∀ x, st.insts[k]? = some x → W k x

theorem freeAt_eq {st : RevSt γ α} {i : ℕ} {x : SInst α} {a d : Finset ℕ} (h1 : st.insts[i]? = some x)
    (h2 : st.adds[i]? = some a) (h3 : st.dels[i]? = some d) : freeAt env st i = candSet env x \ (a ∪ d) := by
  simp only [freeAt, h1, h2, h3]

/-- What one step of the inner loop of `revise_actions` does. -/
theorem revStep (C : RevCert env Sol V Stop W0 W Red Act) {n : ℕ} {L : List (SInst α)} {A D : Finset ℕ} {i : ℕ}
    {st : RevSt γ α} (h : RevOk env Sol V W0 W Red Act n L A D st) (hi : i < n) (hL : L.length = n) :
    (∃ st', reviseStep env 0 i st = some (false, st') ∧ V st'.g ∧ LeftOk W0 n st'.insts ∧ (Stop st'.g ∨
      ∀ T, Sol T → FitsAll env Red T L → A ⊆ T → (∀ d ∈ D, d ∉ T) → False)) ∨
    (reviseStep env 0 i st = some (true, st) ∧ st.force = false ∧ Settled W st i) ∨
    ∃ st', reviseStep env 0 i st = some (true, st') ∧ RevOk env Sol V W0 W Red Act n L A D st' ∧
      freeSum env st' ≤ freeSum env st ∧
      (i = 0 ∨ CommonOk env Sol Red L A D i st → CommonOk env Sol Red L A D (i + 1) st') ∧
      ((st'.keep = true ∧ freeSum env st' < freeSum env st ∧
          ∀ (k : ℕ) (a d : Finset ℕ), st'.adds[k]? = some a → st'.dels[k]? = some d → a ≠ ∅ ∨ d ≠ ∅) ∨
        (st'.keep = st.keep ∧ Settled W st' i ∧ ∀ k, k ≠ i →
          st'.adds[k]? = st.adds[k]? ∧ st'.dels[k]? = st.dels[k]? ∧ st'.insts[k]? = st.insts[k]?)) := by
  obtain ⟨x, hx⟩ : ∃ x, st.insts[i]? = some x := ⟨_, List.getElem?_eq_getElem (by rw [h.len]; exact hi)⟩
  obtain ⟨a, ha⟩ : ∃ a, st.adds[i]? = some a := ⟨_, List.getElem?_eq_getElem (by rw [h.lenA]; exact hi)⟩
  obtain ⟨d, hd⟩ : ∃ d, st.dels[i]? = some d := ⟨_, List.getElem?_eq_getElem (by rw [h.lenD]; exact hi)⟩
  obtain ⟨x0, hx0⟩ : ∃ x, L[i]? = some x := ⟨_, List.getElem?_eq_getElem (by rw [hL]; exact hi)⟩
  unfold reviseStep
  simp only [hx, ha, hd]
  by_cases hskip : st.force = false ∧ a = ∅ ∧ d = ∅
  · rw [if_pos hskip]
    refine .inr (.inl ⟨rfl, hskip.1, by rw [ha, hskip.2.1], by rw [hd, hskip.2.2], ?_⟩)
    intro y hy
    rw [hx, Option.some.injEq] at hy
    subst hy
    rcases h.pend i x a d hx ha hd with h1 | h1 | h1 | h1
    · exact h1
    · exact absurd hskip.2.1 h1
    · exact absurd hskip.2.2 h1
    · rw [hskip.1] at h1; simp at h1
  rw [if_neg hskip]
  have hdel : ∀ T, FitsSt env Red T st → ∀ e ∈ d, e ∉ T ∨ (Red i x e ∧ e ∉ a) := by
    intro T hT e he
    rcases hT.dels i a d ha hd e he with h1 | h1
    · exact .inl h1
    · exact .inr ⟨h1.2 i x hx, h1.1⟩
  have hW0 := h.w0 i x hx
  rcases hal : env.alone st.g 0 i st.insts a d with ⟨g', res⟩
  rcases res with _ | y | ⟨r, A', D', R'⟩
  · exact absurd hal (C.noabort _ _ _ _ _ _ h.valid hx hW0 (h.acts i a ha) _)
  · obtain ⟨h1, hy, h2⟩ := C.fails _ _ _ _ _ _ h.valid hx hW0 (h.acts i a ha) _ _ hal
    refine .inl ⟨_, rfl, h1, ⟨by simp only; rw [List.length_set]; exact h.len, fun k z hz => ?_⟩,
      h2.imp_right fun h2 T hT hf hA hD => ?_⟩
    · simp only at hz
      rw [List.getElem?_set] at hz
      by_cases hk : i = k
      · subst hk
        rw [if_pos rfl, if_pos (by rw [h.len]; exact hi), Option.some.injEq] at hz
        exact hz ▸ hy
      · rw [if_neg hk] at hz
        exact h.w0 k z hz
    · have hfs := h.fits T hT hf hA hD
      exact h2 T hT (hfs.insts i x hx) (hfs.adds i a ha) (hdel T hfs)
  obtain ⟨hV, hW, hRD, hmono, hcs, hA', hR', hnr, hsol⟩ := C.oks _ _ _ _ _ _ h.valid hx hW0 (h.acts i a ha) _ _ _ _ _ hal
  refine .inr (.inr ?_)
  simp only [if_pos hRD]
  obtain ⟨x', hx'⟩ : ∃ x' : SInst α, x' = ⟨addActs x.actions a, x.noPartial, r⟩ := ⟨_, rfl⟩
  rw [← hx'] at hW hmono hnr hsol ⊢
  have hcx : candSet env x' = (env.candidates r).toFinset := by rw [hx']; rfl
  obtain ⟨insts, hinsts⟩ : ∃ l, l = st.insts.set i x' := ⟨_, rfl⟩
  have hii : insts[i]? = some x' := by
    rw [hinsts, List.getElem?_set, if_pos rfl, if_pos (by rw [h.len]; exact hi)]
  have hik : ∀ k, k ≠ i → insts[k]? = st.insts[k]? := by
    intro k hk; rw [hinsts, List.getElem?_set, if_neg (Ne.symm hk)]
  have haset : ∀ B : Finset ℕ, (st.adds.set i B)[i]? = some B := by
    intro B; rw [List.getElem?_set, if_pos rfl, if_pos (by rw [h.lenA]; exact hi)]
  have hasetk : ∀ (B : Finset ℕ) k, k ≠ i → (st.adds.set i B)[k]? = st.adds[k]? := by
    intro B k hk; rw [List.getElem?_set, if_neg (Ne.symm hk)]
  have hdset : ∀ B : Finset ℕ, (st.dels.set i B)[i]? = some B := by
    intro B; rw [List.getElem?_set, if_pos rfl, if_pos (by rw [h.lenD]; exact hi)]
  have hdsetk : ∀ (B : Finset ℕ) k, k ≠ i → (st.dels.set i B)[k]? = st.dels[k]? := by
    intro B k hk; rw [List.getElem?_set, if_neg (Ne.symm hk)]
  rw [← hinsts]
  -- the new state, in both cases
  obtain ⟨adds', hadds'⟩ : ∃ l, l = (st.adds.set i A').map (· ∪ A') := ⟨_, rfl⟩
  obtain ⟨dels', hdels'⟩ : ∃ l, l = (st.dels.set i ∅).map (· ∪ R') := ⟨_, rfl⟩
  obtain ⟨common', hcommon'⟩ : ∃ c, c = (if i = 0 then D' else st.common ∩ D') := ⟨_, rfl⟩
  have hai : adds'[i]? = some A' := by
    rw [hadds', List.getElem?_map, haset]; simp
  have hak : ∀ k b, k ≠ i → (adds'[k]? = some b ↔ ∃ b0, st.adds[k]? = some b0 ∧ b = b0 ∪ A') := by
    intro k b hk
    rw [hadds', List.getElem?_map, hasetk _ k hk, Option.map_eq_some_iff]
    exact exists_congr fun b0 => and_congr_right fun _ => eq_comm
  have hdi : dels'[i]? = some R' := by
    rw [hdels', List.getElem?_map, hdset]; simp
  have hdk : ∀ k b, k ≠ i → (dels'[k]? = some b ↔ ∃ b0, st.dels[k]? = some b0 ∧ b = b0 ∪ R') := by
    intro k b hk
    rw [hdels', List.getElem?_map, hdsetk _ k hk, Option.map_eq_some_iff]
    exact exists_congr fun b0 => and_congr_right fun _ => eq_comm
  have key : ∀ st' : RevSt γ α, st'.g = g' → st'.insts = insts → st'.adds = adds' → st'.dels = dels' →
      st'.common = common' → (A' = ∅ ∧ R' = ∅ → st'.force = st.force) →
      RevOk env Sol V W0 W Red Act n L A D st' ∧
      (∀ k, freeAt env st' k ⊆ freeAt env st k) ∧
      (i = 0 ∨ CommonOk env Sol Red L A D i st → CommonOk env Sol Red L A D (i + 1) st') := by
    rintro ⟨g1, i1, a1, d1, k1, c1, f1⟩ rfl rfl rfl rfl rfl hforce
    simp only at hforce hii hik hai hak hdi hdk hadds' hdels' hcommon' hinsts hV
    have hfree : ∀ k, freeAt env ⟨g1, i1, a1, d1, k1, c1, f1⟩ k ⊆ freeAt env st k := by
      intro k
      by_cases hki : k = i
      · subst hki
        rw [freeAt_eq (st := ⟨g1, i1, a1, d1, k1, c1, f1⟩) hii hai hdi, freeAt_eq hx ha hd, hcx]
        exact Finset.sdiff_subset.trans hcs
      · unfold freeAt
        simp only [hik k hki]
        rcases h1 : st.insts[k]? with _ | y
        · simp
        rcases h2 : st.adds[k]? with _ | b
        · have : a1[k]? = none := by
            rw [List.getElem?_eq_none_iff] at h2 ⊢
            rw [hadds']; simpa using h2
          simp [this]
        rcases h3 : st.dels[k]? with _ | e
        · have : d1[k]? = none := by
            rw [List.getElem?_eq_none_iff] at h3 ⊢
            rw [hdels']; simpa using h3
          simp [this]
        rw [(hak k _ hki).2 ⟨b, h2, rfl⟩, (hdk k _ hki).2 ⟨e, h3, rfl⟩]
        simp only
        exact Finset.sdiff_subset_sdiff (Finset.Subset.refl _)
          (Finset.union_subset_union Finset.subset_union_left Finset.subset_union_left)
    have hA'act : ∀ e ∈ A', Act e := by
      intro e he
      apply h.frees i
      rw [freeAt_eq hx ha hd]
      exact hcs (hA' he)
    refine ⟨⟨hV, ?_, ?_, ?_, ?_, ?_, ?_, fun k e he => h.frees k e (hfree k he), ?_, ?_, ?_⟩, hfree, ?_⟩
    · simp only; rw [hinsts, List.length_set]; exact h.len
    · simp only; rw [hadds', List.length_map, List.length_set]; exact h.lenA
    · simp only; rw [hdels', List.length_map, List.length_set]; exact h.lenD
    · intro k y hy
      simp only at hy
      by_cases hki : k = i
      · subst hki
        rw [hii, Option.some.injEq] at hy
        subst hy; exact C.weaken _ _ hW
      · rw [hik k hki] at hy; exact h.w0 k y hy
    · intro k y b e hy hb he
      simp only at hy hb he ⊢
      by_cases hki : k = i
      · subst hki
        rw [hii, Option.some.injEq] at hy
        subst hy; exact .inl hW
      · rw [hik k hki] at hy
        obtain ⟨b0, hb0, rfl⟩ := (hak k b hki).1 hb
        obtain ⟨e0, he0, rfl⟩ := (hdk k e hki).1 he
        rcases h.pend k y b0 e0 hy hb0 he0 with h1 | h1 | h1 | h1
        · exact .inl h1
        · refine .inr (.inl ?_)
          obtain ⟨z, hz⟩ := Finset.nonempty_iff_ne_empty.2 h1
          exact Finset.nonempty_iff_ne_empty.1 ⟨z, Finset.mem_union_left _ hz⟩
        · refine .inr (.inr (.inl ?_))
          obtain ⟨z, hz⟩ := Finset.nonempty_iff_ne_empty.2 h1
          exact Finset.nonempty_iff_ne_empty.1 ⟨z, Finset.mem_union_left _ hz⟩
        · by_cases hAe : A' = ∅
          · by_cases hRe : R' = ∅
            · exact .inr (.inr (.inr ((hforce ⟨hAe, hRe⟩).trans h1)))
            · refine .inr (.inr (.inl ?_))
              obtain ⟨z, hz⟩ := Finset.nonempty_iff_ne_empty.2 hRe
              exact Finset.nonempty_iff_ne_empty.1 ⟨z, Finset.mem_union_right _ hz⟩
          · refine .inr (.inl ?_)
            obtain ⟨z, hz⟩ := Finset.nonempty_iff_ne_empty.2 hAe
            exact Finset.nonempty_iff_ne_empty.1 ⟨z, Finset.mem_union_right _ hz⟩
    · intro k b hb e he
      simp only at hb
      by_cases hki : k = i
      · subst hki
        rw [hai, Option.some.injEq] at hb
        subst hb; exact hA'act e he
      · obtain ⟨b0, hb0, rfl⟩ := (hak k b hki).1 hb
        rcases Finset.mem_union.1 he with he | he
        · exact h.acts k b0 hb0 e he
        · exact hA'act e he
    · intro k y hy
      exact (hfree k).trans (h.shrink k y hy)
    · obtain ⟨S, hSA, hSL, hS⟩ := h.total
      refine ⟨S ∪ A', hSA.trans Finset.subset_union_left,
        fun x hx => (hSL x hx).trans Finset.subset_union_left, ?_⟩
      intro k y b hy hb
      simp only at hy hb
      by_cases hki : k = i
      · subst hki
        rw [hii, Option.some.injEq] at hy
        rw [hai, Option.some.injEq] at hb
        subst hy hb
        rw [hx']
        simp only
        rw [(addActs_spec _ _ (C.nodup _ _ hW0)).2, hS k x a hx ha]
      · rw [hik k hki] at hy
        obtain ⟨b0, hb0, rfl⟩ := (hak k b hki).1 hb
        rw [← Finset.union_assoc, hS k y b0 hy hb0]
    · intro T hT hf hA hD
      have hfs := h.fits T hT hf hA hD
      obtain ⟨s1, s2, s3, s4⟩ := hsol T hT (hfs.insts i x hx) (hfs.adds i a ha) (hdel T hfs)
      refine ⟨?_, ?_, ?_⟩
      · intro k y hy
        simp only at hy
        by_cases hki : k = i
        · subst hki
          rw [hii, Option.some.injEq] at hy
          subst hy; exact s1
        · rw [hik k hki] at hy; exact hfs.insts k y hy
      · intro k b hb
        simp only at hb
        by_cases hki : k = i
        · subst hki
          rw [hai, Option.some.injEq] at hb
          subst hb; exact s2
        · obtain ⟨b0, hb0, rfl⟩ := (hak k b hki).1 hb
          exact Finset.union_subset (hfs.adds k b0 hb0) s2
      · intro k b e hb he z hz
        simp only at hb he
        by_cases hki : k = i
        · subst hki
          rw [hdi, Option.some.injEq] at he
          subst he
          exact .inl (s3 z hz)
        · obtain ⟨b0, hb0, rfl⟩ := (hak k b hki).1 hb
          obtain ⟨e0, he0, rfl⟩ := (hdk k e hki).1 he
          rcases Finset.mem_union.1 hz with hz | hz
          · rcases hfs.dels k b0 e0 hb0 he0 z hz with h1 | ⟨h1, h2⟩
            · exact .inl h1
            · have hz1 : Red i x' z := hmono z (h2 i x hx)
              refine .inr ⟨?_, ?_⟩
              · rw [Finset.mem_union]
                rintro (h3 | h3)
                · exact h1 h3
                · exact hnr z h3 hz1
              · intro j y hy
                simp only at hy
                by_cases hji : j = i
                · subst hji
                  rw [hii, Option.some.injEq] at hy
                  subst hy; exact hz1
                · rw [hik j hji] at hy; exact h2 j y hy
          · exact .inl (s3 z hz)
    · intro hcom T hT hf hA hD z hz
      have hfs := h.fits T hT hf hA hD
      obtain ⟨s1, s2, s3, s4⟩ := hsol T hT (hfs.insts i x hx) (hfs.adds i a ha) (hdel T hfs)
      simp only at hz ⊢
      have hzD : z ∈ D' := by
        rw [hcommon'] at hz
        split at hz
        · exact hz
        · exact (Finset.mem_inter.1 hz).2
      rcases s4 z hzD with h1 | h1
      · exact .inl h1
      by_cases hzT : z ∉ T
      · exact .inl hzT
      refine .inr ?_
      intro k hk y b hy hb
      by_cases hki : k = i
      · subst hki
        rw [hii, Option.some.injEq] at hy
        rw [hai, Option.some.injEq] at hb
        subst hy hb
        exact ⟨h1, fun h2 => hnr z h2 h1⟩
      · rw [hik k hki] at hy
        obtain ⟨b0, hb0, rfl⟩ := (hak k b hki).1 hb
        have hi0 : i ≠ 0 := by omega
        rw [hcommon', if_neg hi0, Finset.mem_inter] at hz
        rcases hcom with h2 | h2
        · exact absurd h2 hi0
        rcases h2 T hT hf hA hD z hz.1 with h3 | h3
        · exact absurd h3 hzT
        · obtain ⟨h4, h5⟩ := h3 k (by omega) y b0 hy hb0
          refine ⟨h4, ?_⟩
          rw [Finset.mem_union]
          rintro (h6 | h6)
          · exact h5 h6
          · exact hnr z h6 h1
  have hsum : ∀ st' : RevSt γ α, st'.insts = insts → (∀ k, freeAt env st' k ⊆ freeAt env st k) →
      freeSum env st' ≤ freeSum env st := by
    intro st' hi' hf
    unfold freeSum
    rw [hi', hinsts, List.length_set]
    exact Finset.sum_le_sum fun k _ => Finset.card_le_card (hf k)
  by_cases hne : A' ≠ ∅ ∨ R' ≠ ∅
  · rw [if_pos hne]
    obtain ⟨k1, k2, k3⟩ := key ⟨g', insts, adds', dels', true, common', false⟩ rfl rfl rfl rfl rfl (by
      rintro ⟨e1, e2⟩; rcases hne with h1 | h1 <;> contradiction)
    refine ⟨⟨g', insts, adds', dels', true, common', false⟩, by rw [hadds', hdels', hcommon'], k1,
      hsum _ rfl k2, k3, .inl ⟨rfl, ?_, ?_⟩⟩
    · unfold freeSum
      simp only
      rw [hinsts, List.length_set, ← hinsts]
      apply Finset.sum_lt_sum (fun k _ => Finset.card_le_card (k2 k))
      refine ⟨i, Finset.mem_range.2 (by rw [h.len]; exact hi), ?_⟩
      apply Finset.card_lt_card
      refine ⟨k2 i, fun hsub => ?_⟩
      obtain ⟨z, hz⟩ : ∃ z, z ∈ A' ∪ R' := by
        rcases hne with h1 | h1
        · obtain ⟨z, hz⟩ := Finset.nonempty_iff_ne_empty.2 h1
          exact ⟨z, Finset.mem_union_left _ hz⟩
        · obtain ⟨z, hz⟩ := Finset.nonempty_iff_ne_empty.2 h1
          exact ⟨z, Finset.mem_union_right _ hz⟩
      have hzc : z ∈ (env.candidates r).toFinset := by
        rcases Finset.mem_union.1 hz with h1 | h1
        · exact hA' h1
        · exact hR' h1
      have hzf : z ∈ freeAt env st i := by
        rw [freeAt_eq hx ha hd]; exact hcs hzc
      have := hsub hzf
      rw [freeAt_eq (st := ⟨g', insts, adds', dels', true, common', false⟩) hii hai hdi] at this
      exact (Finset.mem_sdiff.1 this).2 hz
    · intro k b e hb he
      simp only at hb he
      have hb' : A' ⊆ b := by
        by_cases hki : k = i
        · subst hki
          rw [hai, Option.some.injEq] at hb
          rw [hb]
        · obtain ⟨b0, hb0, rfl⟩ := (hak k b hki).1 hb
          exact Finset.subset_union_right
      have he' : R' ⊆ e := by
        by_cases hki : k = i
        · subst hki
          rw [hdi, Option.some.injEq] at he
          rw [he]
        · obtain ⟨b0, hb0, rfl⟩ := (hdk k e hki).1 he
          exact Finset.subset_union_right
      rcases hne with h1 | h1
      · left; rintro rfl
        exact h1 (Finset.subset_empty.1 hb')
      · right; rintro rfl
        exact h1 (Finset.subset_empty.1 he')
  · rw [if_neg hne]
    push Not at hne
    obtain ⟨rfl, rfl⟩ := hne
    have e1 : adds' = st.adds.set i ∅ := by rw [hadds']; simp
    have e2 : dels' = st.dels.set i ∅ := by rw [hdels']; simp
    obtain ⟨k1, k2, k3⟩ := key ⟨g', insts, adds', dels', st.keep, common', st.force⟩ rfl rfl rfl rfl rfl
      (fun _ => rfl)
    refine ⟨⟨g', insts, adds', dels', st.keep, common', st.force⟩, by rw [e1, e2, hcommon'], k1,
      hsum _ rfl k2, k3, .inr ⟨rfl, ⟨hai, hdi, ?_⟩, ?_⟩⟩
    · intro y hy
      simp only at hy
      rw [hii, Option.some.injEq] at hy
      subst hy; exact hW
    · intro k hk
      simp only [e1, e2]
      exact ⟨hasetk _ k hk, hdsetk _ k hk, hik k hk⟩

/-- The state of the inner loop before system `j`; `M` is the measure at its start. -/
structure PassOk (env : SearchEnv γ α) (Sol : Finset ℕ → Prop) (V : γ → Prop)
    (W0 W : ℕ → SInst α → Prop) (Red : ℕ → SInst α → ℕ → Prop) (Act : ℕ → Prop) (n : ℕ)
    (L : List (SInst α)) (A D : Finset ℕ)
    (M j : ℕ) (st : RevSt γ α) : Prop where
  ok : RevOk env Sol V W0 W Red Act n L A D st
  le : freeSum env st ≤ M
  lt : st.keep = true → freeSum env st < M
  wait : st.keep = true → ∀ k, j ≤ k → ∀ a d, st.adds[k]? = some a → st.dels[k]? = some d → a ≠ ∅ ∨ d ≠ ∅
  settled : st.keep = false → ∀ k < j, Settled W st k
  start : j = 0 → st.common = ∅
  common : CommonOk env Sol Red L A D j st ∨ (st.keep = false ∧ n ≤ j)

/-- The inner loop of `revise_actions`, for at most two systems. -/
theorem revPass (C : RevCert env Sol V Stop W0 W Red Act) {n : ℕ} {L : List (SInst α)} {A D : Finset ℕ} {M : ℕ}
    (hL : L.length = n) (hn : n ≤ 2) : ∀ (len j : ℕ) (st : RevSt γ α), j + len = n →
    PassOk env Sol V W0 W Red Act n L A D M j st →
    (∃ st', revisePass env 0 (List.range' j len) st = some (false, st') ∧ V st'.g ∧ LeftOk W0 n st'.insts ∧ (Stop st'.g ∨
      ∀ T, Sol T → FitsAll env Red T L → A ⊆ T → (∀ d ∈ D, d ∉ T) → False)) ∨
    ∃ st', revisePass env 0 (List.range' j len) st = some (true, st') ∧
      RevOk env Sol V W0 W Red Act n L A D st' ∧ freeSum env st' ≤ M ∧
      (st'.keep = true → freeSum env st' < M ∧ (st'.common = ∅ ∨ CommonOk env Sol Red L A D n st')) ∧
      (st'.keep = false → ∀ k < n, Settled W st' k) := by
  intro len
  induction len with
  | zero =>
    intro j st hj h
    have hj : j = n := by omega
    subst hj
    refine .inr ⟨st, rfl, h.ok, h.le, fun hk => ⟨h.lt hk, ?_⟩, fun hk => h.settled hk⟩
    rcases h.common with h1 | h1
    · exact .inr h1
    · rw [h1.1] at hk; simp at hk
  | succ len ih =>
    intro j st hj h
    rw [List.range'_succ]
    unfold revisePass
    by_cases hstop : st.keep = true ∧ st.common = ∅
    · rw [if_pos hstop]
      refine .inr ⟨st, rfl, h.ok, h.le, fun hk => ⟨h.lt hk, .inl hstop.2⟩, fun hk => ?_⟩
      rw [hstop.1] at hk; simp at hk
    rw [if_neg hstop]
    have hcom : CommonOk env Sol Red L A D j st := by
      rcases h.common with h1 | h1
      · exact h1
      · omega
    rcases revStep C h.ok (by omega : j < n) hL with ⟨st', h1, h2, h3⟩ | ⟨h1, h2, h3⟩ |
      ⟨st', h1, h2, h3, h4, h5⟩
    · rw [h1]; exact .inl ⟨st', rfl, h2, h3⟩
    · rw [h1]
      simp only
      have hk : st.keep = false := by
        by_contra hk
        rw [Bool.not_eq_false] at hk
        rcases h.wait hk j (Nat.le_refl _) _ _ h3.1 h3.2.1 with h4 | h4 <;> exact h4 rfl
      refine ih (j + 1) st (by omega) ⟨h.ok, h.le, h.lt, ?_, ?_, by omega, ?_⟩
      · intro hk'; rw [hk] at hk'; simp at hk'
      · intro _ k hkj
        rcases Nat.lt_succ_iff_lt_or_eq.1 hkj with h4 | rfl
        · exact h.settled hk k h4
        · exact h3
      · by_cases hj0 : j = 0
        · left
          intro T _ _ _ _ e he
          rw [h.start hj0] at he; simp at he
        · right; exact ⟨hk, by omega⟩
    · rw [h1]
      simp only
      refine ih (j + 1) st' (by omega) ⟨h2, h3.trans h.le, ?_, ?_, ?_, by omega, .inl (h4 (.inr hcom))⟩
      · intro hk
        rcases h5 with ⟨-, h6, -⟩ | ⟨h6, -⟩
        · exact lt_of_lt_of_le h6 h.le
        · exact lt_of_le_of_lt h3 (h.lt (h6 ▸ hk))
      · intro hk k hjk a d ha hd
        rcases h5 with ⟨-, -, h6⟩ | ⟨h6, -, h7⟩
        · exact h6 k a d ha hd
        · obtain ⟨e1, e2, -⟩ := h7 k (by omega)
          rw [e1] at ha; rw [e2] at hd
          exact h.wait (h6 ▸ hk) k (by omega) a d ha hd
      · intro hk k hkj
        rcases h5 with ⟨h6, -⟩ | ⟨h6, h7, h8⟩
        · rw [h6] at hk; simp at hk
        rcases Nat.lt_succ_iff_lt_or_eq.1 hkj with h9 | rfl
        · obtain ⟨e1, e2, e3⟩ := h8 k (by omega)
          obtain ⟨f1, f2, f3⟩ := h.settled (h6 ▸ hk) k h9
          exact ⟨e1.trans f1, e2.trans f2, fun x hx => f3 x (e3 ▸ hx)⟩
        · exact h7

/-- One round of the outer loop of `revise_actions`. -/
theorem revBody (C : RevCert env Sol V Stop W0 W Red Act) {n : ℕ} {L : List (SInst α)} {A D : Finset ℕ}
    (hL : L.length = n) (hn : n ≤ 2) {st : RevSt γ α} (h : RevOk env Sol V W0 W Red Act n L A D st) :
    (∃ st', reviseBody env 0 st = .inl (some (false, st')) ∧ V st'.g ∧ LeftOk W0 n st'.insts ∧ (Stop st'.g ∨
      ∀ T, Sol T → FitsAll env Red T L → A ⊆ T → (∀ d ∈ D, d ∉ T) → False)) ∨
    (∃ st' st'', reviseBody env 0 st = .inl (some (true, st'')) ∧ st''.insts = st'.insts ∧ st''.g = st'.g ∧
      RevOk env Sol V W0 W Red Act n L A D st' ∧ ∀ k < n, Settled W st' k) ∨
    ∃ st', reviseBody env 0 st = .inr st' ∧ RevOk env Sol V W0 W Red Act n L A D st' ∧
      freeSum env st' < freeSum env st := by
  have hstart : PassOk env Sol V W0 W Red Act n L A D (freeSum env st) 0
      { st with keep := false, common := ∅ } := by
    refine ⟨⟨h.valid, h.len, h.lenA, h.lenD, h.w0, h.pend, h.acts, h.frees, h.shrink, h.total, ?_⟩, le_refl _, by simp, by simp,
      fun _ k hk => by omega, fun _ => rfl, .inl ?_⟩
    · intro T h1 h2 h3 h4
      obtain ⟨e1, e2, e3⟩ := h.fits T h1 h2 h3 h4
      exact ⟨e1, e2, e3⟩
    · intro T _ _ _ _ e he
      simp at he
  unfold reviseBody
  rw [h.len, List.range_eq_range']
  rcases revPass C hL hn n 0 _ (by omega) hstart with ⟨st', h1, h2, h3⟩ | ⟨st', h1, h2, h3, h4, h5⟩
  · rw [h1]; exact .inl ⟨st', rfl, h2, h3⟩
  · rw [h1]
    refine .inr ?_
    simp only
    rcases hk : st'.keep with _ | _
    · refine .inl ⟨st', if st'.common = ∅ then st' else { st' with dels := st'.dels.map (· ∪ st'.common) }, ?_, ?_,
        ?_, h2, h5 hk⟩
      · by_cases hc : st'.common = ∅
        · simp [hc, hk]
        · simp [hc, hk]
      · split <;> rfl
      · split <;> rfl
    · obtain ⟨h6, h7⟩ := h4 hk
      refine .inr ?_
      by_cases hc : st'.common = ∅
      · exact ⟨st', by simp [hc, hk], h2, h6⟩
      · have hcom : CommonOk env Sol Red L A D n st' := by
          rcases h7 with h7 | h7
          · exact absurd h7 hc
          · exact h7
        refine ⟨{ st' with dels := st'.dels.map (· ∪ st'.common) }, by simp [hc, hk], ?_, ?_⟩
        · have hfree : ∀ i, freeAt env { st' with dels := st'.dels.map (· ∪ st'.common) } i ⊆ freeAt env st' i := by
            intro i
            unfold freeAt
            simp only [List.getElem?_map]
            rcases st'.insts[i]? with _ | x
            · simp
            rcases st'.adds[i]? with _ | a
            · simp
            rcases st'.dels[i]? with _ | d
            · simp
            simp only [Option.map_some]
            exact Finset.sdiff_subset_sdiff (Finset.Subset.refl _)
              (Finset.union_subset_union (Finset.Subset.refl _) Finset.subset_union_left)
          refine ⟨h2.valid, h2.len, h2.lenA, by simpa using h2.lenD, h2.w0, ?_, h2.acts,
            fun i e he => h2.frees i e (hfree i he), ?_, h2.total, ?_⟩
          · intro i x a d hx ha hd
            simp only [List.getElem?_map, Option.map_eq_some_iff] at hx ha hd
            obtain ⟨d0, hd0, rfl⟩ := hd
            rcases h2.pend i x a d0 hx ha hd0 with e | e | e | e
            · exact .inl e
            · exact .inr (.inl e)
            · refine .inr (.inr (.inl ?_))
              obtain ⟨z, hz⟩ := Finset.nonempty_iff_ne_empty.2 e
              exact Finset.nonempty_iff_ne_empty.1 ⟨z, Finset.mem_union_left _ hz⟩
            · exact .inr (.inr (.inr e))
          · intro i x hx
            exact (hfree i).trans (h2.shrink i x hx)
          · intro T t1 t2 t3 t4
            obtain ⟨e1, e2, e3⟩ := h2.fits T t1 t2 t3 t4
            refine ⟨e1, e2, ?_⟩
            intro i a d ha hd z hz
            simp only [List.getElem?_map, Option.map_eq_some_iff] at ha hd
            obtain ⟨d0, hd0, rfl⟩ := hd
            rcases Finset.mem_union.1 hz with hz | hz
            · exact e3 i a d0 ha hd0 z hz
            · rcases hcom T t1 t2 t3 t4 z hz with e | e
              · exact .inl e
              · refine .inr ⟨?_, ?_⟩
                · have hi : i < n := by
                    obtain ⟨hi, -⟩ := List.getElem?_eq_some_iff.1 ha
                    rw [h2.lenA] at hi; exact hi
                  exact (e i hi _ a (List.getElem?_eq_getElem (by rw [h2.len]; exact hi)) ha).2
                · intro k y hy
                  have hi : k < n := by
                    obtain ⟨hi, -⟩ := List.getElem?_eq_some_iff.1 hy
                    rw [h2.len] at hi; exact hi
                  exact (e k hi y _ hy (List.getElem?_eq_getElem (by rw [h2.lenA]; exact hi))).1
        · refine lt_of_le_of_lt ?_ h6
          unfold freeSum
          apply Finset.sum_le_sum
          intro i _
          apply Finset.card_le_card
          unfold freeAt
          simp only [List.getElem?_map]
          rcases st'.insts[i]? with _ | x
          · simp
          rcases st'.adds[i]? with _ | a
          · simp
          rcases st'.dels[i]? with _ | d
          · simp
          simp only [Option.map_some]
          exact Finset.sdiff_subset_sdiff (Finset.Subset.refl _)
            (Finset.union_subset_union (Finset.Subset.refl _) Finset.subset_union_left)

/-- All instances have the same actions. -/
def SameActs (L : List (SInst α)) : Prop := ∃ S, ∀ x ∈ L, x.actions.toFinset = S

/-- The number of candidates of all instances together. -/
def candSum (env : SearchEnv γ α) (L : List (SInst α)) : ℕ :=
  ∑ i ∈ Finset.range L.length, match L[i]? with
    | some x => (candSet env x).card
    | none => 0

/-- What `revise_actions` does, for at most two systems: it ends, keeps the database valid, and fails
only if no solution fits. -/
theorem revActions (C : RevCert env Sol V Stop W0 W Red Act) {g : γ} {ps : PSyn α} {A D : Finset ℕ}
    (hn : ps.insts.length ≤ 2) (hV : V g)
    (hw : ∀ (i : ℕ) (x : SInst α), ps.insts[i]? = some x → W0 i x) (hS : SameActs ps.insts)
    (hAct : ∀ e ∈ A, Act e)
    (hfree : ∀ (i : ℕ) (x : SInst α), ps.insts[i]? = some x → ∀ e ∈ candSet env x \ (A ∪ D), Act e) {fuel : ℕ}
    (hfuel : candSum env ps.insts < fuel) :
    ∃ g' ok ps' m, reviseActions env fuel g ps A D = some (g', ok, ps', m) ∧ V g' ∧ ps'.picks = ps.picks ∧
      ps'.level = ps.level ∧
      (ok = false → LeftOk W0 ps.insts.length ps'.insts ∧ (Stop g' ∨ ∀ T, Sol T → FitsAll env Red T ps.insts → A ⊆ T → (∀ d ∈ D, d ∉ T) → False)) ∧
      (ok = true → ps'.insts.length = ps.insts.length ∧
        (∀ (i : ℕ) (x : SInst α), ps'.insts[i]? = some x → W i x) ∧
        (∃ S, A ⊆ S ∧ (∀ x ∈ ps.insts, x.actions.toFinset ⊆ S) ∧ ∀ x ∈ ps'.insts, x.actions.toFinset = S) ∧
        (∀ (i : ℕ) (x y : SInst α), ps.insts[i]? = some x → ps'.insts[i]? = some y →
          candSet env y ⊆ candSet env x \ (A ∪ D)) ∧
        ∀ T, Sol T → FitsAll env Red T ps.insts → A ⊆ T → (∀ d ∈ D, d ∉ T) → FitsAll env Red T ps'.insts) := by
  obtain ⟨n, hL⟩ : ∃ n, ps.insts.length = n := ⟨_, rfl⟩
  rw [hL] at hn
  obtain ⟨fuel, rfl⟩ : ∃ f, fuel = f + 1 := ⟨fuel - 1, by omega⟩
  unfold reviseActions
  rw [C.optimal g hV]
  obtain ⟨st, hst⟩ : ∃ st : RevSt γ α, st = ⟨g, ps.insts, ps.insts.map fun _ => A, ps.insts.map fun _ => D, true, ∅,
    decide (A = ∅ ∧ D = ∅)⟩ := ⟨_, rfl⟩
  have hA0 : ∀ (i : ℕ) (a : Finset ℕ), st.adds[i]? = some a → a = A := by
    intro i a ha
    rw [hst] at ha
    simp only [List.getElem?_map, Option.map_eq_some_iff] at ha
    obtain ⟨_, _, rfl⟩ := ha; rfl
  have hD0 : ∀ (i : ℕ) (a : Finset ℕ), st.dels[i]? = some a → a = D := by
    intro i a ha
    rw [hst] at ha
    simp only [List.getElem?_map, Option.map_eq_some_iff] at ha
    obtain ⟨_, _, rfl⟩ := ha; rfl
  have hi0 : st.insts = ps.insts := by rw [hst]
  have hfr : ∀ (i : ℕ) (x : SInst α), ps.insts[i]? = some x → freeAt env st i = candSet env x \ (A ∪ D) := by
    intro i x hx
    apply freeAt_eq
    · rw [hi0, hx]
    · rw [hst]; simp only [List.getElem?_map, hx, Option.map_some]
    · rw [hst]; simp only [List.getElem?_map, hx, Option.map_some]
  have h0 : RevOk env Sol V W0 W Red Act n ps.insts A D st := by
    refine ⟨by rw [hst]; exact hV, by rw [hst]; exact hL, by rw [hst]; simpa using hL, by rw [hst]; simpa using hL,
      by rw [hi0]; exact hw, ?_, fun i a ha e he => hAct e (hA0 i a ha ▸ he), ?_, ?_, ?_, ?_⟩
    · intro i x a d hx ha hd
      rw [hA0 i a ha, hD0 i d hd]
      by_cases h1 : A = ∅
      · by_cases h2 : D = ∅
        · right; right; right
          rw [hst]; simp [h1, h2]
        · exact .inr (.inr (.inl h2))
      · exact .inr (.inl h1)
    · intro i e he
      rcases hx : ps.insts[i]? with _ | x
      · unfold freeAt at he
        rw [hi0, hx] at he
        simp at he
      · rw [hfr i x hx] at he
        exact hfree i x hx e he
    · intro i x hx
      rw [hfr i x hx]
    · obtain ⟨S, hS⟩ := hS
      refine ⟨S ∪ A, Finset.subset_union_right, fun x hx => by rw [hS x hx]; exact Finset.subset_union_left, ?_⟩
      intro i x a hx ha
      rw [hi0] at hx
      rw [hA0 i a ha, hS x (List.mem_of_getElem? hx)]
    · intro T t1 t2 t3 t4
      refine ⟨by rw [hi0]; exact t2, fun i a ha => by rw [hA0 i a ha]; exact t3, ?_⟩
      intro i a d ha hd e he
      rw [hD0 i d hd] at he
      exact .inl (t4 e he)
  have hM : freeSum env st ≤ candSum env ps.insts := by
    unfold freeSum candSum
    rw [hi0]
    apply Finset.sum_le_sum
    intro i hi
    rw [Finset.mem_range] at hi
    rw [hfr i _ (List.getElem?_eq_getElem hi), List.getElem?_eq_getElem hi]
    exact Finset.card_le_card Finset.sdiff_subset
  rw [← hst]
  obtain ⟨b, hb, hQ⟩ := loopFuel_total (body := reviseBody env 0)
    (RevOk env Sol V W0 W Red Act n ps.insts A D)
    (fun b => (∃ st', b = some (false, st') ∧ V st'.g ∧ LeftOk W0 n st'.insts ∧ (Stop st'.g ∨
      ∀ T, Sol T → FitsAll env Red T ps.insts → A ⊆ T → (∀ d ∈ D, d ∉ T) → False)) ∨
      (∃ st' st'', b = some (true, st'') ∧ st''.insts = st'.insts ∧ st''.g = st'.g ∧
        RevOk env Sol V W0 W Red Act n ps.insts A D st' ∧ ∀ k < n, Settled W st' k)) (freeSum env)
    (by
      intro a b ha hb
      rcases revBody C hL hn ha with ⟨st', h1, h2⟩ | ⟨st', st'', h1, h2⟩ | ⟨st', h1, h2⟩
      · rw [h1, Sum.inl.injEq] at hb
        exact .inl ⟨st', hb.symm, h2⟩
      · rw [h1, Sum.inl.injEq] at hb
        exact .inr ⟨st', st'', hb.symm, h2⟩
      · rw [h1] at hb; simp at hb)
    (by
      intro a a' ha hb
      rcases revBody C hL hn ha with ⟨st', h1, h2⟩ | ⟨st', st'', h1, h2⟩ | ⟨st', h1, h2⟩
      · rw [h1] at hb; simp at hb
      · rw [h1] at hb; simp at hb
      · rw [h1, Sum.inr.injEq] at hb
        subst hb; exact h2)
    (fuel + 1) st h0 (lt_of_le_of_lt hM hfuel)
  rw [hb]
  rcases hQ with ⟨st', rfl, h1, h2⟩ | ⟨st', st'', rfl, h1, h2, h3, h4⟩
  · exact ⟨st'.g, false, _, none, rfl, h1, rfl, rfl, fun _ => by rw [hL]; exact h2, by simp⟩
  · have hW : ∀ (i : ℕ) (x : SInst α), st'.insts[i]? = some x → W i x := by
      intro i x hx
      have hi : i < n := by
        obtain ⟨hi, -⟩ := List.getElem?_eq_some_iff.1 hx
        rw [h3.len] at hi; exact hi
      exact (h4 i hi).2.2 x hx
    obtain ⟨S, hSA, hSL, hS'⟩ := h3.total
    have hacts : ∀ x ∈ st'.insts, x.actions.toFinset = S := by
      intro x hx
      obtain ⟨i, hx⟩ := List.getElem?_of_mem hx
      have hi : i < n := by
        obtain ⟨hi, -⟩ := List.getElem?_eq_some_iff.1 hx
        rw [h3.len] at hi; exact hi
      have := hS' i x ∅ hx (h4 i hi).1
      simpa using this
    have hsz : ∀ e ∈ st'.insts.zip st'.insts.tail, e.1.actions.length = e.2.actions.length := by
      intro e he
      have he1 : e.1 ∈ st'.insts := (List.of_mem_zip he).1
      have he2 : e.2 ∈ st'.insts := List.mem_of_mem_tail (List.of_mem_zip he).2
      have hnd : ∀ x ∈ st'.insts, x.actions.Nodup := by
        intro x hx
        obtain ⟨i, hx⟩ := List.getElem?_of_mem hx
        exact C.nodup _ _ (h3.w0 i x hx)
      rw [← List.toFinset_card_of_nodup (hnd _ he1), ← List.toFinset_card_of_nodup (hnd _ he2),
        hacts _ he1, hacts _ he2]
    simp only [C.changes, h1, h2]
    rw [if_pos hsz]
    refine ⟨_, true, _, _, rfl, h3.valid, rfl, rfl, by simp, fun _ => ⟨?_, hW, ⟨S, hSA, hSL, hacts⟩, ?_, ?_⟩⟩
    · simp only; rw [h3.len, hL]
    · intro i x y hx hy
      simp only at hy
      have hi : i < n := by
        obtain ⟨hi, -⟩ := List.getElem?_eq_some_iff.1 hx
        rw [hL] at hi; exact hi
      have := h3.shrink i x hx
      rw [freeAt_eq hy (h4 i hi).1 (h4 i hi).2.1] at this
      simpa using this
    · intro T t1 t2 t3 t4
      exact (h3.fits T t1 t2 t3 t4).insts

end Verif.Proofs
