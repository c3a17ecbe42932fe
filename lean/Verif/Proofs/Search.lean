import Verif.Model.Search
import Verif.Proofs.Loop
import Verif.Proofs.Conflict

/-! Lemmas for property C17: the backtracking search. -/

namespace Verif.Proofs
open Verif.Model

universe u v
variable {γ : Type u} {α : Type v}

theorem addActs_spec (l : List ℕ) (s : Finset ℕ) (hl : l.Nodup) :
    (addActs l s).Nodup ∧ (addActs l s).toFinset = l.toFinset ∪ s := by
  unfold addActs
  have key : ∀ (L l : List ℕ), l.Nodup →
      (L.foldl (fun l a => l.erase a ++ [a]) l).Nodup ∧
      (L.foldl (fun l a => l.erase a ++ [a]) l).toFinset = l.toFinset ∪ L.toFinset := by
    intro L
    induction L with
    | nil => intro l hl; simpa using hl
    | cons a L ih =>
      intro l hl
      have h1 : (l.erase a ++ [a]).Nodup := by
        rw [List.nodup_append]
        refine ⟨hl.erase a, by simp, ?_⟩
        intro x hx y hy
        rw [List.mem_singleton] at hy
        subst hy
        exact (List.Nodup.mem_erase_iff hl).1 hx |>.1
      obtain ⟨h2, h3⟩ := ih _ h1
      refine ⟨h2, ?_⟩
      rw [List.foldl_cons, h3]
      ext x
      simp only [Finset.mem_union, List.mem_toFinset, List.mem_append, List.mem_singleton,
        List.mem_cons, hl.mem_erase_iff]
      by_cases hx : x = a <;> simp [hx]
  have := key (arr s) l hl
  rwa [arr_toFinset] at this

/-- The invariant of the loop of `revise_actions`: for some set `S`, the actions of each instance
together with those still to be added are `S`. -/
structure RevInv (N : List Bool) (S0 : Finset ℕ) (st : RevSt γ α) : Prop where
  adds_len : st.adds.length = st.insts.length
  np : st.insts.map SInst.noPartial = N
  nodup : ∀ x ∈ st.insts, x.actions.Nodup
  total : ∃ S, S0 ⊆ S ∧ ∀ (i : ℕ) (x : SInst α) (a : Finset ℕ), st.insts[i]? = some x → st.adds[i]? = some a →
    x.actions.toFinset ∪ a = S

theorem RevInv.congr {N : List Bool} {S0 : Finset ℕ} {st st' : RevSt γ α} (h : RevInv N S0 st)
    (h1 : st'.insts = st.insts) (h2 : st'.adds = st.adds) : RevInv N S0 st' :=
  ⟨by rw [h1, h2, h.adds_len], by rw [h1, h.np], by rw [h1]; exact h.nodup, by
    rw [h1, h2]; exact h.total⟩

theorem map_set_same {β : Type v} {δ : Type u} (f : β → δ) (l : List β) (i : ℕ) (x y : β)
    (h : l[i]? = some x) (hf : f y = f x) : (l.set i y).map f = l.map f := by
  rw [List.map_set, hf]
  apply List.ext_getElem? 
  intro j
  rw [List.getElem?_set]
  split
  · rename_i hij
    subst hij
    split
    · simp [h]
    · rename_i hlt
      simp only [List.length_map] at hlt
      rw [List.getElem?_eq_none (by simpa using hlt)]
  · rfl

/-- One step keeps the invariant, and leaves nothing to add for instance `i` unless the loop goes on. -/
theorem reviseStep_spec {env : SearchEnv γ α} {N : List Bool} {S0 : Finset ℕ} {maxSum i : ℕ}
    {st st' : RevSt γ α}
    (h : RevInv N S0 st) (hs : reviseStep env maxSum i st = some (true, st')) :
    RevInv N S0 st' ∧ (st'.keep = false → st.keep = false ∧ st'.adds[i]? = some ∅ ∧
      ∀ j, j ≠ i → st'.adds[j]? = st.adds[j]?) := by
  unfold reviseStep at hs
  split at hs
  case h_2 => exact absurd hs (by simp)
  rename_i inst a d h1 h2 h3
  split at hs
  · rename_i hc
    simp only [Option.some.injEq, Prod.mk.injEq, true_and] at hs
    subst hs
    exact ⟨h, fun hk => ⟨hk, by rw [h2, hc.2.1], fun _ _ => rfl⟩⟩
  · split at hs
    · simp at hs
    · simp at hs
    · rename_i g rest adds dels rejs hal
      split at hs
      case isFalse => simp at hs
      obtain ⟨hi, hie⟩ := List.getElem?_eq_some_iff.1 h1
      have hmem : inst ∈ st.insts := List.mem_of_getElem? h1
      obtain ⟨hn, ht⟩ := addActs_spec inst.actions a (h.nodup inst hmem)
      obtain ⟨S, hS0, hS⟩ := h.total
      have hnp : (st.insts.set i ⟨addActs inst.actions a, inst.noPartial, rest⟩).map SInst.noPartial = N :=
        (map_set_same SInst.noPartial st.insts i inst ⟨addActs inst.actions a, inst.noPartial, rest⟩ h1
          rfl).trans h.np
      have hnd : ∀ x ∈ st.insts.set i ⟨addActs inst.actions a, inst.noPartial, rest⟩,
          x.actions.Nodup := by
        intro x hx
        rcases List.mem_or_eq_of_mem_set hx with hx | hx
        · exact h.nodup x hx
        · subst hx; exact hn
      have htot : ∀ j x b, (st.insts.set i ⟨addActs inst.actions a, inst.noPartial, rest⟩)[j]? = some x →
          (st.adds.set i adds)[j]? = some b → x.actions.toFinset ∪ b = if j = i then S ∪ adds else S := by
        intro j x b hx hb
        rw [List.getElem?_set] at hx hb
        by_cases hij : i = j
        · subst hij
          have hi' : i < st.adds.length := by rw [h.adds_len]; exact hi
          rw [if_pos rfl, if_pos hi, Option.some.injEq] at hx
          rw [if_pos rfl, if_pos hi', Option.some.injEq] at hb
          subst hx hb
          rw [if_pos rfl, ht, hS i inst a h1 h2]
        · rw [if_neg hij] at hx hb
          rw [if_neg (Ne.symm hij)]
          exact hS j x b hx hb
      generalize (if i = 0 then dels else st.common ∩ dels) = common at hs
      simp only at hs
      split at hs
      · simp only [Option.some.injEq, Prod.mk.injEq, true_and] at hs
        subst hs
        refine ⟨⟨by simp [h.adds_len], hnp, hnd, S ∪ adds, hS0.trans Finset.subset_union_left, ?_⟩,
          fun hk => by simp at hk⟩
        intro j x b hx hb
        simp only [List.getElem?_map, Option.map_eq_some_iff] at hb
        obtain ⟨c, hc, rfl⟩ := hb
        have := htot j x c hx hc
        rw [← Finset.union_assoc, this]
        split
        · rw [Finset.union_assoc, Finset.union_self]
        · rfl
      · rename_i hno
        push Not at hno
        simp only [Option.some.injEq, Prod.mk.injEq, true_and] at hs
        subst hs
        have hi' : i < st.adds.length := by rw [h.adds_len]; exact hi
        refine ⟨⟨by simp [h.adds_len], hnp, hnd, S, hS0, ?_⟩, fun hk => ⟨hk, ?_, ?_⟩⟩
        · intro j x b hx hb
          have := htot j x b hx hb
          rw [hno.1, Finset.union_empty] at this
          simpa using this
        · simp [hi', hno.1]
        · intro j hj
          simp [List.getElem?_set, Ne.symm hj]

theorem revisePass_spec {env : SearchEnv γ α} {N : List Bool} {S0 : Finset ℕ} {maxSum : ℕ} :
    ∀ (l : List ℕ) (st st' : RevSt γ α), RevInv N S0 st →
      (st.keep = false → ∀ j, j < st.adds.length → j ∉ l → st.adds[j]? = some ∅) →
      revisePass env maxSum l st = some (true, st') →
      RevInv N S0 st' ∧ (st'.keep = false → ∀ j, j < st'.adds.length → st'.adds[j]? = some ∅) := by
  intro l
  induction l with
  | nil =>
    intro st st' h hk hr
    simp only [revisePass, Option.some.injEq, Prod.mk.injEq, true_and] at hr
    subst hr
    exact ⟨h, fun hk' j hj => hk hk' j hj (by simp)⟩
  | cons i l ih =>
    intro st st' h hk hr
    unfold revisePass at hr
    split at hr
    · rename_i hc
      simp only [Option.some.injEq, Prod.mk.injEq, true_and] at hr
      subst hr
      exact ⟨h, fun hk' => by simp [hc.1] at hk'⟩
    · split at hr
      · simp at hr
      · simp at hr
      · rename_i st1 hs
        obtain ⟨h1, h2⟩ := reviseStep_spec h hs
        refine ih st1 st' h1 ?_ hr
        intro hk1 j hj hjl
        obtain ⟨hk0, ha, hb⟩ := h2 hk1
        by_cases hji : j = i
        · subst hji; exact ha
        · rw [hb j hji]
          apply hk hk0
          · have h' : st1.adds[j]? ≠ none := by
              rw [Ne, List.getElem?_eq_none_iff]; omega
            rw [hb j hji, Ne, List.getElem?_eq_none_iff] at h'
            omega
          · simp [hji, hjl]

/-- What the loop of `revise_actions` gives: all instances have the same actions. -/
def Same (N : List Bool) (S0 : Finset ℕ) (L : List (SInst α)) : Prop :=
  L.map SInst.noPartial = N ∧ (∀ x ∈ L, x.actions.Nodup) ∧
    ∃ S, S0 ⊆ S ∧ ∀ x ∈ L, x.actions.toFinset = S

theorem reviseLoop_spec {env : SearchEnv γ α} {N : List Bool} {S0 : Finset ℕ} {maxSum fuel : ℕ}
    {st st' : RevSt γ α} (h : RevInv N S0 st)
    (hr : loopFuel (reviseBody env maxSum) fuel st = some (some (true, st'))) :
    Same N S0 st'.insts := by
  refine loopFuel_partial (body := reviseBody env maxSum) (RevInv N S0)
    (fun b => ∀ st', b = some (true, st') → Same N S0 st'.insts) ?_ ?_ fuel st _ h hr st' rfl
  · intro a b ha hb st' hst
    subst hst
    unfold reviseBody at hb
    split at hb
    · simp at hb
    · simp at hb
    · rename_i st1 hp
      obtain ⟨h1, h2⟩ := revisePass_spec _ _ _ (ha.congr (st' := { a with keep := false, common := ∅ }) rfl rfl)
        (fun _ j hj hjl => absurd (List.mem_range.2 (by
          have := ha.adds_len; simp only at hj; omega)) hjl) hp
      have key : st1.keep = false → Same N S0 st1.insts := by
        intro hk
        refine ⟨h1.np, h1.nodup, ?_⟩
        obtain ⟨S, hS0, hS⟩ := h1.total
        refine ⟨S, hS0, fun x hx => ?_⟩
        obtain ⟨i, hi, rfl⟩ := List.mem_iff_getElem.1 hx
        have := hS i _ ∅ (List.getElem?_eq_getElem hi) (h2 hk i (by rw [h1.adds_len]; exact hi))
        simpa using this
      by_cases hc : st1.common = ∅
      · simp only [hc, if_true] at hb
        split at hb
        · simp at hb
        · rename_i hk
          simp only [Sum.inl.injEq, Option.some.injEq, Prod.mk.injEq, true_and] at hb
          subst hb
          exact key (by simpa using hk)
      · simp only [hc, if_false] at hb
        split at hb
        · simp at hb
        · rename_i hk
          simp only [Sum.inl.injEq, Option.some.injEq, Prod.mk.injEq, true_and] at hb
          subst hb
          exact key (by simpa using hk)
  · intro a a' ha hb
    unfold reviseBody at hb
    split at hb
    · simp at hb
    · simp at hb
    · rename_i st1 hp
      obtain ⟨h1, -⟩ := revisePass_spec _ _ _ (ha.congr (st' := { a with keep := false, common := ∅ }) rfl rfl)
        (fun _ j hj hjl => absurd (List.mem_range.2 (by
          have := ha.adds_len; simp only at hj; omega)) hjl) hp
      by_cases hc : st1.common = ∅
      · simp only [hc, if_true] at hb
        split at hb
        · simp only [Sum.inr.injEq] at hb
          subst hb; exact h1
        · simp at hb
      · simp only [hc, if_false] at hb
        split at hb
        · simp only [Sum.inr.injEq] at hb
          subst hb; exact h1.congr rfl rfl
        · simp at hb

/-- A partial solution as it should be: all instances have the same actions, among them the given
ones `B` and the picks. -/
def GoodSyn (N : List Bool) (B : Finset ℕ) (ps : PSyn α) : Prop := Same N (B ∪ ps.picks.toFinset) ps.insts

theorem Same.mono {N : List Bool} {S0 S1 : Finset ℕ} {L : List (SInst α)} (h : Same N S0 L)
    (hs : S1 ⊆ S0) : Same N S1 L := by
  obtain ⟨h1, h2, S, h3, h4⟩ := h
  exact ⟨h1, h2, S, hs.trans h3, h4⟩

theorem revInv_start {N : List Bool} {S0 : Finset ℕ} {L : List (SInst α)} (h : Same N S0 L)
    (g : γ) (adds dels : Finset ℕ) (k f : Bool) (c : Finset ℕ) :
    RevInv N (S0 ∪ adds) ⟨g, L, L.map fun _ => adds, L.map fun _ => dels, k, c, f⟩ := by
  obtain ⟨h1, h2, S, h3, h4⟩ := h
  refine ⟨by simp, h1, h2, S ∪ adds, Finset.union_subset_union_left h3, ?_⟩
  intro i x a hx ha
  simp only [List.getElem?_map, Option.map_eq_some_iff] at ha
  obtain ⟨_, _, rfl⟩ := ha
  rw [h4 x (List.mem_of_getElem? hx)]

/-- The instances of `ctx->base_partial` have the same actions, among them `B`. -/
def BaseOk (env : SearchEnv γ α) (B : Finset ℕ) : Prop :=
  ∀ g, (∀ x ∈ env.base g, x.actions.Nodup) ∧ ∃ S, B ⊆ S ∧ ∀ x ∈ env.base g, x.actions.toFinset = S

theorem reviseActions_spec {env : SearchEnv γ α} {N : List Bool} {B : Finset ℕ}
    (hbase : BaseOk env B) :
    ∀ (fuel : ℕ) (g : γ) (ps : PSyn α) (adds dels : Finset ℕ) (S1 : Finset ℕ) (g' : γ) (ok : Bool)
      (ps' : PSyn α) (n : Option ℕ), Same N S1 ps.insts → B ⊆ S1 → ps.picks.toFinset ⊆ S1 ∪ adds →
      reviseActions env fuel g ps adds dels = some (g', ok, ps', n) →
      ps'.level = ps.level ∧ (ok = true → GoodSyn N B ps') := by
  intro fuel
  induction fuel with
  | zero => intro g ps adds dels S1 g' ok ps' n _ _ _ h; simp [reviseActions] at h
  | succ fuel ih =>
    intro g ps adds dels S1 g' ok ps' n hsame hB hp h
    unfold reviseActions at h
    split at h
    · simp at h
    · simp at h
    · simp only [Option.some.injEq, Prod.mk.injEq] at h
      obtain ⟨-, rfl, rfl, -⟩ := h
      exact ⟨rfl, by simp⟩
    · rename_i st hst
      have hS := reviseLoop_spec (revInv_start hsame g adds dels true _ ∅) hst
      simp only at h
      split at h
      · rename_i g1 newpicks hch
        split at h
        case isFalse => simp at h
        rename_i hlen
        have hz : Same N B (List.zipWith (resetInst env) (env.base g1) st.insts) := by
          obtain ⟨hb1, S, hBS, hb2⟩ := hbase g1
          have hm : ∀ x ∈ List.zipWith (resetInst env) (env.base g1) st.insts,
              ∃ b ∈ env.base g1, x.actions = b.actions := by
            intro x hx
            obtain ⟨i, hi, rfl⟩ := List.mem_iff_getElem.1 hx
            rw [List.getElem_zipWith]
            exact ⟨_, List.getElem_mem _, rfl⟩
          refine ⟨?_, ?_, S, hBS, ?_⟩
          · rw [← hS.1]
            apply List.ext_getElem
            · simp only [List.length_map, List.length_zipWith]; omega
            · intro i h1 h2
              simp [resetInst]
          · intro x hx
            obtain ⟨b, hb, he⟩ := hm x hx
            rw [he]; exact hb1 b hb
          · intro x hx
            obtain ⟨b, hb, he⟩ := hm x hx
            rw [he]; exact hb2 b hb
        exact ih _ ⟨ps.level, newpicks, _⟩ _ _ B _ _ _ _ hz (Finset.Subset.refl _) Finset.subset_union_right h
      · split at h
        case isFalse => simp at h
        simp only [Option.some.injEq, Prod.mk.injEq] at h
        obtain ⟨-, rfl, rfl, -⟩ := h
        refine ⟨rfl, fun _ => hS.mono ?_⟩
        intro x hx
        rcases Finset.mem_union.1 hx with hx | hx
        · exact Finset.mem_union_left _ (hB hx)
        · exact hp hx

theorem pickAction_spec {env : SearchEnv γ α} {N : List Bool} {B : Finset ℕ} (hbase : BaseOk env B)
    {fuel : ℕ} {g g' : γ} {ps ps' : PSyn α} {a : ℕ} {ok : Bool} (hg : GoodSyn N B ps)
    (h : pickAction env fuel g ps a = some (g', ok, ps')) :
    ps'.level = ps.level ∧ (ok = true → GoodSyn N B ps') := by
  unfold pickAction at h
  have key : ∀ ok g' ps' n, reviseActions env fuel g { ps with picks := ps.picks ++ [a] } {a} ∅ =
      some (g', ok, ps', n) → ps'.level = ps.level ∧ (ok = true → GoodSyn N B ps') := by
    intro ok g' ps' n hr
    have hg' : Same N (B ∪ ps.picks.toFinset) ({ ps with picks := ps.picks ++ [a] } : PSyn α).insts := hg
    refine reviseActions_spec hbase fuel g ⟨ps.level, ps.picks ++ [a], ps.insts⟩ {a} ∅ _ g' ok ps' n hg' Finset.subset_union_left ?_ hr
    intro x hx
    simp only [List.mem_toFinset, List.mem_append, List.mem_singleton] at hx
    simp only [Finset.mem_union, List.mem_toFinset, Finset.mem_singleton]
    tauto
  split at h
  · simp at h
  · rename_i g1 ps1 n hr
    simp only [Option.some.injEq, Prod.mk.injEq] at h
    obtain ⟨rfl, rfl, rfl⟩ := h
    exact key _ _ _ _ hr
  · rename_i g1 ps1 n hr
    simp only [Option.some.injEq, Prod.mk.injEq] at h
    obtain ⟨rfl, rfl, rfl⟩ := h
    exact key _ _ _ _ hr

theorem reviseDel_spec {env : SearchEnv γ α} {N : List Bool} {B : Finset ℕ} (hbase : BaseOk env B)
    {fuel : ℕ} {g g' : γ} {ps ps' : PSyn α} {dels : Finset ℕ} {ok : Bool} {n : Option ℕ}
    (hg : GoodSyn N B ps) (h : reviseActions env fuel g ps ∅ dels = some (g', ok, ps', n)) :
    ps'.level = ps.level ∧ (ok = true → GoodSyn N B ps') :=
  reviseActions_spec hbase fuel g _ ∅ _ _ g' ok ps' n hg Finset.subset_union_left
    (by rw [Finset.union_empty]; exact Finset.subset_union_right) h

/-- The invariant of the ring of partial solutions. -/
structure StackInv (env : SearchEnv γ α) (N : List Bool) (B : Finset ℕ) (stack : List (PSyn α))
    (idx : ℕ) (cur : PSyn α) : Prop where
  cur_eq : stack[idx]? = some cur
  level_mod : ∀ (j : ℕ) (ps : PSyn α), stack[j]? = some ps → ps.level % stack.length = j
  level_eq : env.maxHeight = 0 ∨ stack.length ≤ env.maxHeight →
    ∀ (j : ℕ) (ps : PSyn α), stack[j]? = some ps → ps.level = j
  good : ∀ (j : ℕ) (ps : PSyn α), stack[j]? = some ps → ps.level ≤ cur.level → GoodSyn N B ps

theorem StackInv.cur_good {env : SearchEnv γ α} {N : List Bool} {B : Finset ℕ} {stack : List (PSyn α)}
    {idx : ℕ} {cur : PSyn α} (h : StackInv env N B stack idx cur) : GoodSyn N B cur :=
  h.good idx cur h.cur_eq le_rfl

theorem StackInv.idx_lt {env : SearchEnv γ α} {N : List Bool} {B : Finset ℕ} {stack : List (PSyn α)}
    {idx : ℕ} {cur : PSyn α} (h : StackInv env N B stack idx cur) : idx < stack.length :=
  (List.getElem?_eq_some_iff.1 h.cur_eq).1

/-- Going back to a slot of lower level. -/
theorem StackInv.back {env : SearchEnv γ α} {N : List Bool} {B : Finset ℕ} {stack : List (PSyn α)}
    {idx : ℕ} {cur : PSyn α} (h : StackInv env N B stack idx cur) {idx' : ℕ} {prev : PSyn α}
    (hp : stack[idx']? = some prev) (hl : prev.level ≤ cur.level) : StackInv env N B stack idx' prev :=
  ⟨hp, h.level_mod, h.level_eq, fun j ps hj hle => h.good j ps hj (hle.trans hl)⟩

/-- Replacing the current slot by a good one of the same level. -/
theorem StackInv.set_cur {env : SearchEnv γ α} {N : List Bool} {B : Finset ℕ} {stack : List (PSyn α)}
    {idx : ℕ} {cur cur' : PSyn α} (h : StackInv env N B stack idx cur) (hl : cur'.level = cur.level)
    (hg : GoodSyn N B cur') : StackInv env N B (stack.set idx cur') idx cur' := by
  have hi := h.idx_lt
  have hc : ∀ (j : ℕ) (ps : PSyn α), (stack.set idx cur')[j]? = some ps →
      (j = idx ∧ ps = cur') ∨ (j ≠ idx ∧ stack[j]? = some ps) := by
    intro j ps hj
    rw [List.getElem?_set] at hj
    by_cases hij : idx = j
    · rw [if_pos hij, if_pos hi, Option.some.injEq] at hj
      exact .inl ⟨hij.symm, hj.symm⟩
    · rw [if_neg hij] at hj
      exact .inr ⟨Ne.symm hij, hj⟩
  refine ⟨by simp [hi], ?_, ?_, ?_⟩
  · intro j ps hj
    rw [List.length_set]
    rcases hc j ps hj with ⟨rfl, rfl⟩ | ⟨-, hj⟩
    · rw [hl]; exact h.level_mod _ _ h.cur_eq
    · exact h.level_mod _ _ hj
  · intro hm j ps hj
    rw [List.length_set] at hm
    rcases hc j ps hj with ⟨rfl, rfl⟩ | ⟨-, hj⟩
    · rw [hl]; exact h.level_eq hm _ _ h.cur_eq
    · exact h.level_eq hm _ _ hj
  · intro j ps hj hle
    rcases hc j ps hj with ⟨rfl, rfl⟩ | ⟨-, hj⟩
    · exact hg
    · exact h.good j ps hj (hl ▸ hle)

/-- Spoiling the current slot and going back to one of lower level. -/
theorem StackInv.spoil_back {env : SearchEnv γ α} {N : List Bool} {B : Finset ℕ} {stack : List (PSyn α)}
    {idx : ℕ} {cur cur' : PSyn α} (h : StackInv env N B stack idx cur) (hl : cur'.level = cur.level)
    {idx' : ℕ} {prev : PSyn α} (hp : (stack.set idx cur')[idx']? = some prev)
    (hlt : prev.level < cur'.level) : StackInv env N B (stack.set idx cur') idx' prev := by
  have hi := h.idx_lt
  have hc : ∀ (j : ℕ) (ps : PSyn α), (stack.set idx cur')[j]? = some ps →
      (j = idx ∧ ps = cur') ∨ (j ≠ idx ∧ stack[j]? = some ps) := by
    intro j ps hj
    rw [List.getElem?_set] at hj
    by_cases hij : idx = j
    · rw [if_pos hij, if_pos hi, Option.some.injEq] at hj
      exact .inl ⟨hij.symm, hj.symm⟩
    · rw [if_neg hij] at hj
      exact .inr ⟨Ne.symm hij, hj⟩
  refine ⟨hp, ?_, ?_, ?_⟩
  · intro j ps hj
    rw [List.length_set]
    rcases hc j ps hj with ⟨rfl, rfl⟩ | ⟨-, hj⟩
    · rw [hl]; exact h.level_mod _ _ h.cur_eq
    · exact h.level_mod _ _ hj
  · intro hm j ps hj
    rw [List.length_set] at hm
    rcases hc j ps hj with ⟨rfl, rfl⟩ | ⟨-, hj⟩
    · rw [hl]; exact h.level_eq hm _ _ h.cur_eq
    · exact h.level_eq hm _ _ hj
  · intro j ps hj hle
    rcases hc j ps hj with ⟨rfl, rfl⟩ | ⟨-, hj⟩
    · omega
    · exact h.good j ps hj (by omega)

/-- Filling the next slot: its place, and the invariant for the old and for the new position. -/
theorem StackInv.next {env : SearchEnv γ α} {N : List Bool} {B : Finset ℕ} {stack : List (PSyn α)}
    {idx : ℕ} {cur nxt : PSyn α} (h : StackInv env N B stack idx cur) (hl : nxt.level = cur.level + 1) :
    StackInv env N B ((nextSlot env stack idx).1.set (nextSlot env stack idx).2 nxt) idx cur ∧
    (GoodSyn N B nxt → StackInv env N B ((nextSlot env stack idx).1.set (nextSlot env stack idx).2 nxt)
      (nextSlot env stack idx).2 nxt) := by
  have hi := h.idx_lt
  -- the facts needed about the slot
  have key : ∀ (st' : List (PSyn α)) (k : ℕ), k < st'.length → k ≠ idx →
      (∀ (j : ℕ), j ≠ k → st'[j]? = stack[j]?) →
      (∀ (j : ℕ) (ps : PSyn α), j ≠ k → stack[j]? = some ps → ps.level % st'.length = j) →
      (cur.level + 1) % st'.length = k →
      (env.maxHeight = 0 ∨ st'.length ≤ env.maxHeight →
        (∀ (j : ℕ) (ps : PSyn α), stack[j]? = some ps → ps.level = j) ∧ k = idx + 1) →
      StackInv env N B (st'.set k nxt) idx cur ∧
      (GoodSyn N B nxt → StackInv env N B (st'.set k nxt) k nxt) := by
    intro st' k hk hne hold hmod hnew heq
    have hc : ∀ (j : ℕ) (ps : PSyn α), (st'.set k nxt)[j]? = some ps →
        (j = k ∧ ps = nxt) ∨ (j ≠ k ∧ stack[j]? = some ps) := by
      intro j ps hj
      rw [List.getElem?_set] at hj
      by_cases hij : k = j
      · rw [if_pos hij, if_pos hk, Option.some.injEq] at hj
        exact .inl ⟨hij.symm, hj.symm⟩
      · rw [if_neg hij, hold j (Ne.symm hij)] at hj
        exact .inr ⟨Ne.symm hij, hj⟩
    have hm1 : ∀ (j : ℕ) (ps : PSyn α), (st'.set k nxt)[j]? = some ps →
        ps.level % (st'.set k nxt).length = j := by
      intro j ps hj
      rw [List.length_set]
      rcases hc j ps hj with ⟨rfl, rfl⟩ | ⟨hj1, hj⟩
      · rw [hl, hnew]
      · exact hmod j ps hj1 hj
    have hm2 : env.maxHeight = 0 ∨ (st'.set k nxt).length ≤ env.maxHeight →
        ∀ (j : ℕ) (ps : PSyn α), (st'.set k nxt)[j]? = some ps → ps.level = j := by
      intro hm j ps hj
      rw [List.length_set] at hm
      obtain ⟨e1, e2⟩ := heq hm
      rcases hc j ps hj with ⟨rfl, rfl⟩ | ⟨-, hj⟩
      · rw [hl, e1 idx cur h.cur_eq, e2]
      · exact e1 j ps hj
    refine ⟨⟨?_, hm1, hm2, ?_⟩, fun hg => ⟨by simp [hk], hm1, hm2, ?_⟩⟩
    · rw [List.getElem?_set, if_neg hne, hold idx (Ne.symm hne), h.cur_eq]
    · intro j ps hj hle
      rcases hc j ps hj with ⟨rfl, rfl⟩ | ⟨-, hj⟩
      · omega
      · exact h.good j ps hj hle
    · intro j ps hj hle
      rcases hc j ps hj with ⟨rfl, rfl⟩ | ⟨hj1, hj⟩
      · exact hg
      · by_cases hle' : ps.level ≤ cur.level
        · exact h.good j ps hj hle'
        · have e : ps.level = cur.level + 1 := by omega
          have := hmod j ps hj1 hj
          rw [e, hnew] at this
          exact absurd this.symm hj1
  unfold nextSlot
  split
  · rename_i hm
    have e1 := h.level_eq hm
    have hcl := e1 idx cur h.cur_eq
    split
    · rename_i hlen
      refine key _ _ (by simp; omega) (by omega) ?_ ?_ ?_ (fun _ => ⟨e1, rfl⟩)
      · intro j hj
        rcases Nat.lt_or_ge j stack.length with hj' | hj'
        · rw [List.getElem?_append_left hj']
        · rw [List.getElem?_eq_none hj', List.getElem?_eq_none (by simp; omega)]
      · intro j ps _ hj
        obtain ⟨hj', -⟩ := List.getElem?_eq_some_iff.1 hj
        rw [e1 j ps hj]
        apply Nat.mod_eq_of_lt
        simp; omega
      · rw [hcl]
        apply Nat.mod_eq_of_lt
        simp; omega
    · rename_i hlen
      refine key stack _ (by omega) (by omega) (fun _ _ => rfl) (fun j ps _ hj => h.level_mod j ps hj) ?_
        (fun _ => ⟨e1, rfl⟩)
      rw [hcl]
      apply Nat.mod_eq_of_lt
      omega
  · rename_i hm
    have hm' : env.maxHeight ≠ 0 ∧ env.maxHeight < stack.length := by omega
    have h2 : 2 ≤ stack.length := by omega
    refine key _ _ (Nat.mod_lt _ (by omega)) ?_ (fun _ _ => rfl) (fun j ps _ hj => h.level_mod j ps hj) ?_
      (fun hc => absurd hc hm)
    · intro he
      rcases Nat.lt_or_ge (idx + 1) stack.length with h3 | h3
      · rw [Nat.mod_eq_of_lt h3] at he; omega
      · have : idx + 1 = stack.length := by omega
        rw [this, Nat.mod_self] at he
        omega
    · rw [← h.level_mod idx cur h.cur_eq, Nat.add_mod (cur.level) 1, Nat.add_mod (cur.level % _) 1,
        Nat.mod_mod]

theorem btLoop_spec {env : SearchEnv γ α} {N : List Bool} {B : Finset ℕ} (hbase : BaseOk env B)
    {fuel fuel' : ℕ} {g : γ} {stack : List (PSyn α)} {idx n a : ℕ} {cur : PSyn α}
    (h : StackInv env N B stack idx cur) {st : AddSt γ α}
    (hr : loopFuel (btBody env fuel) fuel' (⟨g, stack, idx, n⟩, a) = some (some (.inr st))) :
    ∃ cur', StackInv env N B st.stack st.idx cur' := by
  refine loopFuel_partial (body := btBody env fuel)
    (fun s => ∃ cur, StackInv env N B s.1.stack s.1.idx cur)
    (fun b => ∀ st, b = some (.inr st) → ∃ cur', StackInv env N B st.stack st.idx cur')
    ?_ ?_ fuel' _ _ ⟨cur, h⟩ hr st rfl
  · rintro s b ⟨cur, h⟩ hb st rfl
    unfold btBody at hb
    rw [h.cur_eq] at hb
    simp only at hb
    split at hb
    · simp at hb
    · rename_i g1 ps1 n1 hrev
      simp only [Sum.inl.injEq, Option.some.injEq, Sum.inr.injEq] at hb
      subst hb
      obtain ⟨e1, e2⟩ := reviseDel_spec hbase h.cur_good hrev
      exact ⟨_, h.set_cur e1 (e2 rfl)⟩
    · split at hb
      · simp at hb
      · split at hb
        · simp at hb
        · split at hb
          · simp at hb
          · split at hb <;> simp at hb
  · rintro s s' ⟨cur, h⟩ hb
    unfold btBody at hb
    rw [h.cur_eq] at hb
    simp only at hb
    split at hb
    · simp at hb
    · simp at hb
    · rename_i g1 ps1 n1 hrev
      obtain ⟨e1, -⟩ := reviseDel_spec hbase h.cur_good hrev
      split at hb
      · simp at hb
      · rename_i prev hprev
        split at hb
        · simp at hb
        · rename_i hlt
          split at hb
          · simp at hb
          · split at hb
            · simp at hb
            · simp only [Sum.inr.injEq] at hb
              subst hb
              exact ⟨prev, h.spoil_back e1 hprev (by omega)⟩

theorem addPick_spec {env : SearchEnv γ α} {N : List Bool} {B : Finset ℕ} (hbase : BaseOk env B)
    {fuel oldOpt : ℕ} {st st' : AddSt γ α} {cur : PSyn α}
    (h : StackInv env N B st.stack st.idx cur)
    (hr : addPick env fuel st cur oldOpt = .inr st') :
    ∃ cur', StackInv env N B st'.stack st'.idx cur' := by
  unfold addPick at hr
  split at hr
  · simp at hr
  · simp only at hr
    split at hr
    · simp at hr
    · rename_i g1 ok nxt hp
      obtain ⟨e1, e2⟩ := pickAction_spec hbase (ps := { cur with level := cur.level + 1 }) h.cur_good hp
      obtain ⟨f1, f2⟩ := h.next e1
      split at hr
      · split at hr
        · rename_i hok
          simp only [Sum.inr.injEq] at hr
          subst hr
          exact ⟨_, f2 (e2 hok)⟩
        · split at hr
          · simp at hr
          · split at hr
            · simp at hr
            · simp at hr
            · simp at hr
            · rename_i st1 hbt
              split at hr
              · simp at hr
              · simp only [Sum.inr.injEq] at hr
                subst hr
                exact btLoop_spec hbase f1 hbt
      · simp at hr

theorem addPick_not_found {env : SearchEnv γ α} {fuel oldOpt : ℕ} {st : AddSt γ α} {cur : PSyn α}
    {g : γ} {acts : List ℕ} : addPick env fuel st cur oldOpt ≠ .inl (some (.found g acts)) := by
  intro hr
  unfold addPick at hr
  split at hr
  · simp at hr
  · simp only at hr
    split at hr
    · simp at hr
    · split at hr
      · split at hr
        · simp at hr
        · split at hr
          · simp at hr
          · split at hr
            · simp at hr
            · simp at hr
            · simp at hr
            · split at hr <;> simp at hr
      · simp at hr

/-- The instances that a loop of `verify_solutions` looks at. -/
def looksAt (env : SearchEnv γ α) (first : Bool) (x : SInst α) : Bool :=
  if first then x.noPartial else !x.noPartial && env.verifyFound

theorem verifyLoop_spec {env : SearchEnv γ α} {first : Bool} :
    ∀ (l : List (SInst α)) (i : ℕ) (info info' : StabInfo) (sum sum' : ℕ),
      verifyLoop env first i l info sum = (true, info', sum') →
      (∀ k x, l[k]? = some x → looksAt env first x = true → (env.stab (i + k) x.actions).ok = true) ∧
      sum' = sum + ((l.zipIdx i).map fun e => if looksAt env first e.1 then
        (if first then 1 else (env.stab e.2 e.1.actions).nlayers) else 0).sum := by
  intro l
  induction l with
  | nil =>
    intro i info info' sum sum' h
    simp only [verifyLoop, Prod.mk.injEq, true_and] at h
    simp [h.2]
  | cons x l ih =>
    intro i info info' sum sum' h
    have hlk : (if first then !x.noPartial else x.noPartial || !env.verifyFound) =
        !looksAt env first x := by
      unfold looksAt
      cases first <;> cases x.noPartial <;> cases env.verifyFound <;> rfl
    unfold verifyLoop at h
    rw [hlk] at h
    split at h
    · rename_i hc
      have hc' : looksAt env first x = false := by simpa using hc
      obtain ⟨h1, h2⟩ := ih _ _ _ _ _ h
      constructor
      · intro k y hk hy
        cases k with
        | zero =>
          simp only [List.getElem?_cons_zero, Option.some.injEq] at hk
          subst hk
          rw [hc'] at hy; exact absurd hy (by simp)
        | succ k =>
          rw [List.getElem?_cons_succ] at hk
          have := h1 k y hk hy
          rwa [show i + (k + 1) = i + 1 + k by omega]
      · rw [h2, List.zipIdx_cons, List.map_cons, List.sum_cons]
        simp [hc']
    · rename_i hc
      have hc' : looksAt env first x = true := by simpa using hc
      simp only at h
      split at h
      · rename_i hok
        obtain ⟨h1, h2⟩ := ih _ _ _ _ _ h
        constructor
        · intro k y hk hy
          cases k with
          | zero =>
            simp only [List.getElem?_cons_zero, Option.some.injEq] at hk
            subst hk
            simpa using hok
          | succ k =>
            rw [List.getElem?_cons_succ] at hk
            have := h1 k y hk hy
            rwa [show i + (k + 1) = i + 1 + k by omega]
        · rw [h2, List.zipIdx_cons, List.map_cons, List.sum_cons]
          simp only [hc', if_true, updInfo]
          omega
      · simp at h

theorem sum_map_add {β : Type u} (l : List β) (f g : β → ℕ) :
    (l.map fun x => f x + g x).sum = (l.map f).sum + (l.map g).sum := by
  induction l with
  | nil => rfl
  | cons x l ih => simp only [List.map_cons, List.sum_cons, ih]; omega

/-- What `verify_solutions` has checked when it returns true. -/
theorem verifySolutions_spec {env : SearchEnv γ α} {ps : PSyn α} {info info' : StabInfo} {sum : ℕ}
    (h : verifySolutions env ps info = (true, info', sum)) :
    (∀ k x, ps.insts[k]? = some x → x.noPartial = true ∨ env.verifyFound = true →
      (env.stab k x.actions).ok = true) ∧
    sum = ((ps.insts.zipIdx).map fun e => if e.1.noPartial then 1 else
      if env.verifyFound then (env.stab e.2 e.1.actions).nlayers else 0).sum := by
  unfold verifySolutions at h
  split at h
  · simp at h
  · rename_i info1 sum1 h1
    obtain ⟨a1, a2⟩ := verifyLoop_spec _ _ _ _ _ _ h1
    obtain ⟨b1, b2⟩ := verifyLoop_spec _ _ _ _ _ _ h
    constructor
    · intro k x hk hx
      by_cases hn : x.noPartial = true
      · simpa using a1 k x hk (by simp [looksAt, hn])
      · have hv : env.verifyFound = true := by tauto
        simpa using b1 k x hk (by simp [looksAt, hn, hv])
    · rw [b2, a2, Nat.zero_add, ← sum_map_add]
      congr 1
      apply List.map_congr_left
      intro e _
      simp only [looksAt]
      by_cases h1 : e.1.noPartial <;> by_cases h2 : env.verifyFound <;> simp [h1, h2]

/-- The loop of `AddStabilization` keeps the invariant; if it finds a solution, that is the current
slot and has passed `verify_solutions`. -/
theorem addLoop_spec {env : SearchEnv γ α} {N : List Bool} {B : Finset ℕ} (hbase : BaseOk env B)
    {fuel fuel' : ℕ} {st : AddSt γ α} {cur : PSyn α} (h : StackInv env N B st.stack st.idx cur)
    {g' : γ} {acts : List ℕ}
    (hr : loopFuel (addBody env fuel) fuel' st = some (some (.found g' acts))) :
    ∃ (ps : PSyn α) (g : γ) (info : StabInfo) (n : ℕ), GoodSyn N B ps ∧
      verifySolutions env ps {} = (true, info, n) ∧ deadlocksCk env ps = false ∧
      (ps.insts.head?.map SInst.actions = some acts) ∧
      0 < n ∧ g' = env.setOptimal n g ∧ (env.optimal g = 0 ∨ n < env.optimal g) := by
  refine loopFuel_partial (body := addBody env fuel)
    (fun s => ∃ cur, StackInv env N B s.stack s.idx cur)
    (fun b => ∀ g' acts, b = some (.found g' acts) → ∃ (ps : PSyn α) (g : γ) (info : StabInfo) (n : ℕ),
      GoodSyn N B ps ∧ verifySolutions env ps {} = (true, info, n) ∧ deadlocksCk env ps = false ∧
      (ps.insts.head?.map SInst.actions = some acts) ∧
      0 < n ∧ g' = env.setOptimal n g ∧ (env.optimal g = 0 ∨ n < env.optimal g))
    ?_ ?_ fuel' _ _ ⟨cur, h⟩ hr g' acts rfl
  · rintro s b ⟨cur, h⟩ hb g' acts rfl
    unfold addBody at hb
    simp only [h.cur_eq] at hb
    split at hb
    · simp at hb
    · split at hb
      · simp at hb
      · split at hb
        · exact absurd hb addPick_not_found
        · rename_i hdead
          generalize hv : verifySolutions env cur {} = r at hb
          obtain ⟨ok, info, nsum⟩ := r
          simp only at hb
          split at hb
          · rename_i hok
            simp only [Sum.inl.injEq] at hb
            unfold addFinish at hb
            split at hb
            · simp at hb
            · split at hb
              · simp at hb
              · rename_i x l hx
                split at hb
                · rename_i hpos
                  simp only [Option.some.injEq, AddOut.found.injEq] at hb
                  obtain ⟨rfl, rfl⟩ := hb
                  refine ⟨cur, _, info, nsum, h.cur_good, ?_, by simpa using hdead, by simp [hx], hpos, rfl,
                    hok.2⟩
                  rw [hv, hok.1]
                · simp at hb
          · split at hb
            · split at hb
              · simp at hb
              · split at hb <;> simp at hb
            · split at hb
              · simp at hb
              · exact absurd hb addPick_not_found
  · rintro s s' ⟨cur, h⟩ hb
    unfold addBody at hb
    simp only [h.cur_eq] at hb
    split at hb
    · simp at hb
    · split at hb
      · simp at hb
      · split at hb
        · refine addPick_spec (cur := cur) hbase ?_ hb
          exact h
        · generalize hv : verifySolutions env cur {} = r at hb
          obtain ⟨ok, info, nsum⟩ := r
          simp only at hb
          split at hb
          · simp at hb
          · split at hb
            · split at hb
              · simp at hb
              · rename_i prev hprev
                split at hb
                · simp at hb
                · simp only [Sum.inr.injEq] at hb
                  subst hb
                  exact ⟨prev, h.back hprev (by omega)⟩
            · split at hb
              · simp at hb
              · refine addPick_spec (cur := cur) hbase ?_ hb
                exact h

theorem stackInv_start {env : SearchEnv γ α} {N : List Bool} {B : Finset ℕ} {ps : PSyn α}
    (hg : GoodSyn N B ps) : StackInv env N B [{ ps with level := 0 }] 0 { ps with level := 0 } := by
  have hc : ∀ (j : ℕ) (p : PSyn α), [{ ps with level := 0 }][j]? = some p →
      j = 0 ∧ p = { ps with level := 0 } := by
    intro j p hj
    cases j with
    | zero => simpa using hj.symm
    | succ j => simp at hj
  refine ⟨rfl, ?_, ?_, ?_⟩
  · intro j p hj
    obtain ⟨rfl, rfl⟩ := hc j p hj; rfl
  · intro _ j p hj
    obtain ⟨rfl, rfl⟩ := hc j p hj; rfl
  · intro j p hj _
    obtain ⟨rfl, rfl⟩ := hc j p hj; exact hg

theorem orderLoop_spec {env : SearchEnv γ α} {N : List Bool} {B : Finset ℕ} (hbase : BaseOk env B)
    {fuel fuel' : ℕ} {g g' : γ} {ps ps' : PSyn α} (hg : GoodSyn N B ps)
    (hr : loopFuel (orderBody env fuel) fuel' (g, ps) = some (some (.inr (g', ps')))) :
    GoodSyn N B ps' := by
  refine loopFuel_partial (body := orderBody env fuel) (fun s => GoodSyn N B s.2)
    (fun b => ∀ g' ps', b = some (.inr (g', ps')) → GoodSyn N B ps') ?_ ?_ fuel' _ _ hg hr g' ps' rfl
  · rintro s b h hb g' ps' rfl
    unfold orderBody at hb
    split at hb
    · simp only [Sum.inl.injEq, Option.some.injEq, Sum.inr.injEq] at hb
      subst hb; exact h
    · split at hb
      · simp at hb
      · split at hb
        · simp at hb
        · split at hb
          · simp at hb
          · split at hb <;> simp at hb
          · split at hb
            · simp at hb
            · split at hb
              · simp at hb
              · simp at hb
              · split at hb <;> simp at hb
  · rintro s s' h hb
    unfold orderBody at hb
    split at hb
    · simp at hb
    · split at hb
      · simp at hb
      · split at hb
        · simp at hb
        · split at hb
          · simp at hb
          · rename_i hp
            split at hb
            · simp at hb
            · simp only [Sum.inr.injEq] at hb
              subst hb
              exact (pickAction_spec hbase h hp).2 rfl
          · split at hb
            · simp at hb
            · split at hb
              · simp at hb
              · simp at hb
              · rename_i hrev
                split at hb
                · simp at hb
                · simp only [Sum.inr.injEq] at hb
                  subst hb
                  exact (reviseDel_spec hbase h hrev).2 rfl

end Verif.Proofs
