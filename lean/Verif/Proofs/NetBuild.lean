import Verif.Model.NetBuild
import Mathlib.Data.List.Basic
import Mathlib.Data.List.Nodup
import Mathlib.Data.List.Perm.Basic
import Mathlib.Tactic.Ring
import Mathlib.Tactic.Linarith

/-! Lemmas for property C104: the variables and processes of a network. -/

namespace Verif.Proofs
open Verif.Model

/-! ### The order of the variables -/

theorem refStep_pos {r n : ℕ} (h : 1 ≤ r) : 1 ≤ refStep r n := by
  unfold refStep
  split <;> simp only [] <;> split <;> omega

theorem refSize_pos (ds : List VDecl) : 1 ≤ refSize ds := by
  unfold refSize
  have : ∀ (l : List VDecl) (r : ℕ), 1 ≤ r → 1 ≤ l.foldl (fun r d => refStep r d.nmembs) r := by
    intro l
    induction l with
    | nil => intro r h; exact h
    | cons d l ih => intro r h; exact ih _ (refStep_pos h)
  exact this ds 1 le_rfl

theorem mem_cutOf {r c n j : ℕ} :
    j ∈ cutOf r c n ↔ c * ceilQuot n r ≤ j ∧ j < n ∧ j < (c + 1) * ceilQuot n r := by
  unfold cutOf
  simp only [List.mem_range'_1]
  constructor
  · rintro ⟨h1, h2⟩; refine ⟨h1, ?_, ?_⟩ <;> omega
  · rintro ⟨h1, h2, h3⟩; refine ⟨h1, ?_⟩; omega

theorem le_ceilQuot {n r : ℕ} (hr : 1 ≤ r) : n ≤ r * ceilQuot n r := by
  unfold ceilQuot
  have h1 := Nat.div_add_mod (n + r - 1) r
  have h2 := Nat.mod_lt (n + r - 1) (show 0 < r by omega)
  omega

theorem cut_exists {r n j : ℕ} (hr : 1 ≤ r) (hj : j < n) : ∃ c < r, j ∈ cutOf r c n := by
  have h1 := le_ceilQuot (n := n) hr
  have h2 : 0 < ceilQuot n r := by
    rcases Nat.eq_zero_or_pos (ceilQuot n r) with h | h
    · rw [h] at h1; omega
    · exact h
  refine ⟨j / ceilQuot n r, ?_, mem_cutOf.2 ⟨Nat.div_mul_le_self _ _, hj, ?_⟩⟩
  · exact (Nat.div_lt_iff_lt_mul h2).2 (by omega)
  · have := Nat.lt_mul_div_succ j h2
    rw [Nat.mul_comm]; exact this

theorem cut_unique {r n j c c' : ℕ} (h : j ∈ cutOf r c n) (h' : j ∈ cutOf r c' n) : c = c' := by
  obtain ⟨h1, -, h2⟩ := mem_cutOf.1 h
  obtain ⟨h3, -, h4⟩ := mem_cutOf.1 h'
  have e1 : c < c' + 1 := by
    by_contra hlt
    have := Nat.mul_le_mul_right (ceilQuot n r) (Nat.not_lt.1 hlt)
    omega
  have e2 : c' < c + 1 := by
    by_contra hlt
    have := Nat.mul_le_mul_right (ceilQuot n r) (Nat.not_lt.1 hlt)
    omega
  omega

theorem sortedSizes_perm (ds : List VDecl) :
    (sortedSizes ds).Perm (ds.zipIdx.map fun e => (e.1.nmembs, e.2)) := List.perm_insertionSort _ _

theorem mem_sortedSizes {ds : List VDecl} {n i : ℕ} :
    (n, i) ∈ sortedSizes ds ↔ ∃ d, ds[i]? = some d ∧ d.nmembs = n := by
  rw [(sortedSizes_perm ds).mem_iff, List.mem_map]
  constructor
  · rintro ⟨⟨d, k⟩, h, h2⟩
    rw [List.mem_zipIdx_iff_getElem?] at h
    cases h2
    exact ⟨d, h, rfl⟩
  · rintro ⟨d, h, rfl⟩
    exact ⟨(d, i), List.mem_zipIdx_iff_getElem?.2 h, rfl⟩

theorem sortedSizes_nodup (ds : List VDecl) : ((sortedSizes ds).map Prod.snd).Nodup := by
  rw [((sortedSizes_perm ds).map Prod.snd).nodup_iff, List.map_map]
  have : (Prod.snd ∘ fun e : VDecl × ℕ => (e.1.nmembs, e.2)) = Prod.snd := rfl
  rw [this, List.zipIdx_map_snd]
  exact List.nodup_range'

theorem mem_commitOrder {ds : List VDecl} {i j : ℕ} :
    (i, j) ∈ commitOrder ds ↔ ∃ d, ds[i]? = some d ∧ j < d.nmembs := by
  unfold commitOrder
  simp only [List.mem_flatMap, List.mem_range, List.mem_map, Prod.mk.injEq]
  constructor
  · rintro ⟨c, -, ⟨n, i'⟩, h1, j', h2, rfl, rfl⟩
    obtain ⟨d, h3, rfl⟩ := mem_sortedSizes.1 h1
    exact ⟨d, h3, (mem_cutOf.1 h2).2.1⟩
  · rintro ⟨d, h1, h2⟩
    obtain ⟨c, hc, h3⟩ := cut_exists (refSize_pos ds) h2
    exact ⟨c, hc, (d.nmembs, i), mem_sortedSizes.2 ⟨d, h1, rfl⟩, j, h3, rfl, rfl⟩

theorem commitOrder_nodup (ds : List VDecl) : (commitOrder ds).Nodup := by
  unfold commitOrder
  rw [List.nodup_flatMap]
  refine ⟨fun c _ => ?_, ?_⟩
  · rw [List.nodup_flatMap]
    refine ⟨fun e _ => ?_, ?_⟩
    · refine List.Nodup.map (fun a b h => (Prod.mk.inj h).2) ?_
      exact List.nodup_range'
    · have h := sortedSizes_nodup ds
      rw [List.Nodup, List.pairwise_map] at h
      refine h.imp ?_
      rintro e e' hne ⟨i, j⟩ h1 h2
      obtain ⟨_, -, h3⟩ := List.mem_map.1 h1
      obtain ⟨_, -, h4⟩ := List.mem_map.1 h2
      cases h3
      exact hne (Prod.mk.inj h4).1.symm
  · refine List.Pairwise.imp ?_ (List.nodup_range (n := refSize ds))
    rintro c c' hne ⟨i, j⟩ h1 h2
    obtain ⟨⟨n, i1⟩, h3, h4⟩ := List.mem_flatMap.1 h1
    obtain ⟨⟨n', i2⟩, h5, h6⟩ := List.mem_flatMap.1 h2
    obtain ⟨j1, h7, h8⟩ := List.mem_map.1 h4
    obtain ⟨j2, h9, h10⟩ := List.mem_map.1 h6
    cases h8
    cases h10
    obtain ⟨d, e1, e2⟩ := mem_sortedSizes.1 h3
    obtain ⟨d', e3, e4⟩ := mem_sortedSizes.1 h5
    rw [e1] at e3
    cases e3
    subst e2
    subst e4
    exact hne (cut_unique h7 h9)

/-! ### Committing the variables -/

/-- What holds after the variables `L` have been committed. -/
structure Committed (ds : List VDecl) (L : List (ℕ × ℕ)) (net : BNet) : Prop where
  decls : net.decls = ds
  vbls : net.vbls = L
  sizes : net.membs.map List.length = ds.map VDecl.nmembs
  membs : ∀ (i j k : ℕ) (ms : List (Option ℕ)), net.membs[i]? = some ms → (ms[j]? = some (some k) ↔ L[k]? = some (i, j))
  nlists : net.lists.length = ds.length
  lists : ∀ (i : ℕ) (l : List ℕ), net.lists[i]? = some l → ∀ k, k ∈ l ↔ ∃ j, L[k]? = some (i, j)
  doms : ∀ k i j : ℕ, L[k]? = some (i, j) → net.doms[k]? = (ds[i]?).map VDecl.domsz
  ndoms : net.doms.length = L.length
  ident : net.ident = List.range L.length
  roles : ∀ k, (k ∈ net.pureShadow ↔ ∃ i j d, L[k]? = some (i, j) ∧ ds[i]? = some d ∧ d.role = .shadow) ∧
    (k ∈ net.purePuppet ↔ ∃ i j d, L[k]? = some (i, j) ∧ ds[i]? = some d ∧ d.role = .puppet) ∧
    (k ∈ net.shadow ↔ ∃ i j d, L[k]? = some (i, j) ∧ ds[i]? = some d ∧ d.role ≠ .puppet) ∧
    (k ∈ net.puppet ↔ ∃ i j d, L[k]? = some (i, j) ∧ ds[i]? = some d ∧ d.role ≠ .shadow)
  rest : net.random = [] ∧ net.symms = [] ∧ net.pcs = []

theorem getElem?_append_single {α : Type} {L : List α} {x y : α} {k : ℕ} :
    (L ++ [x])[k]? = some y ↔ L[k]? = some y ∨ (k = L.length ∧ x = y) := by
  rcases Nat.lt_trichotomy k L.length with h | h | h
  · rw [List.getElem?_append_left h]
    constructor
    · exact Or.inl
    · rintro (h1 | ⟨h1, -⟩)
      · exact h1
      · omega
  · subst h
    simp
  · rw [List.getElem?_eq_none (by simp; omega)]
    constructor
    · intro h; cases h
    · rintro (h1 | ⟨h1, -⟩)
      · rw [List.getElem?_eq_none (by omega)] at h1; cases h1
      · omega

theorem role_step {ds : List VDecl} {L : List (ℕ × ℕ)} {e : ℕ × ℕ} {d : VDecl} (hd : ds[e.1]? = some d)
    {l : List ℕ} {P : VDecl → Prop} (c : Prop) [Decidable c] (hc : c ↔ P d)
    (h : ∀ k, k ∈ l ↔ ∃ i j d, L[k]? = some (i, j) ∧ ds[i]? = some d ∧ P d) (k : ℕ) :
    k ∈ (if c then l ++ [L.length] else l) ↔
      ∃ i j d, (L ++ [e])[k]? = some (i, j) ∧ ds[i]? = some d ∧ P d := by
  simp only [getElem?_append_single]
  constructor
  · intro hk
    have : k ∈ l ∨ (k = L.length ∧ c) := by
      split at hk
      · rename_i hcc
        rw [List.mem_append, List.mem_singleton] at hk
        rcases hk with hk | hk
        · exact Or.inl hk
        · exact Or.inr ⟨hk, hcc⟩
      · exact Or.inl hk
    rcases this with h1 | ⟨h1, h2⟩
    · obtain ⟨i, j, d', e1, e2, e3⟩ := (h k).1 h1
      exact ⟨i, j, d', Or.inl e1, e2, e3⟩
    · exact ⟨e.1, e.2, d, Or.inr ⟨h1, rfl⟩, hd, hc.1 h2⟩
  · rintro ⟨i, j, d', h1 | ⟨h1, rfl⟩, h2, h3⟩
    · have := (h k).2 ⟨i, j, d', h1, h2, h3⟩
      split
      · exact List.mem_append_left _ this
      · exact this
    · rw [hd] at h2; cases h2
      rw [if_pos (hc.2 h3), h1]
      simp

theorem commitVariable_step {ds : List VDecl} {L : List (ℕ × ℕ)} {net : BNet} (h : Committed ds L net)
    {e : ℕ × ℕ} (he : e ∉ L) {d : VDecl} (hd : ds[e.1]? = some d) (hj : e.2 < d.nmembs) :
    ∃ net', net.commitVariable e = some net' ∧ Committed ds (L ++ [e]) net' := by
  have hm : ∃ ms, net.membs[e.1]? = some ms ∧ ms.length = d.nmembs := by
    have h1 := congrArg (·[e.1]?) h.sizes
    simp only [List.getElem?_map, hd, Option.map_some] at h1
    cases hms : net.membs[e.1]? with
    | none => rw [hms] at h1; cases h1
    | some ms => rw [hms] at h1; exact ⟨ms, rfl, Option.some.inj h1⟩
  obtain ⟨ms, hms, hlen⟩ := hm
  unfold BNet.commitVariable
  rw [h.decls, hd, hms]
  simp only [Option.bind_some]
  rw [if_pos (by omega)]
  refine ⟨_, rfl, ?_⟩
  have hil : e.1 < net.membs.length := (List.getElem?_eq_some_iff.1 hms).1
  rw [h.vbls]
  constructor
  · rfl
  · rfl
  · rw [← h.sizes]
    apply List.ext_getElem?
    intro i
    rw [List.getElem?_map, List.getElem?_map, List.getElem?_set]
    split
    · rename_i hi
      rw [← hi, hms]
      simp
    · rfl
  · intro i j k ms' hms'
    rw [getElem?_append_single]
    simp only [List.getElem?_set] at hms'
    split at hms'
    · rename_i hi
      cases hms'
      subst hi
      rw [List.getElem?_set]
      split
      · rename_i hjj
        rw [if_pos (show e.2 < ms.length by omega)]
        constructor
        · intro h1
          cases h1
          exact Or.inr ⟨rfl, by rw [← hjj]⟩
        · rintro (h1 | ⟨h1, -⟩)
          · exfalso
            apply he
            have := List.mem_of_getElem? h1
            rw [← hjj] at this
            exact this
          · rw [h1]
      · rename_i hjj
        rw [h.membs e.1 j k ms hms]
        constructor
        · exact Or.inl
        · rintro (h1 | ⟨-, h1⟩)
          · exact h1
          · exact absurd (congrArg Prod.snd h1) hjj
    · rename_i hi
      rw [h.membs i j k ms' hms']
      constructor
      · exact Or.inl
      · rintro (h1 | ⟨-, h1⟩)
        · exact h1
        · exact absurd (congrArg Prod.fst h1) hi
  · simp [h.nlists]
  · intro i l hl k
    simp only [getElem?_append_single]
    simp only [List.getElem?_modify] at hl
    cases hl0 : net.lists[i]? with
    | none => rw [hl0] at hl; simp at hl
    | some l0 =>
      rw [hl0] at hl
      have h0 := h.lists i l0 hl0 k
      split at hl
      · rename_i hi
        simp only [Option.map_eq_map, Option.map_some, Option.some.injEq] at hl
        rw [← hl, List.mem_append, List.mem_singleton, h0]
        constructor
        · rintro (⟨j, h1⟩ | h1)
          · exact ⟨j, Or.inl h1⟩
          · exact ⟨e.2, Or.inr ⟨h1, by rw [← hi]⟩⟩
        · rintro ⟨j, h1 | ⟨h1, -⟩⟩
          · exact Or.inl ⟨j, h1⟩
          · exact Or.inr h1
      · rename_i hi
        simp only [Option.map_eq_map, Option.map_some, Option.some.injEq, id] at hl
        rw [← hl, h0]
        refine exists_congr fun j => ⟨Or.inl, ?_⟩
        rintro (h1 | ⟨-, h1⟩)
        · exact h1
        · exact absurd (congrArg Prod.fst h1) hi
  · intro k i j hk
    rw [getElem?_append_single] at hk
    rcases hk with hk | ⟨hk, rfl⟩
    · have := (List.getElem?_eq_some_iff.1 hk).1
      rw [List.getElem?_append_left (by rw [h.ndoms]; exact this)]
      exact h.doms k i j hk
    · rw [hk, ← h.ndoms, hd]
      simp
  · simp [h.ndoms]
  · simp only [h.ident, List.length_append, List.length_singleton]
    rw [List.range_succ]
  · intro k
    have hr := h.roles
    refine ⟨role_step hd (P := fun d => d.role = .shadow) _ Iff.rfl (fun k => (hr k).1) k,
      role_step hd (P := fun d => d.role = .puppet) _ Iff.rfl (fun k => (hr k).2.1) k,
      role_step hd (P := fun d => d.role ≠ .puppet) _ ?_ (fun k => (hr k).2.2.1) k,
      role_step hd (P := fun d => d.role ≠ .shadow) _ ?_ (fun k => (hr k).2.2.2) k⟩
    · cases d.role <;> decide
    · cases d.role <;> decide
  · exact h.rest

theorem commit_all {ds : List VDecl} : ∀ (L2 L : List (ℕ × ℕ)) (net : BNet), Committed ds L net →
    (L ++ L2).Nodup → (∀ e ∈ L2, ∃ d, ds[e.1]? = some d ∧ e.2 < d.nmembs) →
    ∃ net', L2.foldlM BNet.commitVariable net = some net' ∧ Committed ds (L ++ L2) net' := by
  intro L2
  induction L2 with
  | nil => intro L net h _ _; exact ⟨net, rfl, by simpa using h⟩
  | cons e L2 ih =>
    intro L net h hnd hv
    obtain ⟨d, hd, hj⟩ := hv e (by simp)
    have he : e ∉ L := fun hL => (List.nodup_append.1 hnd).2.2 e hL e (by simp) rfl
    obtain ⟨net1, h1, h2⟩ := commitVariable_step h he hd hj
    have hap : L ++ e :: L2 = (L ++ [e]) ++ L2 := by simp
    obtain ⟨net', h3, h4⟩ := ih (L ++ [e]) net1 h2 (by rw [← hap]; exact hnd)
      (fun e' he' => hv e' (List.mem_cons_of_mem _ he'))
    refine ⟨net', ?_, by rw [hap]; exact h4⟩
    rw [List.foldlM_cons, h1]
    exact h3

/-- The network after the variables have been added. -/
theorem addVariables_all (ds : List VDecl) :
    ds.foldlM BNet.addVariables BNet.empty = some { BNet.empty with
      decls := ds
      membs := ds.map fun d => List.replicate d.nmembs none
      lists := ds.map fun _ => [] } := by
  have : ∀ (l pre : List VDecl), l.foldlM BNet.addVariables { BNet.empty with
      decls := pre
      membs := pre.map fun d => List.replicate d.nmembs none
      lists := pre.map fun _ => [] } = some { BNet.empty with
      decls := pre ++ l
      membs := (pre ++ l).map fun d => List.replicate d.nmembs none
      lists := (pre ++ l).map fun _ => [] } := by
    intro l
    induction l with
    | nil => intro pre; simp
    | cons d l ih =>
      intro pre
      have hap : pre ++ d :: l = (pre ++ [d]) ++ l := by simp
      rw [List.foldlM_cons, hap, ← ih (pre ++ [d])]
      have : ∀ net : BNet, net.vbls = [] → net.addVariables d = some { net with
          decls := net.decls ++ [d]
          membs := net.membs ++ [List.replicate d.nmembs none]
          lists := net.lists ++ [[]] } := by
        intro net hnet
        unfold BNet.addVariables
        rw [if_pos (by rw [hnet]; rfl)]
      rw [this _ rfl]
      simp
  exact this ds []

theorem committed_zero (ds : List VDecl) : Committed ds [] { BNet.empty with
      decls := ds
      membs := ds.map fun d => List.replicate d.nmembs none
      lists := ds.map fun _ => [] } where
  decls := rfl
  vbls := rfl
  sizes := by simp
  membs := by
    intro i j k ms hms
    simp only [List.getElem?_map, Option.map_eq_some_iff] at hms
    obtain ⟨d, -, rfl⟩ := hms
    simp [List.getElem?_replicate]
  nlists := by simp
  lists := by
    intro i l hl k
    simp only [List.getElem?_map, Option.map_eq_some_iff] at hl
    obtain ⟨d, -, rfl⟩ := hl
    simp
  doms := by intro k i j h; simp at h
  ndoms := rfl
  ident := rfl
  roles := by intro k; simp [BNet.empty]
  rest := ⟨rfl, rfl, rfl⟩

/-- The variables of a network. -/
theorem variables_ok (ds : List VDecl) : ∃ net,
    ((ds.foldlM BNet.addVariables BNet.empty).bind BNet.commitVariables) = some net ∧
      Committed ds (commitOrder ds) net := by
  obtain ⟨net, h1, h2⟩ := commit_all (commitOrder ds) [] _ (committed_zero ds)
    (by simpa using commitOrder_nodup ds) (fun e he => mem_commitOrder.1 he)
  refine ⟨net, ?_, by simpa using h2⟩
  rw [addVariables_all]
  exact h1

/-! ### The processes -/

/-- The variable that process `i` means by an access. -/
def lookAcc (net : BNet) (a : BAcc) (i : ℕ) : ℕ :=
  (((net.membs[a.vbl]?).bind fun ms => (natMapIndex a.idx i ms.length).bind fun j => (ms[j]?).join).getD 0)

/-- A process with its accesses. -/
def bpcOf (net : BNet) (s : ℕ) (A : List BAcc) (i : ℕ) : BPc where
  symm := s
  idx := i
  rvbls := A.map fun a => lookAcc net a i
  wvbls := (A.filter fun a => a.type.writes).map fun a => lookAcc net a i
  mask := net.ident.filter fun v => v ∉ (A.filter fun a => a.type.writes).map fun a => lookAcc net a i

/-- The access means a variable. -/
def AccOk (ds : List VDecl) (n : ℕ) (a : BAcc) : Prop :=
  (∃ d, ds[a.vbl]? = some d ∧ 0 < d.nmembs) ∧ n ≤ a.idx.length

theorem member_of {ds : List VDecl} {net : BNet} (h : Committed ds (commitOrder ds) net) {i j : ℕ} {d : VDecl}
    (hd : ds[i]? = some d) (hj : j < d.nmembs) :
    ∃ ms k, net.membs[i]? = some ms ∧ ms.length = d.nmembs ∧ ms[j]? = some (some k) ∧
      net.vbls[k]? = some (i, j) := by
  have h1 := congrArg (·[i]?) h.sizes
  simp only [List.getElem?_map, hd, Option.map_some] at h1
  cases hms : net.membs[i]? with
  | none => rw [hms] at h1; cases h1
  | some ms =>
    rw [hms] at h1
    obtain ⟨k, hk⟩ := List.mem_iff_getElem?.1 (mem_commitOrder.2 ⟨d, hd, hj⟩)
    exact ⟨ms, k, rfl, Option.some.inj h1, (h.membs i j k ms hms).2 hk, by rw [h.vbls]; exact hk⟩

theorem lookAcc_spec {ds : List VDecl} {net : BNet} (h : Committed ds (commitOrder ds) net) {n : ℕ} {a : BAcc}
    (ha : AccOk ds n a) {i : ℕ} (hi : i < n) : ∃ ms j d x, net.membs[a.vbl]? = some ms ∧ ds[a.vbl]? = some d ∧
      a.idx[i]? = some x ∧ j = (x % (d.nmembs : ℤ)).toNat ∧ j < d.nmembs ∧
      natMapIndex a.idx i ms.length = some j ∧ ms[j]? = some (some (lookAcc net a i)) ∧
      net.vbls[lookAcc net a i]? = some (a.vbl, j) := by
  obtain ⟨⟨d, hd, hpos⟩, hn⟩ := ha
  have hil : i < a.idx.length := by omega
  have hlt : ((a.idx[i]) % (d.nmembs : ℤ)).toNat < d.nmembs := by
    have h1 := Int.emod_lt_of_pos a.idx[i] (show (0 : ℤ) < d.nmembs by omega)
    have h2 := Int.emod_nonneg a.idx[i] (show (d.nmembs : ℤ) ≠ 0 by omega)
    omega
  obtain ⟨ms, k, h1, h2, h3, h4⟩ := member_of h hd hlt
  have h5 : natMapIndex a.idx i ms.length = some ((a.idx[i]) % (d.nmembs : ℤ)).toNat := by
    unfold natMapIndex
    rw [List.getElem?_eq_getElem hil, h2]
    rfl
  have h6 : lookAcc net a i = k := by
    unfold lookAcc
    rw [h1, Option.bind_some, h5, Option.bind_some, h3]
    rfl
  refine ⟨ms, _, d, a.idx[i], h1, hd, List.getElem?_eq_getElem hil, rfl, hlt, h5, ?_, ?_⟩
  · rw [h6]; exact h3
  · rw [h6]; exact h4

theorem bpcOf_append (net : BNet) (s : ℕ) (A : List BAcc) (a : BAcc) (i : ℕ) :
    bpcOf net s (A ++ [a]) i = (if a.type.writes then
      { bpcOf net s A i with
        rvbls := (bpcOf net s A i).rvbls ++ [lookAcc net a i]
        wvbls := (bpcOf net s A i).wvbls ++ [lookAcc net a i]
        mask := (bpcOf net s A i).mask.filter (· ≠ lookAcc net a i) }
      else { bpcOf net s A i with rvbls := (bpcOf net s A i).rvbls ++ [lookAcc net a i] }) := by
  by_cases hw : a.type.writes = true
  · rw [if_pos hw]
    unfold bpcOf
    simp only [List.map_append, List.map_cons, List.map_nil, List.filter_append, List.filter_cons, hw, if_true,
      List.filter_nil, List.filter_filter, BPc.mk.injEq, true_and]
    apply List.filter_congr
    intro v _
    simp only [List.mem_append, List.mem_singleton, not_or]
    rw [Bool.decide_and, Bool.and_comm]
  · rw [if_neg hw]
    unfold bpcOf
    simp [List.filter_append, hw]

/-- What holds after the processes `ps` have been added to `base`. -/
structure Peopled (base : BNet) (ps : List (ℕ × List BAcc)) (net : BNet) : Prop where
  same : net = { base with random := net.random, symms := net.symms, pcs := net.pcs }
  nsymms : net.symms.length = ps.length
  last : ∀ (s : ℕ) (p : ℕ × List BAcc), ps[s]? = some p → ∃ sy, net.symms[s]? = some sy ∧
    sy.membs = List.range' ((ps.take s).map Prod.fst).sum p.1 ∧ sy.accs = p.2 ∧
    sy.wmap = (List.range p.2.length).filter fun r => ((p.2[r]?).map fun a => a.type.writes).getD false
  pcs : net.pcs = ps.zipIdx.flatMap fun e => (List.range e.1.1).map (bpcOf base e.2 e.1.2)
  random : ∀ v, v ∈ net.random ↔ ∃ p ∈ ps, ∃ a ∈ p.2, a.type = .randomRead ∧ ∃ i < p.1, lookAcc base a i = v

theorem blocks_length (base : BNet) (ps : List (ℕ × List BAcc)) (k : ℕ) :
    ((ps.zipIdx k).flatMap fun e => (List.range e.1.1).map (bpcOf base e.2 e.1.2)).length =
      (ps.map Prod.fst).sum := by
  induction ps generalizing k with
  | nil => rfl
  | cons p ps ih => simp [List.zipIdx_cons, ih]

theorem blocks_append (base : BNet) (ps : List (ℕ × List BAcc)) (p : ℕ × List BAcc) :
    ((ps ++ [p]).zipIdx.flatMap fun e => (List.range e.1.1).map (bpcOf base e.2 e.1.2)) =
      (ps.zipIdx.flatMap fun e => (List.range e.1.1).map (bpcOf base e.2 e.1.2)) ++
        (List.range p.1).map (bpcOf base ps.length p.2) := by
  rw [List.zipIdx_append, List.flatMap_append]
  simp

/-- The loop over the processes in `add_access`. -/
theorem access_loop {ds : List VDecl} {base : BNet} (hb : Committed ds (commitOrder ds) base)
    {ps : List (ℕ × List BAcc)} {n : ℕ} {A : List BAcc} {a : BAcc} (ha : AccOk ds n a) (sy : BSymm)
    (hsy : sy.membs = List.range' (ps.map Prod.fst).sum n) (S : List BSymm) (hS : S[ps.length]? = some sy)
    (pre : List BPc) (hpre : pre.length = (ps.map Prod.fst).sum) (R : List ℕ) :
    ∀ m ≤ n, ∃ R', (List.range m).foldlM (BNet.accessStep ps.length a)
        { base with random := R, symms := S, pcs := pre ++ (List.range n).map (bpcOf base ps.length A) } =
      some { base with random := R', symms := S, pcs := pre ++ (List.range n).map fun i =>
        if i < m then bpcOf base ps.length (A ++ [a]) i else bpcOf base ps.length A i } ∧
      ∀ v, v ∈ R' ↔ v ∈ R ∨ (a.type = .randomRead ∧ ∃ i < m, lookAcc base a i = v) := by
  intro m
  induction m with
  | zero =>
    intro _
    exact ⟨R, by simp, by simp⟩
  | succ m ih =>
    intro hm
    obtain ⟨R', h1, h2⟩ := ih (by omega)
    rw [List.range_succ, List.foldlM_append, h1]
    obtain ⟨ms, j, d, x, e1, -, -, -, -, e5, e6, -⟩ := lookAcc_spec hb ha (show m < n by omega)
    have hk : sy.membs[m]? = some (pre.length + m) := by
      rw [hsy, List.getElem?_range' (by omega), hpre]
      simp
    have hget : ((pre ++ (List.range n).map fun i =>
        if i < m then bpcOf base ps.length (A ++ [a]) i else bpcOf base ps.length A i))[pre.length + m]? =
        some (bpcOf base ps.length A m) := by
      rw [List.getElem?_append_right (by omega), Nat.add_sub_cancel_left, List.getElem?_map,
        List.getElem?_range (by omega)]
      simp
    refine ⟨if a.type = .randomRead ∧ lookAcc base a m ∉ R' then R' ++ [lookAcc base a m] else R', ?_, ?_⟩
    · simp only [Option.bind_eq_bind, Option.bind_some, List.foldlM_cons, List.foldlM_nil]
      unfold BNet.accessStep
      simp only [hS, e1, Option.bind_some, e5, e6, hk, hget, Option.map_some, ← bpcOf_append, Option.pure_def]
      congr 2
      rw [List.set_append_right _ _ (by omega), Nat.add_sub_cancel_left]
      congr 1
      apply List.ext_getElem?
      intro i
      rw [List.getElem?_set]
      simp only [List.length_map, List.length_range, List.getElem?_map]
      by_cases him : m = i
      · subst him
        rw [if_pos rfl, if_pos (by omega), List.getElem?_range (by omega)]
        simp
      · rw [if_neg him]
        by_cases hin : i < n
        · rw [List.getElem?_range hin]
          simp only [Option.map_some, Option.some.injEq]
          by_cases hlt : i < m
          · rw [if_pos hlt, if_pos (by omega)]
          · rw [if_neg hlt, if_neg (by omega)]
        · rw [List.getElem?_eq_none (by simpa using hin)]
          rfl
    · intro v
      have : v ∈ (if a.type = .randomRead ∧ lookAcc base a m ∉ R' then R' ++ [lookAcc base a m] else R') ↔
          v ∈ R' ∨ (a.type = .randomRead ∧ lookAcc base a m = v) := by
        split
        · rename_i hc
          rw [List.mem_append, List.mem_singleton]
          constructor
          · rintro (h | rfl)
            · exact Or.inl h
            · exact Or.inr ⟨hc.1, rfl⟩
          · rintro (h | ⟨-, rfl⟩)
            · exact Or.inl h
            · exact Or.inr rfl
        · rename_i hc
          constructor
          · exact Or.inl
          · rintro (h | ⟨h, rfl⟩)
            · exact h
            · by_contra hn
              exact hc ⟨h, hn⟩
      rw [this, h2]
      constructor
      · rintro ((h | ⟨h, i, hi, rfl⟩) | ⟨h, rfl⟩)
        · exact Or.inl h
        · exact Or.inr ⟨h, i, by omega, rfl⟩
        · exact Or.inr ⟨h, m, by omega, rfl⟩
      · rintro (h | ⟨h, i, hi, rfl⟩)
        · exact Or.inl (Or.inl h)
        · rcases Nat.lt_succ_iff_lt_or_eq.1 hi with hi | rfl
          · exact Or.inl (Or.inr ⟨h, i, hi, rfl⟩)
          · exact Or.inr ⟨h, rfl⟩

theorem take_snoc_self {α : Type} (l : List α) (x : α) : (l ++ [x]).take l.length = l := by simp

theorem addAccess_step {ds : List VDecl} {base : BNet} (hb : Committed ds (commitOrder ds) base)
    {ps : List (ℕ × List BAcc)} {n : ℕ} {A : List BAcc} {net : BNet} (h : Peopled base (ps ++ [(n, A)]) net)
    {a : BAcc} (ha : AccOk ds n a) :
    ∃ net', net.addAccess ps.length a = some net' ∧ Peopled base (ps ++ [(n, A ++ [a])]) net' := by
  obtain ⟨sy, hsy, hm, hacc, hwm⟩ := h.last ps.length (n, A) (by simp)
  rw [take_snoc_self] at hm
  have hlen : ps.length < net.symms.length := by rw [h.nsymms]; simp
  set sy' : BSymm := { sy with
    accs := sy.accs ++ [a]
    wmap := if a.type.writes then sy.wmap ++ [sy.accs.length] else sy.wmap } with hsy'
  have hpcs := h.pcs
  rw [blocks_append] at hpcs
  obtain ⟨R', h1, h2⟩ := access_loop hb ha sy' (ps := ps) (A := A) (by rw [hsy']; exact hm)
    (net.symms.set ps.length sy') (by rw [List.getElem?_set_self hlen])
    (ps.zipIdx.flatMap fun e => (List.range e.1.1).map (bpcOf base e.2 e.1.2)) (blocks_length base ps 0)
    net.random n le_rfl
  refine ⟨_, Eq.trans ?_ h1, ?_⟩
  · unfold BNet.addAccess
    rw [hsy, Option.bind_some]
    simp only
    have e1 : sy.membs.length = n := by rw [hm]; simp
    rw [e1]
    have e2 : ({ net with symms := net.symms.set ps.length sy' } : BNet) =
        { base with random := net.random, symms := net.symms.set ps.length sy', pcs :=
          (ps.zipIdx.flatMap fun e => (List.range e.1.1).map (bpcOf base e.2 e.1.2)) ++
            (List.range n).map (bpcOf base ps.length A) } := by
      rw [← hpcs]
      have hs := h.same
      cases net
      cases base
      simp only [BNet.mk.injEq] at hs ⊢
      simp only [hs, and_self]
    rw [← hsy', e2]
  · constructor
    · rfl
    · simp [h.nsymms]
    · intro s p hp
      rw [getElem?_append_single] at hp
      simp only [List.getElem?_set]
      rcases hp with hp | ⟨rfl, rfl⟩
      · have hs := (List.getElem?_eq_some_iff.1 hp).1
        rw [if_neg (by omega)]
        obtain ⟨sy0, g1, g2, g3, g4⟩ := h.last s p (by rw [getElem?_append_single]; exact Or.inl hp)
        refine ⟨sy0, g1, ?_, g3, g4⟩
        rw [g2, List.take_append_of_le_length (by omega), List.take_append_of_le_length (by omega)]
      · rw [if_pos rfl, if_pos hlen]
        refine ⟨sy', rfl, ?_, ?_, ?_⟩
        · rw [take_snoc_self, hsy']; exact hm
        · rw [hsy']; simp only; rw [hacc]
        · rw [hsy']
          simp only
          rw [hacc, hwm, List.length_append, List.length_singleton, List.range_succ, List.filter_append]
          have e3 : (List.range A.length).filter (fun r => ((A[r]?).map fun a => a.type.writes).getD false) =
              (List.range A.length).filter
                (fun r => (((A ++ [a])[r]?).map fun a => a.type.writes).getD false) := by
            apply List.filter_congr
            intro r hr
            rw [List.getElem?_append_left (List.mem_range.1 hr)]
          rw [e3]
          by_cases hw : a.type.writes = true
          · rw [if_pos hw]; simp [hw]
          · rw [if_neg hw]; simp [hw]
    · rw [blocks_append]
      simp only
      congr 1
      apply List.map_congr_left
      intro i hi
      rw [if_pos (List.mem_range.1 hi)]
    · intro v
      rw [h2, h.random]
      constructor
      · rintro (⟨p, hp, x, hx, e1, e2⟩ | ⟨e1, i, hi, rfl⟩)
        · rcases List.mem_append.1 hp with hp | hp
          · exact ⟨p, by simp [hp], x, hx, e1, e2⟩
          · rw [List.mem_singleton] at hp
            subst hp
            exact ⟨_, List.mem_append_right _ (List.mem_singleton.2 rfl), x, List.mem_append_left _ hx, e1, e2⟩
        · exact ⟨_, List.mem_append_right _ (List.mem_singleton.2 rfl), a, by simp, e1, i, hi, rfl⟩
      · rintro ⟨p, hp, x, hx, e1, e2⟩
        rcases List.mem_append.1 hp with hp | hp
        · exact Or.inl ⟨p, by simp [hp], x, hx, e1, e2⟩
        · rw [List.mem_singleton] at hp
          subst hp
          rcases List.mem_append.1 hx with hx | hx
          · exact Or.inl ⟨_, List.mem_append_right _ (List.mem_singleton.2 rfl), x, hx, e1, e2⟩
          · rw [List.mem_singleton] at hx
            subst hx
            obtain ⟨i, hi, e3⟩ := e2
            exact Or.inr ⟨e1, i, hi, e3⟩

theorem addAccess_all {ds : List VDecl} {base : BNet} (hb : Committed ds (commitOrder ds) base)
    {ps : List (ℕ × List BAcc)} {n : ℕ} : ∀ (A2 A : List BAcc) (net : BNet), Peopled base (ps ++ [(n, A)]) net →
      (∀ a ∈ A2, AccOk ds n a) → ∃ net', A2.foldlM (BNet.addAccess ps.length) net = some net' ∧
        Peopled base (ps ++ [(n, A ++ A2)]) net' := by
  intro A2
  induction A2 with
  | nil => intro A net h _; exact ⟨net, rfl, by simpa using h⟩
  | cons a A2 ih =>
    intro A net h hok
    obtain ⟨net1, h1, h2⟩ := addAccess_step hb h (hok a (by simp))
    obtain ⟨net', h3, h4⟩ := ih (A ++ [a]) net1 h2 fun x hx => hok x (by simp [hx])
    refine ⟨net', by rw [List.foldlM_cons, h1]; exact h3, ?_⟩
    have : A ++ a :: A2 = A ++ [a] ++ A2 := by simp
    rw [this]; exact h4

theorem addProcesses_step {ds : List VDecl} {base : BNet} (hb : Committed ds (commitOrder ds) base)
    {ps : List (ℕ × List BAcc)} {net : BNet} (h : Peopled base ps net) (n : ℕ) :
    ∃ net', net.addProcesses n = some net' ∧ Peopled base (ps ++ [(n, [])]) net' := by
  have hv : net.vbls = base.vbls := by rw [h.same]
  have hd : net.decls = base.decls := by rw [h.same]
  have hi : net.ident = base.ident := by rw [h.same]
  have h0 : (if net.vbls.length = 0 then net.commitVariables else some net) = some net := by
    split
    · rename_i hl
      unfold BNet.commitVariables
      have : commitOrder net.decls = [] := by
        rw [hd, hb.decls, ← hb.vbls, ← hv]
        exact List.length_eq_zero_iff.1 hl
      rw [this]
      rfl
    · rfl
  unfold BNet.addProcesses
  rw [h0]
  simp only [Option.map_some]
  refine ⟨_, rfl, ?_⟩
  constructor
  · have hs := h.same
    cases net
    cases base
    simp only [BNet.mk.injEq] at hs ⊢
    simp only [hs, and_self]
  · simp [h.nsymms]
  · intro s p hp
    rw [getElem?_append_single] at hp
    simp only
    rcases hp with hp | ⟨rfl, rfl⟩
    · have hs := (List.getElem?_eq_some_iff.1 hp).1
      rw [List.getElem?_append_left (by rw [h.nsymms]; exact hs)]
      obtain ⟨sy0, g1, g2, g3, g4⟩ := h.last s p hp
      refine ⟨sy0, g1, ?_, g3, g4⟩
      rw [g2, List.take_append_of_le_length (by omega)]
    · rw [← h.nsymms, List.getElem?_concat_length]
      refine ⟨_, rfl, ?_, rfl, rfl⟩
      rw [h.nsymms, take_snoc_self]
      simp only
      rw [h.pcs, blocks_length]
  · rw [blocks_append, ← h.pcs, h.nsymms]
    simp only
    congr 1
    apply List.map_congr_left
    intro i _
    unfold bpcOf
    rw [hi]
    simp
  · intro v
    simp only
    rw [h.random]
    constructor
    · rintro ⟨p, hp, r⟩; exact ⟨p, by simp [hp], r⟩
    · rintro ⟨p, hp, x, hx, r⟩
      rcases List.mem_append.1 hp with hp | hp
      · exact ⟨p, hp, x, hx, r⟩
      · rw [List.mem_singleton] at hp
        subst hp
        cases hx

theorem build_all {ds : List VDecl} {base : BNet} (hb : Committed ds (commitOrder ds) base) :
    ∀ (qs ps : List (ℕ × List BAcc)) (net : BNet), Peopled base ps net →
      (∀ p ∈ qs, ∀ a ∈ p.2, AccOk ds p.1 a) →
      ∃ net', qs.foldlM (fun net p => (net.addProcesses p.1).bind fun net =>
        p.2.foldlM (BNet.addAccess (net.symms.length - 1)) net) net = some net' ∧ Peopled base (ps ++ qs) net' := by
  intro qs
  induction qs with
  | nil => intro ps net h _; exact ⟨net, rfl, by simpa using h⟩
  | cons p qs ih =>
    intro ps net h hok
    obtain ⟨net1, h1, h2⟩ := addProcesses_step hb h p.1
    obtain ⟨net2, h3, h4⟩ := addAccess_all hb p.2 [] net1 h2 (hok p (by simp))
    have hl : net1.symms.length - 1 = ps.length := by rw [h2.nsymms]; simp
    obtain ⟨net', h5, h6⟩ := ih (ps ++ [(p.1, [] ++ p.2)]) net2 h4 fun q hq => hok q (by simp [hq])
    refine ⟨net', ?_, ?_⟩
    · rw [List.foldlM_cons, h1, Option.bind_some, hl, h3]
      exact h5
    · have : ps ++ p :: qs = ps ++ [(p.1, [] ++ p.2)] ++ qs := by simp
      rw [this]; exact h6

/-- The whole network. -/
theorem build_ok (ds : List VDecl) (ps : List (ℕ × List BAcc)) (hok : ∀ p ∈ ps, ∀ a ∈ p.2, AccOk ds p.1 a) :
    ∃ base net, BNet.build ds ps = some net ∧ Committed ds (commitOrder ds) base ∧ Peopled base ps net := by
  obtain ⟨base, h1, h2⟩ := variables_ok ds
  have h0 : Peopled base [] base := by
    obtain ⟨r1, r2, r3⟩ := h2.rest
    refine ⟨rfl, by rw [r2]; rfl, by intro s p hp; simp at hp, by rw [r3]; rfl, by rw [r1]; simp⟩
  obtain ⟨net, h3, h4⟩ := build_all h2 ps [] base h0 hok
  refine ⟨base, net, ?_, h2, h4⟩
  unfold BNet.build
  rw [addVariables_all] at h1 ⊢
  rw [Option.bind_some] at h1 ⊢
  rw [h1, Option.bind_some]
  exact h3

/-! ### The order for variables with equally many members -/

theorem refSize_const {ds : List VDecl} {n : ℕ} (hn : 1 ≤ n) (hne : ds ≠ []) (h : ∀ d ∈ ds, d.nmembs = n) :
    refSize ds = n := by
  have key : ∀ (l : List VDecl) (r : ℕ), (r = 1 ∨ r = n) → (∀ d ∈ l, d.nmembs = n) → (l ≠ [] ∨ r = n) →
      l.foldl (fun r d => refStep r d.nmembs) r = n := by
    intro l
    induction l with
    | nil => intro r _ _ h; exact h.resolve_left fun h => h rfl
    | cons d l ih =>
      intro r hr hl _
      rw [List.foldl_cons, hl d (by simp)]
      have : refStep r n = n := by
        unfold refStep
        rcases hr with rfl | rfl
        · by_cases h1 : n > 1
          · simp [h1]
          · have : n = 1 := by omega
            subst this; rfl
        · have : ¬ (r > 1 ∧ r < r) := by omega
          by_cases h1 : r = 1
          · subst h1; rfl
          · simp [h1]
      rw [this]
      exact ih n (Or.inr rfl) (fun x hx => hl x (by simp [hx])) (Or.inr rfl)
  exact key ds 1 (Or.inl rfl) h (Or.inl hne)

theorem sortedSizes_const {ds : List VDecl} {n : ℕ} (h : ∀ d ∈ ds, d.nmembs = n) :
    sortedSizes ds = (List.range ds.length).map fun i => (n, i) := by
  have e1 : (ds.zipIdx.map fun e => (e.1.nmembs, e.2)) = (List.range ds.length).map fun i => (n, i) := by
    apply List.ext_getElem?
    intro i
    simp only [List.getElem?_map, List.getElem?_zipIdx]
    by_cases hi : i < ds.length
    · rw [List.getElem?_eq_getElem hi, List.getElem?_range hi]
      simp [h ds[i] (List.getElem_mem hi)]
    · rw [List.getElem?_eq_none (by omega), List.getElem?_eq_none (by simpa using hi)]
      rfl
  unfold sortedSizes
  rw [e1]
  apply List.Pairwise.insertionSort_eq
  rw [List.pairwise_map]
  refine (List.pairwise_lt_range (n := ds.length)).imp ?_
  intro a b hab
  simp [pairLe]
  omega

theorem cutOf_one {n c : ℕ} (hc : c < n) : cutOf n c n = [c] := by
  unfold cutOf
  have : ceilQuot n n = 1 := by
    unfold ceilQuot
    rw [Nat.div_eq_of_lt_le] <;> omega
  rw [this]
  simp only [Nat.mul_one]
  have : min n (c + 1) - c = 1 := by omega
  rw [this]
  rfl

theorem commitOrder_const {ds : List VDecl} {n : ℕ} (hn : 1 ≤ n) (hne : ds ≠ []) (h : ∀ d ∈ ds, d.nmembs = n) :
    commitOrder ds = (List.range n).flatMap fun j => (List.range ds.length).map fun i => (i, j) := by
  unfold commitOrder
  rw [refSize_const hn hne h, sortedSizes_const h]
  apply List.flatMap_congr
  intro c hc
  rw [List.flatMap_map]
  simp only [cutOf_one (List.mem_range.1 hc), List.map_cons, List.map_nil]
  generalize List.range ds.length = l
  induction l with
  | nil => rfl
  | cons x l ih => rw [List.flatMap_cons, ih]; rfl

end Verif.Proofs
