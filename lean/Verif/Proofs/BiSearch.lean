import Verif.Model.BiSearch
import Verif.Proofs.Biring
import Mathlib.Algebra.Order.BigOperators.Group.Finset
import Mathlib.Algebra.Order.Ring.GeomSum

/-!
Proofs about the search for invariants of bidirectional rings.

The search prunes a set if a renaming of it has been visited.  Of the renamings of an invariant `T` the one is found whose
missing blocks make the largest binary number: a set that is visited earlier than the sets on the way to `T` lacks a
larger place.
-/

namespace Verif.Proofs
open Verif.Spec Verif.Model

/-- What is used of the functions that the search calls. -/
structure BiFacts (gt : List Bool → List Bool → Bool) (d : ℕ) (pair : Bool) (minsz : ℕ) (init : Finset ℕ) (Q : ℕ → ℕ → Prop)
    (cyc : Finset ℕ → Finset ℕ) (sat : Finset ℕ → Bool) (canon : Finset ℕ → List Bool) (G : Type) (ren : G → ℕ → ℕ) :
    Prop where
  drop : ∀ S q, S ⊆ init → q ∈ S → ∀ j, j ∈ biDrop d pair S q ↔ j ∈ S ∧ ¬ Q q j
  refl : ∀ i, Q i i
  symm : ∀ i j, Q i j → Q j i
  trans : ∀ i j k, Q i j → Q j k → Q i k
  order : ∀ i j i' j', i < j → ¬ Q i j → Q i i' → Q j j' → i' < j'
  fix : ∀ S, S ⊆ init → biFix d S = some (cyc S)
  cycSub : ∀ S, cyc S ⊆ S
  cycMono : ∀ S S', S ⊆ S' → cyc S ⊆ cyc S'
  cycIdem : ∀ S, cyc (cyc S) = cyc S
  satEq : ∀ S, S ⊆ init → biSat d S minsz = some (sat S)
  satMono : ∀ S S', S ⊆ S' → S' ⊆ init → sat S = true → sat S' = true
  canonOf : ∀ S, S ⊆ init → canonicalSet gt (biBits d S) d = some (canon S)
  canonEq : ∀ A B, A ⊆ init → B ⊆ init → canon A = canon B → ∃ g, A = B.image (ren g)

section
variable {gt : List Bool → List Bool → Bool} {d : ℕ} {pair : Bool} {minsz : ℕ} {init : Finset ℕ} {Q : ℕ → ℕ → Prop}
  {cyc : Finset ℕ → Finset ℕ} {sat : Finset ℕ → Bool} {canon : Finset ℕ → List Bool} {G : Type} {ren : G → ℕ → ℕ}

/-- The places of blocks without an element of `T`. -/
noncomputable def biFree (init : Finset ℕ) (Q : ℕ → ℕ → Prop) (T : Finset ℕ) : Finset ℕ :=
  @Finset.filter ℕ (fun i => ∀ j ∈ T, ¬ Q i j) (Classical.decPred _) init

theorem mem_biFree {init : Finset ℕ} {Q : ℕ → ℕ → Prop} {T : Finset ℕ} {i : ℕ} : i ∈ biFree init Q T ↔ i ∈ init ∧ ∀ j ∈ T, ¬ Q i j := by
  classical
  unfold biFree
  rw [@Finset.mem_filter _ _ (Classical.decPred _)]

/-- The binary number. -/
noncomputable def biKey (init : Finset ℕ) (Q : ℕ → ℕ → Prop) (T : Finset ℕ) : ℕ := ∑ i ∈ biFree init Q T, 2 ^ i

/-- A set made of the configurations on cycles of a union of blocks. -/
def BiBlocks (init : Finset ℕ) (Q : ℕ → ℕ → Prop) (cyc : Finset ℕ → Finset ℕ) (T : Finset ℕ) : Prop :=
  ∃ U, U ⊆ init ∧ (∀ i ∈ U, ∀ j ∈ init, Q i j → j ∈ U) ∧ T = cyc U

/-- The sets of which the canonical form is known, for the sets on the way with the places that are removed. -/
def BiSeen (init : Finset ℕ) (Q : ℕ → ℕ → Prop) (canon : Finset ℕ → List Bool) (ctx : List (Finset ℕ × ℕ))
    (c : List Bool) : Prop :=
  ∃ S', S' ⊆ init ∧ canon S' = c ∧ ∃ a ∈ ctx, S' ⊆ a.1 ∧ (S' = a.1 ∨ ∃ p ∈ a.1, a.2 < p ∧ ∀ j ∈ S', ¬ Q p j)

/-- `T` is sought in this way. -/
def BiWay (init : Finset ℕ) (Q : ℕ → ℕ → Prop) (ctx : List (Finset ℕ × ℕ)) (T : Finset ℕ) : Prop :=
  ∀ a ∈ ctx, T ⊆ a.1 ∧ a.2 ∈ a.1 ∧ a.2 ∈ biFree init Q T ∧ ∀ i ∈ a.1, i ∈ biFree init Q T → i ≤ a.2

theorem pow_sum_lt {X : Finset ℕ} {p : ℕ} (h : ∀ i ∈ X, i < p) : ∑ i ∈ X, 2 ^ i < 2 ^ p :=
  Nat.geomSum_lt (le_refl 2) h

/-- A set that was seen earlier has a renaming with a larger number. -/
theorem seen_larger (h : BiFacts gt d pair minsz init Q cyc sat canon G ren) {ctx : List (Finset ℕ × ℕ)} {S T : Finset ℕ}
    (hS : S ⊆ init) (hctx : ∀ a ∈ ctx, a.1 ⊆ init ∧ S ⊆ a.1.erase a.2) (hTS : T ⊆ S) (hway : BiWay init Q ctx T)
    (hseen : BiSeen init Q canon ctx (canon S)) : ∃ g, biKey init Q T < biKey init Q (T.image (ren g)) := by
  obtain ⟨S', hS', hc, a, ha, hsub, hor⟩ := hseen
  obtain ⟨g, hg⟩ := h.canonEq S' S hS' hS hc
  obtain ⟨w1, w2, w3, w4⟩ := hway a ha
  rcases hor with heq | ⟨p, hpa, hlt, hfree⟩
  · exfalso
    have e1 : S'.card ≤ S.card := by rw [hg]; exact Finset.card_image_le
    rw [heq] at e1
    have e2 := Finset.card_le_card (hctx a ha).2
    rw [Finset.card_erase_of_mem w2] at e2
    have : 0 < a.1.card := Finset.card_pos.mpr ⟨_, w2⟩
    omega
  · refine ⟨g, ?_⟩
    have hT' : T.image (ren g) ⊆ S' := by rw [hg]; exact Finset.image_subset_image hTS
    have hpi : p ∈ init := (hctx a ha).1 hpa
    have hpR' : p ∈ biFree init Q (T.image (ren g)) := mem_biFree.mpr ⟨hpi, fun j hj => hfree j (hT' hj)⟩
    have hpR : p ∉ biFree init Q T := fun hp => absurd (w4 p hpa hp) (by omega)
    have hpq : ¬ Q a.2 p := by
      intro hq
      refine hpR (mem_biFree.mpr ⟨hpi, fun j hj hj' => ?_⟩)
      exact (mem_biFree.mp w3).2 j hj (h.trans _ _ _ hq hj')
    classical
    have hsub2 : insert p ((biFree init Q T).filter fun r => a.2 < r ∧ ¬ Q a.2 r) ⊆ biFree init Q (T.image (ren g)) := by
      intro r hr
      rcases Finset.mem_insert.mp hr with rfl | hr
      · exact hpR'
      · obtain ⟨hr1, hr2, hr3⟩ := Finset.mem_filter.mp hr
        refine mem_biFree.mpr ⟨(mem_biFree.mp hr1).1, fun j hj hj' => ?_⟩
        have hja : j ∈ a.1 := hsub (hT' hj)
        have hjR : j ∈ biFree init Q T := mem_biFree.mpr ⟨(hctx a ha).1 hja, fun k hk hk' =>
          (mem_biFree.mp hr1).2 k hk (h.trans _ _ _ hj' hk')⟩
        have := w4 j hja hjR
        have := h.order a.2 r a.2 j hr2 hr3 (h.refl _) hj'
        omega
    have hlow : ∀ r ∈ (biFree init Q T).filter (fun r => ¬ (a.2 < r ∧ ¬ Q a.2 r)), r < p := by
      intro r hr
      have := (Finset.mem_filter.mp hr).2
      by_cases hq : Q a.2 r
      · exact h.order a.2 p r p hlt hpq hq (h.refl _)
      · have : r ≤ a.2 := by
          by_contra hn
          exact this ⟨by omega, hq⟩
        omega
    unfold biKey
    rw [← Finset.sum_filter_add_sum_filter_not (biFree init Q T) fun r => a.2 < r ∧ ¬ Q a.2 r]
    have l1 := pow_sum_lt hlow
    have l2 := Finset.sum_le_sum_of_subset (f := fun i => 2 ^ i) hsub2
    rw [Finset.sum_insert (fun hm => hpR (Finset.mem_filter.mp hm).1)] at l2
    omega

/-- What a call of `recurse` does. -/
def BiCall (init : Finset ℕ) (Q : ℕ → ℕ → Prop) (cyc : Finset ℕ → Finset ℕ) (sat : Finset ℕ → Bool)
    (canon : Finset ℕ → List Bool) {G : Type} (ren : G → ℕ → ℕ) (out ext : List (List Bool)) (S0 : Finset ℕ)
    (want : Finset ℕ → Prop) : Prop :=
  (out ++ ext).Nodup ∧ (∀ c ∈ ext, ∃ S', S' ⊆ S0 ∧ BiBlocks init Q cyc S' ∧ sat S' = true ∧ canon S' = c) ∧
    ∀ T, BiBlocks init Q cyc T → sat T = true → (∀ g, biKey init Q (T.image (ren g)) ≤ biKey init Q T) → want T →
      canon T ∈ out ++ ext

theorem biBlocks_drop (h : BiFacts gt d pair minsz init Q cyc sat canon G ren) {U : Finset ℕ} (hU : U ⊆ init)
    (hb : ∀ i ∈ U, ∀ j ∈ init, Q i j → j ∈ U) {q : ℕ} (hq : q ∈ cyc U) :
    ∃ U', U' ⊆ init ∧ (∀ i ∈ U', ∀ j ∈ init, Q i j → j ∈ U') ∧ cyc (biDrop d pair (cyc U) q) = cyc U' := by
  classical
  refine ⟨U.filter fun i => ¬ Q q i, (Finset.filter_subset _ _).trans hU, ?_, ?_⟩
  · intro i hi j hj hij
    obtain ⟨h1, h2⟩ := Finset.mem_filter.mp hi
    exact Finset.mem_filter.mpr ⟨hb i h1 j hj hij, fun hq' => h2 (h.trans _ _ _ hq' (h.symm _ _ hij))⟩
  · have hcU : cyc U ⊆ init := (h.cycSub U).trans hU
    refine Finset.Subset.antisymm (h.cycMono _ _ fun j hj => ?_) ?_
    · obtain ⟨h1, h2⟩ := (h.drop _ q hcU hq j).mp hj
      exact Finset.mem_filter.mpr ⟨h.cycSub _ h1, h2⟩
    · have : cyc (U.filter fun i => ¬ Q q i) ⊆ biDrop d pair (cyc U) q := by
        intro j hj
        refine (h.drop _ q hcU hq j).mpr ⟨h.cycMono _ _ (Finset.filter_subset _ _) hj, ?_⟩
        exact (Finset.mem_filter.mp (h.cycSub _ hj)).2
      have := h.cycMono _ _ this
      rwa [h.cycIdem] at this

/-- The loop over the places of a set `A`. -/
theorem biLoop_spec (h : BiFacts gt d pair minsz init Q cyc sat canon G ren) (fuel : ℕ) {A U : Finset ℕ}
    (hU : U ⊆ init) (hUb : ∀ i ∈ U, ∀ j ∈ init, Q i j → j ∈ U) (hA : A = cyc U) (ctx : List (Finset ℕ × ℕ))
    (hctx : ∀ a ∈ ctx, a.1 ⊆ init ∧ A ⊆ a.1.erase a.2)
    (ih : ∀ (S0 : Finset ℕ) (q : ℕ) (out : List (List Bool)) (ctx : List (Finset ℕ × ℕ)), q < fuel → S0 ⊆ init →
      (∃ U, U ⊆ init ∧ (∀ i ∈ U, ∀ j ∈ init, Q i j → j ∈ U) ∧ cyc S0 = cyc U) →
      (∀ a ∈ ctx, a.1 ⊆ init ∧ S0 ⊆ a.1.erase a.2) → (∀ c ∈ out, BiSeen init Q canon ctx c) → out.Nodup →
      ∃ ext, biRecurse gt d pair minsz fuel S0 q out = some (out ++ ext) ∧
        BiCall init Q cyc sat canon ren out ext S0 fun T => T ⊆ S0 ∧ BiWay init Q ctx T ∧
          ∀ i ∈ cyc S0, i ∈ biFree init Q T → i < q) :
    ∀ (n : ℕ) (out : List (List Bool)), n ≤ fuel → out.Nodup →
      (∀ c ∈ out, BiSeen init Q canon ctx c ∨ ∃ S', S' ⊆ A ∧ canon S' = c ∧
        (S' = A ∨ ∃ p ∈ A, n ≤ p ∧ ∀ j ∈ S', ¬ Q p j)) →
      ∃ ext, (List.range n).reverse.foldlM (fun out i =>
          if i ∈ A then biRecurse gt d pair minsz fuel (biDrop d pair A i) i out else some out) out = some (out ++ ext) ∧
        BiCall init Q cyc sat canon ren out ext A fun T => T ⊆ A ∧ BiWay init Q ctx T ∧
          ∃ q ∈ A, q < n ∧ q ∈ biFree init Q T ∧ ∀ i ∈ A, i ∈ biFree init Q T → i ≤ q := by
  have hAi : A ⊆ init := by rw [hA]; exact (h.cycSub U).trans hU
  intro n
  induction n with
  | zero =>
    intro out _ hnd _
    refine ⟨[], by simp, by simpa using hnd, by simp, ?_⟩
    rintro T _ _ _ ⟨-, -, q, -, hq, -⟩
    omega
  | succ n ihn =>
    intro out hn hnd hseen
    rw [List.range_succ, List.reverse_append, List.reverse_singleton, List.singleton_append, List.foldlM_cons]
    by_cases hnA : n ∈ A
    · rw [if_pos hnA]
      have hdrop := h.drop A n hAi hnA
      have hsub : biDrop d pair A n ⊆ A := fun j hj => ((hdrop j).mp hj).1
      obtain ⟨ext1, e1, c1, c2, c3⟩ := ih (biDrop d pair A n) n out ((A, n) :: ctx) (by omega) (hsub.trans hAi)
        (by
          obtain ⟨U', u1, u2, u3⟩ := biBlocks_drop h hU hUb (q := n) (by rw [← hA]; exact hnA)
          exact ⟨U', u1, u2, by rw [hA]; exact u3⟩)
        (by
          intro a ha
          rcases List.mem_cons.mp ha with rfl | ha
          · refine ⟨hAi, fun j hj => Finset.mem_erase.mpr ⟨?_, hsub hj⟩⟩
            rintro rfl
            exact ((hdrop _).mp hj).2 (h.refl _)
          · exact ⟨(hctx a ha).1, hsub.trans (hctx a ha).2⟩)
        (by
          intro c hc
          rcases hseen c hc with ⟨S', s1, s2, a, ha, s3⟩ | ⟨S', s1, s2, s3⟩
          · exact ⟨S', s1, s2, a, List.mem_cons_of_mem _ ha, s3⟩
          · refine ⟨S', s1.trans hAi, s2, (A, n), List.mem_cons_self, s1, ?_⟩
            rcases s3 with s3 | ⟨p, hp, hnp, s3⟩
            · exact Or.inl s3
            · exact Or.inr ⟨p, hp, by omega, s3⟩) hnd
      obtain ⟨ext2, f1, g1, g2, g3⟩ := ihn (out ++ ext1) (by omega) c1 (by
        intro c hc
        rcases List.mem_append.mp hc with hc | hc
        · rcases hseen c hc with s | ⟨S', s1, s2, s3⟩
          · exact Or.inl s
          · refine Or.inr ⟨S', s1, s2, ?_⟩
            rcases s3 with s3 | ⟨p, hp, hnp, s3⟩
            · exact Or.inl s3
            · exact Or.inr ⟨p, hp, by omega, s3⟩
        · obtain ⟨S', s1, -, -, s2⟩ := c2 c hc
          exact Or.inr ⟨S', s1.trans hsub, s2, Or.inr ⟨n, hnA, le_refl _, fun j hj => ((hdrop j).mp (s1 hj)).2⟩⟩)
      refine ⟨ext1 ++ ext2, ?_, ?_, ?_, ?_⟩
      · rw [e1]
        simp only [Option.bind_eq_bind, Option.bind_some]
        rw [f1, List.append_assoc]
      · rw [← List.append_assoc]; exact g1
      · intro c hc
        rcases List.mem_append.mp hc with hc | hc
        · obtain ⟨S', s1, s2⟩ := c2 c hc
          exact ⟨S', s1.trans hsub, s2⟩
        · exact g2 c hc
      · rintro T t1 t2 t3 ⟨t4, t5, q, hqA, hqn, hqf, hqm⟩
        rw [← List.append_assoc]
        by_cases hq : q = n
        · subst hq
          refine List.mem_append_left _ (c3 T t1 t2 t3 ⟨?_, ?_, ?_⟩)
          · intro j hj
            exact (hdrop j).mpr ⟨t4 hj, (mem_biFree.mp hqf).2 j hj⟩
          · intro a ha
            rcases List.mem_cons.mp ha with rfl | ha
            · exact ⟨t4, hqA, hqf, hqm⟩
            · exact t5 a ha
          · intro i hi hif
            have hi' := (hdrop i).mp (h.cycSub _ hi)
            have := hqm i hi'.1 hif
            have hne : i ≠ q := by
              rintro rfl
              exact hi'.2 (h.refl _)
            omega
        · exact g3 T t1 t2 t3 ⟨t4, t5, q, hqA, by omega, hqf, hqm⟩
    · rw [if_neg hnA]
      simp only [Option.bind_eq_bind, Option.bind_some]
      obtain ⟨ext, e1, c1, c2, c3⟩ := ihn out (by omega) hnd (by
        intro c hc
        rcases hseen c hc with s | ⟨S', s1, s2, s3⟩
        · exact Or.inl s
        · refine Or.inr ⟨S', s1, s2, ?_⟩
          rcases s3 with s3 | ⟨p, hp, hnp, s3⟩
          · exact Or.inl s3
          · exact Or.inr ⟨p, hp, by omega, s3⟩)
      refine ⟨ext, e1, c1, c2, ?_⟩
      rintro T t1 t2 t3 ⟨t4, t5, q, hqA, hqn, hqf, hqm⟩
      have : q ≠ n := by rintro rfl; exact hnA hqA
      exact c3 T t1 t2 t3 ⟨t4, t5, q, hqA, by omega, hqf, hqm⟩

theorem biRecurse_spec (h : BiFacts gt d pair minsz init Q cyc sat canon G ren) :
    ∀ (fuel : ℕ) (S0 : Finset ℕ) (q : ℕ) (out : List (List Bool)) (ctx : List (Finset ℕ × ℕ)), q < fuel → S0 ⊆ init →
      (∃ U, U ⊆ init ∧ (∀ i ∈ U, ∀ j ∈ init, Q i j → j ∈ U) ∧ cyc S0 = cyc U) →
      (∀ a ∈ ctx, a.1 ⊆ init ∧ S0 ⊆ a.1.erase a.2) → (∀ c ∈ out, BiSeen init Q canon ctx c) → out.Nodup →
      ∃ ext, biRecurse gt d pair minsz fuel S0 q out = some (out ++ ext) ∧
        BiCall init Q cyc sat canon ren out ext S0 fun T => T ⊆ S0 ∧ BiWay init Q ctx T ∧
          ∀ i ∈ cyc S0, i ∈ biFree init Q T → i < q := by
  intro fuel
  induction fuel with
  | zero => intro S0 q out ctx hq; omega
  | succ fuel ih =>
    intro S0 q out ctx hq hS0 hU hctx hseen hnd
    obtain ⟨U, u1, u2, u3⟩ := hU
    have hAi : cyc S0 ⊆ init := (h.cycSub S0).trans hS0
    have hctx' : ∀ a ∈ ctx, a.1 ⊆ init ∧ cyc S0 ⊆ a.1.erase a.2 := fun a ha =>
      ⟨(hctx a ha).1, (h.cycSub S0).trans (hctx a ha).2⟩
    have hTA : ∀ T, BiBlocks init Q cyc T → T ⊆ S0 → T ⊆ cyc S0 := by
      rintro T ⟨V, -, -, rfl⟩ hT
      have := h.cycMono _ _ hT
      rwa [h.cycIdem] at this
    rw [biRecurse, h.fix S0 hS0]
    simp only [Option.bind_some]
    rw [h.satEq _ hAi]
    simp only [Option.bind_some]
    by_cases hs : sat (cyc S0) = false
    · rw [if_pos hs]
      refine ⟨[], by simp, by simpa using hnd, by simp, ?_⟩
      rintro T t1 t2 - ⟨t4, -⟩
      rw [h.satMono T _ (hTA T t1 t4) hAi t2] at hs
      cases hs
    · rw [if_neg hs, h.canonOf _ hAi]
      simp only [Option.bind_some]
      rw [Bool.not_eq_false] at hs
      by_cases hc : canon (cyc S0) ∈ out
      · rw [if_pos hc]
        refine ⟨[], by simp, by simpa using hnd, by simp, ?_⟩
        rintro T t1 t2 t3 ⟨t4, t5, -⟩
        obtain ⟨g, hg⟩ := seen_larger h hAi hctx' (hTA T t1 t4) t5 (hseen _ hc)
        exact absurd (t3 g) (by omega)
      · rw [if_neg hc]
        obtain ⟨ext, e1, c1, c2, c3⟩ := biLoop_spec h fuel u1 u2 u3 ctx hctx' ih q (out ++ [canon (cyc S0)]) (by omega)
          (by
            rw [List.nodup_append]
            refine ⟨hnd, List.nodup_singleton _, ?_⟩
            intro a ha b hb hab
            rw [List.mem_singleton] at hb
            rw [← hb, ← hab] at hc
            exact hc ha)
          (by
            intro c hc'
            rcases List.mem_append.mp hc' with hc' | hc'
            · exact Or.inl (hseen c hc')
            · rw [List.mem_singleton] at hc'
              exact Or.inr ⟨cyc S0, subset_rfl, hc'.symm, Or.inl rfl⟩)
        refine ⟨canon (cyc S0) :: ext, ?_, ?_, ?_, ?_⟩
        · rw [e1]; simp
        · simpa using c1
        · intro c hc'
          rcases List.mem_cons.mp hc' with rfl | hc'
          · exact ⟨cyc S0, h.cycSub S0, ⟨U, u1, u2, u3⟩, hs, rfl⟩
          · obtain ⟨S', s1, s2⟩ := c2 c hc'
            exact ⟨S', s1.trans (h.cycSub S0), s2⟩
        · rintro T t1 t2 t3 ⟨t4, t5, t6⟩
          have hTc := hTA T t1 t4
          classical
          by_cases hne : ((cyc S0).filter fun i => i ∈ biFree init Q T).Nonempty
          · have hm := Finset.max'_mem _ hne
            obtain ⟨m1, m2⟩ := Finset.mem_filter.mp hm
            have := c3 T t1 t2 t3 ⟨hTc, t5, _, m1, t6 _ m1 m2, m2, fun i hi hif =>
              Finset.le_max' _ _ (Finset.mem_filter.mpr ⟨hi, hif⟩)⟩
            simpa using this
          · have : T = cyc S0 := by
              refine Finset.Subset.antisymm hTc ?_
              obtain ⟨V, v1, v2, v3⟩ := t1
              have hsubV : cyc S0 ⊆ V := by
                intro i hi
                by_contra hiV
                refine hne ⟨i, Finset.mem_filter.mpr ⟨hi, mem_biFree.mpr ⟨hAi hi, fun j hj hij => ?_⟩⟩⟩
                refine hiV (v2 j ?_ i (hAi hi) (h.symm _ _ hij))
                rw [v3] at hj
                exact h.cycSub _ hj
              have := h.cycMono _ _ hsubV
              rw [h.cycIdem] at this
              rw [v3]
              exact this
            rw [this]
            simp

end
end Verif.Proofs
