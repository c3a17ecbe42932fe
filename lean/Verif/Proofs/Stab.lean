import Verif.Proofs.Fmlae
import Verif.Proofs.Weak

/-! Helper lemmas: exact description of the verdict of `stabilization_ck`. -/

set_option linter.unusedSectionVars false

namespace Verif.Model
open Verif.Spec

universe u v
variable {σ : Type u} [Fintype σ] [DecidableEq σ] {τ : Type v} [DecidableEq τ]

/-! ### Functional names for the results of the loops -/

open Classical in
/-- Backward reachable states. -/
noncomputable def bwd (xn : Finset (σ × σ)) (p : Finset σ) : Finset σ :=
  Finset.univ.filter fun s => ∃ t ∈ p, Reach xn s t

open Classical in
/-- Forward reachable states. -/
noncomputable def fwd (xn : Finset (σ × σ)) (p : Finset σ) : Finset σ :=
  Finset.univ.filter fun t => ∃ s ∈ p, Reach xn s t

open Classical in
/-- Largest closed subset. -/
noncomputable def cls (xn : Finset (σ × σ)) (p : Finset σ) : Finset σ :=
  Finset.univ.filter fun s => ∀ t, Reach xn s t → t ∈ p

open Classical in
/-- States between cycles reachable from `A`. -/
noncomputable def sccOf (xn : Finset (σ × σ)) (A : Finset σ) : Finset σ :=
  Finset.univ.filter fun s =>
    (∃ c ∈ A, OnCycle xn c ∧ Reach xn c s) ∧ ∃ c, OnCycle xn c ∧ Reach xn s c

theorem mem_bwd {xn : Finset (σ × σ)} {p : Finset σ} {s : σ} :
    s ∈ bwd xn p ↔ ∃ t ∈ p, Reach xn s t := by simp [bwd]
theorem mem_fwd {xn : Finset (σ × σ)} {p : Finset σ} {t : σ} :
    t ∈ fwd xn p ↔ ∃ s ∈ p, Reach xn s t := by simp [fwd]
theorem mem_cls {xn : Finset (σ × σ)} {p : Finset σ} {s : σ} :
    s ∈ cls xn p ↔ ∀ t, Reach xn s t → t ∈ p := by simp [cls]
theorem mem_sccOf {xn : Finset (σ × σ)} {A : Finset σ} {s : σ} :
    s ∈ sccOf xn A ↔
      (∃ c ∈ A, OnCycle xn c ∧ Reach xn c s) ∧ ∃ c, OnCycle xn c ∧ Reach xn s c := by
  simp [sccOf]

theorem preReach_eq {xn : Finset (σ × σ)} {p : Finset σ} {fuel : ℕ} (hf : Fintype.card σ < fuel) :
    preReach fuel xn p = some (bwd xn p) := by
  obtain ⟨r, hr, h⟩ := preReach_total xn p fuel hf
  rw [hr]; congr 1; ext s; rw [h, mem_bwd]

theorem imgReach_eq {xn : Finset (σ × σ)} {p : Finset σ} {fuel : ℕ} (hf : Fintype.card σ < fuel) :
    imgReach fuel xn p = some (fwd xn p) := by
  obtain ⟨r, hr, h⟩ := imgReach_total xn p fuel hf
  rw [hr]; congr 1; ext s; rw [h, mem_fwd]

theorem closureWithin_eq {xn : Finset (σ × σ)} {p : Finset σ} {fuel : ℕ}
    (hf : Fintype.card σ < fuel) : closureWithin fuel xn p = some (cls xn p) := by
  obtain ⟨r, hr, h⟩ := closureWithin_total xn p fuel hf
  rw [hr]; congr 1; ext s; rw [h, mem_cls]

theorem cls_subset {xn : Finset (σ × σ)} {p : Finset σ} : cls xn p ⊆ p :=
  fun s hs => mem_cls.1 hs s Relation.ReflTransGen.refl

theorem cls_closed {xn : Finset (σ × σ)} {p : Finset σ} : Closed xn (cls xn p) := by
  intro s hs t hst
  exact mem_cls.2 fun u hu => mem_cls.1 hs u (Relation.ReflTransGen.head hst hu)

theorem reach_closed {xn : Finset (σ × σ)} {A : Finset σ} (hA : Closed xn A) {s t : σ}
    (hs : s ∈ A) (h : Reach xn s t) : t ∈ A := by
  induction h with
  | refl => exact hs
  | tail _ h ih => exact hA _ ih _ h

theorem cls_greatest {xn : Finset (σ × σ)} {p q : Finset σ} (hq : q ⊆ p) (hc : Closed xn q) :
    q ⊆ cls xn p := fun _ hs => mem_cls.2 fun _ ht => hq (reach_closed hc hs ht)

theorem reach_mono {xn yn : Finset (σ × σ)} (h : xn ⊆ yn) {s t : σ} (hr : Reach xn s t) :
    Reach yn s t :=
  Relation.ReflTransGen.mono (fun _ _ (he : _ ∈ _) => h he) _ _ hr

theorem onCycle_mono {xn yn : Finset (σ × σ)} (h : xn ⊆ yn) {s : σ} (hr : OnCycle xn s) :
    OnCycle yn s :=
  Relation.TransGen.mono (fun _ _ (he : _ ∈ _) => h he) _ _ hr

theorem sccOf_mono {xn yn : Finset (σ × σ)} {A B : Finset σ} (h : xn ⊆ yn) (hAB : A ⊆ B) :
    sccOf xn A ⊆ sccOf yn B := by
  intro s hs
  obtain ⟨⟨c, hc, h1, h2⟩, d, h3, h4⟩ := mem_sccOf.1 hs
  exact mem_sccOf.2 ⟨⟨c, hAB hc, onCycle_mono h h1, reach_mono h h2⟩, d, onCycle_mono h h3,
    reach_mono h h4⟩

theorem mem_sccOf_of_cycle {xn : Finset (σ × σ)} {A : Finset σ} {c : σ} (hc : c ∈ A)
    (h : OnCycle xn c) : c ∈ sccOf xn A :=
  mem_sccOf.2 ⟨⟨c, hc, h, Relation.ReflTransGen.refl⟩, c, h, Relation.ReflTransGen.refl⟩

theorem sccOf_subset {xn : Finset (σ × σ)} {A : Finset σ} (hA : Closed xn A) :
    sccOf xn A ⊆ A := by
  intro s hs
  obtain ⟨⟨c, hc, _, h2⟩, _⟩ := mem_sccOf.1 hs
  exact reach_closed hA hc h2

/-- `cycle_ck` on a closed set. -/
theorem cycleCk_closed {xn : Finset (σ × σ)} {A : Finset σ} (hA : Closed xn A)
    (inv : Option (Finset σ)) (lim : Option ℕ) {fuel : ℕ} (hf : Fintype.card σ < fuel) :
    ∃ r, cycleCk fuel xn lim inv (some A) = some r ∧
      ((∃ m, lim = some m ∧ 0 < m ∧ r = ⟨false, none, m + 1⟩ ∧ ∀ j < m, ¬ Stop xn inv A j) ∨
       (r.scc = some (sccOf xn A) ∧ r.ret = decide (sccOf xn A).Nonempty ∧
        ∀ m, lim = some m → ∃ k0, Stop xn inv A k0 ∧ (∀ j < k0, ¬ Stop xn inv A j) ∧
          r.nlayers = k0 + 1 ∧ (m = 0 ∨ k0 + 1 ≤ m))) := by
  obtain ⟨r, hr, hp⟩ := cycleCk_total inv lim (some A) (N := 0) (imgN_anti hA 0) fuel (by omega)
  refine ⟨r, hr, ?_⟩
  simp only [Option.getD_some] at hp
  rcases hp with h | ⟨k, G, hk, _, h1, h2, h3, h4⟩
  · exact Or.inl h
  · right
    have hG : G = sccOf xn A := by
      ext s
      rw [h3, mem_sccOf]
      refine and_congr_left' ?_
      constructor
      · intro hs
        obtain ⟨c, hc, hc1, hc2⟩ := fix_from_cycle hk hs
        obtain ⟨a, ha, hac⟩ := fix_cycle_from hc
        exact ⟨c, reach_closed hA ha hac, hc1, hc2⟩
      · rintro ⟨c, hc, hc1, hc2⟩
        exact mem_imgN_of_cycle hA hc hc1 hc2 k
    subst hG
    refine ⟨h1, h2, ?_⟩
    intro m hm
    obtain ⟨k0, _, h5, h6, h7, h8⟩ := h4 m hm
    exact ⟨k0, h5, h6, h7, h8⟩

/-- 4-argument weak convergence without pointer or limit. -/
theorem weakConv4_none {xn : Finset (σ × σ)} {A I : Finset σ} {fuel : ℕ} (lim : Option ℕ)
    (hl : lim = none ∨ lim = some 0) (hf : Fintype.card σ < fuel) :
    ∃ b n, weakConv4 fuel lim xn I A = some (b, n) ∧
      (b = true ↔ ∀ s ∈ A, ∃ t ∈ I, ReachIn xn A s t) := by
  obtain ⟨r, hr, hp⟩ := weakConv4_total xn A I lim fuel hf
  refine ⟨r.1, r.2, hr, ?_⟩
  rcases hp with ⟨m, hm, h0, _⟩ | ⟨k, hk, _, h3, _⟩
  · rcases hl with h | h
    · rw [h] at hm; cases hm
    · rw [h] at hm; cases hm; omega
  · rw [h3, decide_eq_true_iff, Finset.eq_empty_iff_forall_notMem]
    constructor
    · intro h s hs
      by_contra hc
      exact h s ((spanW_final hk s).2 ⟨hs, hc⟩)
    · intro h s hs
      obtain ⟨h1, h2⟩ := (spanW_final hk s).1 hs
      exact h2 (h s h1)

/-! ### The fixpoint loop of `shadow_ck` -/

theorem mem_within {xn : Finset (σ × σ)} {p : Finset σ} {e : σ × σ} :
    e ∈ within xn p ↔ e ∈ xn ∧ e.1 ∈ p ∧ e.2 ∈ p := by
  simp [within, and_assoc]

theorem within_mono {xn yn : Finset (σ × σ)} {p q : Finset σ} (h : xn ⊆ yn) (hpq : p ⊆ q) :
    within xn p ⊆ within yn q := by
  intro e he
  obtain ⟨h1, h2, h3⟩ := mem_within.1 he
  exact mem_within.2 ⟨h h1, hpq h2, hpq h3⟩

/-- Post-fixpoints of the trimming loop, for initial candidate set `T`, relations `L`, `S`,
start/end states `beg`, `fin`. -/
structure Fix (lo L S : Finset (σ × σ)) (T beg fin H : Finset σ) : Prop where
  sub : H ⊆ T
  closed : Closed lo H
  from_beg : ∀ s ∈ H, ∃ b ∈ beg ∪ rng (within L H), Reach (within S H) b s
  to_fin : ∀ s ∈ H, ∃ f ∈ fin ∪ dom (within L H), Reach (within S H) s f

theorem dom_mono {xn yn : Finset (σ × σ)} (h : xn ⊆ yn) : dom xn ⊆ dom yn := by
  intro s hs; obtain ⟨t, ht⟩ := mem_dom.1 hs; exact mem_dom.2 ⟨t, h ht⟩

theorem rng_mono {xn yn : Finset (σ × σ)} (h : xn ⊆ yn) : rng xn ⊆ rng yn := by
  intro s hs; obtain ⟨t, ht⟩ := mem_rng.1 hs; exact mem_rng.2 ⟨t, h ht⟩

/-- Monotonicity: a post-fixpoint for a larger `lo`, smaller relations and smaller candidate set
is one for the smaller `lo`, larger relations and candidate set. -/
theorem Fix.mono {lo lo' L L' S S' : Finset (σ × σ)} {T T' beg fin H : Finset σ}
    (h : Fix lo' L' S' T' beg fin H) (hlo : lo ⊆ lo') (hL : L' ⊆ L) (hS : S' ⊆ S) (hT : T' ⊆ T) :
    Fix lo L S T beg fin H where
  sub := h.sub.trans hT
  closed := fun s hs t hst => h.closed s hs t (hlo hst)
  from_beg := by
    intro s hs
    obtain ⟨b, hb, hr⟩ := h.from_beg s hs
    exact ⟨b, Finset.union_subset_union_right (rng_mono (within_mono hL (Finset.Subset.refl _))) hb,
      reach_mono (within_mono hS (Finset.Subset.refl _)) hr⟩
  to_fin := by
    intro s hs
    obtain ⟨b, hb, hr⟩ := h.to_fin s hs
    exact ⟨b, Finset.union_subset_union_right (dom_mono (within_mono hL (Finset.Subset.refl _))) hb,
      reach_mono (within_mono hS (Finset.Subset.refl _)) hr⟩

theorem shLoop_total {lo L S : Finset (σ × σ)} {T beg fin : Finset σ} {fuel : ℕ}
    (hf : Fintype.card σ < fuel) :
    ∃ H, loopFuel (shBody fuel lo beg fin) fuel ⟨T, L, S⟩ = some (some ⟨H, within L H, within S H⟩) ∧
      Fix lo L S T beg fin H ∧ ∀ H', Fix lo L S T beg fin H' → H' ⊆ H := by
  have hbody : ∀ st, shBody fuel lo beg fin st =
      (let hiInv := cls lo st.inv
       let live := within st.live hiInv
       let self := within st.self hiInv
       let hiInv' := (hiInv ∩ fwd self (beg ∪ rng live)) ∩ bwd self (fin ∪ dom live)
       if hiInv = hiInv' then .inl (some ⟨hiInv', live, self⟩) else .inr ⟨hiInv', live, self⟩) := by
    intro st
    simp only [shBody, closureWithin_eq hf, imgReach_eq hf, preReach_eq hf]
  have key := loopFuel_total (body := shBody fuel lo beg fin)
    (fun st => st.inv ⊆ T ∧ st.live ⊆ L ∧ st.self ⊆ S ∧ within L st.inv ⊆ st.live ∧
      within S st.inv ⊆ st.self ∧ ∀ H', Fix lo L S T beg fin H' → H' ⊆ st.inv)
    (fun r => ∃ H, r = some ⟨H, within L H, within S H⟩ ∧
      Fix lo L S T beg fin H ∧ ∀ H', Fix lo L S T beg fin H' → H' ⊆ H)
    (fun st => st.inv.card) ?_ ?_ fuel ⟨T, L, S⟩ ?_ ?_
  · obtain ⟨b, hb, H, rfl, h1, h2⟩ := key
    exact ⟨H, hb, h1, h2⟩
  · rintro st r ⟨h1, h2, h3, h4, h5, h6⟩ hb
    rw [hbody] at hb
    simp only at hb
    have hsub : cls lo st.inv ⊆ st.inv := cls_subset
    have hwl : within st.live (cls lo st.inv) = within L (cls lo st.inv) := by
      ext e; simp only [mem_within]
      constructor
      · rintro ⟨a, b⟩; exact ⟨h2 a, b⟩
      · rintro ⟨a, b, c⟩; exact ⟨h4 (mem_within.2 ⟨a, hsub b, hsub c⟩), b, c⟩
    have hws : within st.self (cls lo st.inv) = within S (cls lo st.inv) := by
      ext e; simp only [mem_within]
      constructor
      · rintro ⟨a, b⟩; exact ⟨h3 a, b⟩
      · rintro ⟨a, b, c⟩; exact ⟨h5 (mem_within.2 ⟨a, hsub b, hsub c⟩), b, c⟩
    rw [hwl, hws] at hb
    split at hb
    · next heq =>
      cases hb
      refine ⟨cls lo st.inv, ?_, ⟨hsub.trans h1, cls_closed, ?_, ?_⟩, ?_⟩
      · rw [← heq]
      · intro s hs
        rw [heq] at hs
        exact mem_fwd.1 (Finset.mem_inter.1 (Finset.mem_inter.1 hs).1).2
      · intro s hs
        rw [heq] at hs
        exact mem_bwd.1 (Finset.mem_inter.1 hs).2
      · intro H' hH'
        exact cls_greatest (h6 H' hH') hH'.closed
    · cases hb
  · rintro st st' ⟨h1, h2, h3, h4, h5, h6⟩ hb
    rw [hbody] at hb
    simp only at hb
    split at hb
    · cases hb
    · next hne =>
      cases hb
      have hsub : cls lo st.inv ⊆ st.inv := cls_subset
      have hle : (cls lo st.inv ∩ fwd (within st.self (cls lo st.inv)) (beg ∪ rng (within st.live (cls lo st.inv)))) ∩
          bwd (within st.self (cls lo st.inv)) (fin ∪ dom (within st.live (cls lo st.inv))) ⊆ cls lo st.inv :=
        Finset.inter_subset_left.trans Finset.inter_subset_left
      refine ⟨⟨hle.trans (hsub.trans h1), ?_, ?_, ?_, ?_, ?_⟩, ?_⟩
      · intro e he; exact h2 (mem_within.1 he).1
      · intro e he; exact h3 (mem_within.1 he).1
      · intro e he
        obtain ⟨a, b, c⟩ := mem_within.1 he
        exact mem_within.2 ⟨h4 (mem_within.2 ⟨a, hsub (hle b), hsub (hle c)⟩), hle b, hle c⟩
      · intro e he
        obtain ⟨a, b, c⟩ := mem_within.1 he
        exact mem_within.2 ⟨h5 (mem_within.2 ⟨a, hsub (hle b), hsub (hle c)⟩), hle b, hle c⟩
      · intro H' hH' s hs
        have hc : H' ⊆ cls lo st.inv := cls_greatest (h6 H' hH') hH'.closed
        have hL' : within L H' ⊆ within st.live (cls lo st.inv) := by
          intro e he
          obtain ⟨a, b, c⟩ := mem_within.1 he
          exact mem_within.2 ⟨h4 (mem_within.2 ⟨a, hsub (hc b), hsub (hc c)⟩), hc b, hc c⟩
        have hS' : within S H' ⊆ within st.self (cls lo st.inv) := by
          intro e he
          obtain ⟨a, b, c⟩ := mem_within.1 he
          exact mem_within.2 ⟨h5 (mem_within.2 ⟨a, hsub (hc b), hsub (hc c)⟩), hc b, hc c⟩
        refine Finset.mem_inter.2 ⟨Finset.mem_inter.2 ⟨hc hs, ?_⟩, ?_⟩
        · obtain ⟨b, hb, hr⟩ := hH'.from_beg s hs
          exact mem_fwd.2 ⟨b, Finset.union_subset_union_right (rng_mono hL') hb, reach_mono hS' hr⟩
        · obtain ⟨b, hb, hr⟩ := hH'.to_fin s hs
          exact mem_bwd.2 ⟨b, Finset.union_subset_union_right (dom_mono hL') hb, reach_mono hS' hr⟩
      · apply Finset.card_lt_card
        refine lt_of_lt_of_le (lt_of_le_of_ne hle (Ne.symm hne)) hsub
  · refine ⟨Finset.Subset.refl _, Finset.Subset.refl _, Finset.Subset.refl _, ?_, ?_, ?_⟩
    · intro e he; exact (mem_within.1 he).1
    · intro e he; exact (mem_within.1 he).1
    · intro H' hH'; exact hH'.sub
  · exact lt_of_le_of_lt (Finset.card_le_univ _) hf

/-! ### Exact description of `shadow_ck` (non-probabilistic) -/

/-- Relations used by the trimming loop. -/
def selfOf (sys : Sys σ τ) (hi : Finset (σ × σ)) : Finset (σ × σ) := (shInit sys hi hi).self
def liveOf (sys : Sys σ τ) (hi : Finset (σ × σ)) : Finset (σ × σ) := (shInit sys hi hi).live
def candOf (sys : Sys σ τ) (lo hi : Finset (σ × σ)) : Finset σ :=
  sys.shInv \ dom (lo \ (liveOf sys hi ∪ selfOf sys hi))

theorem shInit_eq (sys : Sys σ τ) (lo hi : Finset (σ × σ)) :
    shInit sys lo hi = ⟨candOf sys lo hi, liveOf sys hi, selfOf sys hi⟩ := by
  simp [shInit, candOf, liveOf, selfOf]

theorem liveOf_mono (sys : Sys σ τ) {a b : Finset (σ × σ)} (h : a ⊆ b) :
    liveOf sys a ⊆ liveOf sys b := by
  simp only [liveOf, shInit]; split
  · exact Finset.Subset.refl _
  · exact Finset.inter_subset_inter_right h

theorem selfOf_mono (sys : Sys σ τ) {a b : Finset (σ × σ)} (h : a ⊆ b) :
    selfOf sys a ⊆ selfOf sys b := by
  simp only [selfOf, shInit]; split
  · exact Finset.Subset.refl _
  · exact Finset.inter_subset_inter_right h

theorem liveOf_sub (sys : Sys σ τ) (a : Finset (σ × σ)) : liveOf sys a ⊆ a ∩ sys.live := by
  simp only [liveOf, shInit]; split
  · simp
  · exact Finset.Subset.refl _

theorem selfOf_sub (sys : Sys σ τ) (a : Finset (σ × σ)) : selfOf sys a ⊆ a ∩ sys.self := by
  simp only [selfOf, shInit]; split
  · simp
  · exact Finset.Subset.refl _

/-- The post-fixpoints computed by `shadow_ck` for `lo ⊆ hi`. -/
def ShFix (sys : Sys σ τ) (lo hi : Finset (σ × σ)) (H : Finset σ) : Prop :=
  Fix lo (liveOf sys hi) (selfOf sys hi) (candOf sys lo hi) (sys.shInv \ rng sys.live)
    (sys.shInv \ dom sys.live) H

/-- The greatest one. -/
def IsH (sys : Sys σ τ) (lo hi : Finset (σ × σ)) (H : Finset σ) : Prop :=
  ShFix sys lo hi H ∧ ∀ H', ShFix sys lo hi H' → H' ⊆ H

theorem IsH.unique {sys : Sys σ τ} {lo hi : Finset (σ × σ)} {H H' : Finset σ}
    (h : IsH sys lo hi H) (h' : IsH sys lo hi H') : H = H' :=
  Finset.Subset.antisymm (h'.2 _ h.1) (h.2 _ h'.1)

/-- The active-shadow relation, src/stabilization.cc:234. -/
def actXn (sys : Sys σ τ) (lo hi : Finset (σ × σ)) (H : Finset σ) : Finset (σ × σ) :=
  restr (within (liveOf sys hi) H) (dom (lo ∩ sys.self))ᶜ

/-- The active-shadow conditions. -/
def ActOk (sys : Sys σ τ) (lo hi : Finset (σ × σ)) (scc H : Finset σ) : Prop :=
  sys.behav = .activeShadow →
    (∀ e ∈ lo ∩ sys.self, e.1 ∉ scc) ∧
    (sccOf (actXn sys lo hi H) H).Nonempty ∧
    ∀ s ∈ H, ∃ t ∈ sccOf (actXn sys lo hi H) H, ReachIn hi H s t

/-- The final invariant. -/
noncomputable def expandOf (sys : Sys σ τ) (lo hi : Finset (σ × σ)) (H : Finset σ) : Finset σ :=
  match sys.style with
  | .shadow => cls lo (bwd (hi ∩ (sys.self ∪ sys.live)) H)
  | .activeShadow => cls lo (bwd (hi ∩ sys.live) H)
  | _ => H

/-- Conditions of the direct branch. -/
structure DirectOk (sys : Sys σ τ) (lo hi : Finset (σ × σ)) : Prop where
  closed : Closed lo sys.shInv
  shadow_sub : sys.style ≠ .closed → ∀ e ∈ sys.shadowXn, e.1 ∈ sys.shInv → e ∈ hi
  sub_shadow : sys.style ≠ .closed → ∀ e ∈ lo, e.1 ∈ sys.shInv → e ∈ sys.shadowXn
  active : (sys.behav = .activeShadow ∨ sys.style = .activeShadow) → sys.shInv ⊆ dom hi

/-- No cycle that does not change shadow variables is reachable, by such transitions, from a
recurrent state where the shadow behaviour has a transition. -/
def NoStutter (sys : Sys σ τ) (lo : Finset (σ × σ)) (scc : Finset σ) : Prop :=
  ∀ a ∈ scc, a ∈ dom sys.live → ∀ c, Reach (lo ∩ sys.self) a c → ¬ OnCycle (lo ∩ sys.self) c

/-- Probabilistic counterpart of `NoStutter`. -/
def NoStutterP (sys : Sys σ τ) (ps : List (Finset (σ × σ))) : Prop :=
  ∀ X, Trap ps sys.live sys.shInv X → X = ∅

/-- What the non-progress check establishes. -/
def NS (sys : Sys σ τ) (lo : Finset (σ × σ)) (ps : List (Finset (σ × σ))) (scc : Finset σ) : Prop :=
  if sys.probabilistic then NoStutterP sys ps else NoStutter sys lo scc

/-- What the check for cycles outside the new invariant establishes. -/
def CO (sys : Sys σ τ) (ps : List (Finset (σ × σ))) (scc H : Finset σ) : Prop :=
  if sys.probabilistic then ∀ X, Trap ps ∅ (scc \ H) X → X = ∅ else scc ⊆ H

/-- Conditions of the general branch. -/
structure GeneralOk (sys : Sys σ τ) (lo hi : Finset (σ × σ)) (ps : List (Finset (σ × σ)))
    (scc H I : Finset σ) : Prop where
  noStutter : NS sys lo ps scc
  isH : IsH sys lo hi H
  future : sys.scope = .future → H.Nonempty
  projP : sys.scope ≠ .future → projP sys sys.shInv = projP sys H
  projX : sys.scope ≠ .future → projX sys sys.live = projX sys (within (liveOf sys hi) H)
  scc_sub : CO sys ps scc H
  act : ActOk sys lo hi scc H
  final : I = expandOf sys lo hi H
  direct : sys.scope = .direct → I = sys.shInv

/-- Conditions of `shadow_ck`. -/
def ShAccept (sys : Sys σ τ) (lo hi : Finset (σ × σ)) (ps : List (Finset (σ × σ)))
    (scc I : Finset σ) : Prop :=
  ¬ (sys.behav = .silent ∧ scc.Nonempty) ∧
  ((sys.shadowPuppet = false ∧ sys.scope ≠ .future ∧ DirectOk sys lo hi ∧ I = sys.shInv) ∨
   (¬ (sys.shadowPuppet = false ∧ sys.scope ≠ .future) ∧ ∃ H, GeneralOk sys lo hi ps scc H I))

/-- The relation passed along with the process relations contains them. -/
def PsOk (sys : Sys σ τ) (lo : Finset (σ × σ)) (ps : List (Finset (σ × σ))) : Prop :=
  sys.probabilistic = true → ∀ p ∈ ps, p ⊆ lo

theorem probLivelock_spec {ps : List (Finset (σ × σ))} {lo : Finset (σ × σ)} (hps : ∀ p ∈ ps, p ⊆ lo)
    (A : Finset σ) (progress : Finset (σ × σ)) {fuel : ℕ} (hf : Fintype.card σ + 1 < fuel) :
    ∃ X, probLivelock fuel ps false A progress (some lo) = some X ∧ Trap ps progress A X ∧
      ∀ Z, Trap ps progress A Z → Z ⊆ X := by
  obtain ⟨X, hX, hX1, hX2⟩ := plBody1_total (ps := ps) (progress := progress) (A := A) (S1 := dom lo)
    (by
      intro X hX s hs
      obtain ⟨p, hp, ⟨t, ht⟩, _⟩ := hX.2 s hs
      exact mem_dom.2 ⟨t, hps p hp ht⟩) fuel hf
  exact ⟨X, by simp [probLivelock, hX], hX1, hX2⟩

theorem probLivelock_scc_spec {ps : List (Finset (σ × σ))} {lo : Finset (σ × σ)}
    (hps : ∀ p ∈ ps, p ⊆ lo) (A : Finset σ) (progress : Finset (σ × σ)) {fuel : ℕ}
    (hf : Fintype.card σ + 1 < fuel) :
    ∃ X Y, probLivelock fuel ps true A progress (some lo) = some Y ∧ Trap ps progress A X ∧
      (∀ Z, Trap ps progress A Z → Z ⊆ X) ∧ Y ⊆ X ∧ HasPred lo Y ∧
      (∀ Z ⊆ X, HasPred lo Z → Z ⊆ Y) := by
  obtain ⟨X, hX, hX1, hX2⟩ := plBody1_total (ps := ps) (progress := progress) (A := A) (S1 := dom lo)
    (by
      intro X hX s hs
      obtain ⟨p, hp, ⟨t, ht⟩, _⟩ := hX.2 s hs
      exact mem_dom.2 ⟨t, hps p hp ht⟩) fuel hf
  obtain ⟨Y, hY, hY1, hY2, hY3⟩ := plBody2_total (xn := lo) (X := X) fuel hf
  exact ⟨X, Y, by simp [probLivelock, hX, hY], hX1, hX2, hY1, hY2, hY3⟩

theorem shadowDirect_spec (sys : Sys σ τ) (lo hi : Finset (σ × σ)) :
    (∀ I, shadowDirect sys lo hi = .accept I ↔ DirectOk sys lo hi ∧ I = sys.shInv) ∧
    shadowDirect sys lo hi ≠ .abort := by
  unfold shadowDirect
  have hcl : img lo sys.shInv ⊆ sys.shInv ↔ Closed lo sys.shInv := by
    constructor
    · intro h s hs t hst; exact h (mem_img.2 ⟨s, hs, hst⟩)
    · intro h t ht; obtain ⟨s, hs, hst⟩ := mem_img.1 ht; exact h s hs t hst
  have hs1 : restr sys.shadowXn sys.shInv ⊆ hi ↔ ∀ e ∈ sys.shadowXn, e.1 ∈ sys.shInv → e ∈ hi := by
    constructor
    · intro h e he h1; exact h (mem_restr.2 ⟨he, h1⟩)
    · intro h e he; exact h e (mem_restr.1 he).1 (mem_restr.1 he).2
  have hs2 : restr lo sys.shInv ⊆ sys.shadowXn ↔ ∀ e ∈ lo, e.1 ∈ sys.shInv → e ∈ sys.shadowXn := by
    constructor
    · intro h e he h1; exact h (mem_restr.2 ⟨he, h1⟩)
    · intro h e he; exact h e (mem_restr.1 he).1 (mem_restr.1 he).2
  split
  · next h =>
    rw [hcl] at h
    exact ⟨fun I => ⟨fun h => (by cases h), fun h' => absurd h'.1.closed h⟩, by simp⟩
  · next h =>
    rw [hcl] at h
    split
    · next h2 =>
      rw [hs1, hs2] at h2
      refine ⟨fun I => ⟨fun h => (by cases h), fun h' => ?_⟩, by simp⟩
      rcases h2 with ⟨hst, h2 | h2⟩
      · exact absurd (h'.1.shadow_sub hst) h2
      · exact absurd (h'.1.sub_shadow hst) h2
    · next h2 =>
      rw [hs1, hs2] at h2
      split
      · next h3 =>
        exact ⟨fun I => ⟨fun h => (by cases h), fun h' => absurd (h'.1.active h3.1) h3.2⟩, by simp⟩
      · next h3 =>
        refine ⟨fun I => ⟨?_, ?_⟩, by simp⟩
        · intro hI
          cases hI
          refine ⟨⟨by simpa using h, ?_, ?_, ?_⟩, rfl⟩
          · intro hst; by_contra hc; exact h2 ⟨hst, Or.inl hc⟩
          · intro hst; by_contra hc; exact h2 ⟨hst, Or.inr hc⟩
          · intro hst; by_contra hc; exact h3 ⟨hst, hc⟩
        · rintro ⟨_, rfl⟩; rfl

theorem mem_self {sys : Sys σ τ} (hid : ∀ e, e ∈ sys.identXn ↔ e.1 = e.2) {s t : σ} :
    (s, t) ∈ sys.self ↔ s ∈ sys.shInv ∧ sys.proj s = sys.proj t := by
  simp only [Sys.self, projX, mem_restr, Finset.mem_filter, Finset.mem_univ, true_and]
  constructor
  · rintro ⟨⟨e, he, h1, h2⟩, hs⟩
    refine ⟨hs, ?_⟩
    rw [← h1, ← h2, (hid e).1 he]
  · rintro ⟨hs, h⟩
    exact ⟨⟨(s, s), (hid _).2 rfl, rfl, h⟩, hs⟩

theorem mem_live {sys : Sys σ τ} {s t : σ} :
    (s, t) ∈ sys.live ↔ s ∈ sys.shInv ∧ ShadowStep sys.shadowXn sys.proj s t := by
  simp only [Sys.live, projX, mem_restr, Finset.mem_filter, Finset.mem_univ, true_and, ShadowStep]
  tauto

theorem mem_dom_live {sys : Sys σ τ} {s : σ} :
    s ∈ dom sys.live ↔ s ∈ sys.shInv ∧ ShadowEnabled sys.shadowXn sys.proj s := by
  rw [mem_dom]
  constructor
  · rintro ⟨t, ht⟩
    obtain ⟨h1, e, he, h2, _⟩ := mem_live.1 ht
    exact ⟨h1, e, he, h2⟩
  · rintro ⟨h1, e, he, h2⟩
    exact ⟨e.2, mem_live.2 ⟨h1, e, he, h2, rfl⟩⟩

/-- The non-progress check terminates and is exact. -/
theorem nonProgress_spec {sys : Sys σ τ} (hid : ∀ e, e ∈ sys.identXn ↔ e.1 = e.2)
    (hnp : sys.probabilistic = false) {lo : Finset (σ × σ)} {A : Finset σ}
    (ps : List (Finset (σ × σ))) {fuel : ℕ} (hf : 2 * Fintype.card σ < fuel) :
    ∃ b, nonProgress fuel sys lo ps (sccOf lo A) = some b ∧
      (b = false ↔ NoStutter sys lo (sccOf lo A)) := by
  have hesc : ∀ s ∈ sccOf lo A ∩ dom sys.live, ∀ t, Step (lo ∩ sys.self) s t →
      t ∉ sccOf lo A ∩ dom sys.live → ∀ c, Reach (lo ∩ sys.self) t c →
      ¬ OnCycle (lo ∩ sys.self) c := by
    intro s hs t hst ht c htc hc
    obtain ⟨hs1, hs2⟩ := Finset.mem_inter.1 hs
    obtain ⟨hlo, hself⟩ := Finset.mem_inter.1 hst
    have hcyc : ∃ c, OnCycle lo c ∧ Reach lo t c :=
      ⟨c, onCycle_mono Finset.inter_subset_left hc, reach_mono Finset.inter_subset_left htc⟩
    have htscc : t ∈ sccOf lo A := by
      obtain ⟨⟨c', h1, h2, h3⟩, _⟩ := mem_sccOf.1 hs1
      exact mem_sccOf.2 ⟨⟨c', h1, h2, h3.tail hlo⟩, hcyc⟩
    have hnd : t ∉ dom sys.live := fun h => ht (Finset.mem_inter.2 ⟨htscc, h⟩)
    have hview := (mem_self hid).1 hself
    obtain ⟨_, e, he, hpe⟩ := mem_dom_live.1 hs2
    have hnsh : t ∉ sys.shInv := fun h =>
      hnd (mem_dom_live.2 ⟨h, e, he, hpe.trans hview.2⟩)
    have hstuck : ∀ u, ¬ Step (lo ∩ sys.self) t u := by
      intro u hu
      exact hnsh ((mem_self hid).1 (Finset.mem_inter.1 hu).2).1
    rcases Relation.ReflTransGen.cases_head htc with rfl | ⟨u, hu, _⟩
    · obtain ⟨d, hd, _⟩ := onCycle_succ hc
      exact hstuck d hd
    · exact hstuck u hu
  have hanti := imgN_anti_of_escape hesc
  obtain ⟨r, hr, hp⟩ := cycleCk_total none none (some (sccOf lo A ∩ dom sys.live)) hanti fuel
    (by omega)
  refine ⟨r.ret, by simp [nonProgress, hnp, hr], ?_⟩
  rcases hp with ⟨m, hm, _⟩ | ⟨k, G, hk, _, h1, h2, h3, _⟩
  · cases hm
  · simp only [Option.getD_some] at *
    have hiff : r.ret = true ↔ ∃ a ∈ sccOf lo A ∩ dom sys.live, ∃ c,
        Reach (lo ∩ sys.self) a c ∧ OnCycle (lo ∩ sys.self) c := by
      rw [h2, decide_eq_true_iff]
      constructor
      · rintro ⟨s, hs⟩
        obtain ⟨hs1, c, hc1, hc2⟩ := (h3 s).1 hs
        obtain ⟨a, ha, hac⟩ := fix_cycle_from hs1
        exact ⟨a, ha, c, hac.trans hc2, hc1⟩
      · rintro ⟨a, ha, c, hac, hc⟩
        -- the fixpoint is nonempty and each of its states is reachable from a cycle in it
        obtain ⟨s, hs⟩ := imgN_nonempty_of_cycle ha hac hc k
        obtain ⟨d, hd1, hd2, _⟩ := fix_from_cycle hk hs
        exact ⟨d, (h3 d).2 ⟨hd1, d, hd2, Relation.ReflTransGen.refl⟩⟩
    unfold NoStutter
    rw [← not_iff_not, Bool.not_eq_false, hiff]
    push Not
    constructor
    · rintro ⟨a, ha, c, h4, h5⟩
      exact ⟨a, (Finset.mem_inter.1 ha).1, (Finset.mem_inter.1 ha).2, c, h4, h5⟩
    · rintro ⟨a, ha, ha', c, h4, h5⟩
      exact ⟨a, Finset.mem_inter.2 ⟨ha, ha'⟩, c, h4, h5⟩

theorem expand_eq {sys : Sys σ τ} {lo hi : Finset (σ × σ)} {H : Finset σ} {fuel : ℕ}
    (hf : Fintype.card σ < fuel) : expand fuel sys lo hi H = some (expandOf sys lo hi H) := by
  unfold expand expandOf
  cases sys.style <;> simp [preReach_eq hf, closureWithin_eq hf]

theorem activeShadowOk_spec {sys : Sys σ τ} {lo hi : Finset (σ × σ)} {scc H : Finset σ} {fuel : ℕ}
    (hf : Fintype.card σ < fuel) :
    ∃ b, activeShadowOk fuel sys lo hi scc ⟨H, within (liveOf sys hi) H, within (selfOf sys hi) H⟩
        = some b ∧ (b = true ↔ ActOk sys lo hi scc H) := by
  unfold activeShadowOk
  split
  · next hb =>
    split
    · next hne =>
      refine ⟨false, rfl, ?_⟩
      simp only [Bool.false_eq_true, false_iff]
      intro hA
      obtain ⟨e, he⟩ := hne
      exact (hA hb).1 e (mem_restr.1 he).1 (mem_restr.1 he).2
    · next hne =>
      have hno : ∀ e ∈ lo ∩ sys.self, e.1 ∉ scc := by
        intro e he hs
        exact hne ⟨e, mem_restr.2 ⟨he, hs⟩⟩
      have hcl : Closed (actXn sys lo hi H) H := by
        intro s hs t hst
        exact (mem_within.1 (mem_restr.1 hst).1).2.2
      obtain ⟨r, hr, hp⟩ := cycleCk_closed hcl none none hf
      rcases hp with ⟨m, hm, _⟩ | ⟨h1, h2, _⟩
      · cases hm
      · unfold actXn at hr
        simp only [hr]
        split
        · next hret =>
          refine ⟨false, rfl, ?_⟩
          simp only [Bool.false_eq_true, false_iff]
          intro hA
          rw [h2, decide_eq_false_iff_not] at hret
          exact hret (hA hb).2.1
        · next hret =>
          rw [h2, decide_eq_false_iff_not, not_not] at hret
          obtain ⟨b, n, hb1, hb2⟩ := weakConv4_none (xn := hi) (A := H)
            (I := sccOf (actXn sys lo hi H) H) none (Or.inl rfl) hf
          refine ⟨b, ?_, ?_⟩
          · rw [h1]; simp [hb1]
          · rw [hb2]
            exact ⟨fun h _ => ⟨hno, hret, h⟩, fun h => (h hb).2.2⟩
  · next hb => exact ⟨true, rfl, by simp only [true_iff]; intro h; exact absurd h hb⟩

/-- `shadow_ck` terminates without abort, and accepts exactly under `ShAccept`. -/
theorem shadowCk_spec {sys : Sys σ τ} {lo hi : Finset (σ × σ)} {scc : Finset σ}
    {ps : List (Finset (σ × σ))} (hps : PsOk sys lo ps) {fuel : ℕ}
    (hf : Fintype.card σ + 1 < fuel)
    (hnpr : ¬ (sys.shadowPuppet = false ∧ sys.scope ≠ .future) →
      ∃ b, nonProgress fuel sys lo ps scc = some b ∧ (b = false ↔ NS sys lo ps scc)) :
    ∃ v, shadowCk fuel sys lo hi ps scc = some v ∧ v ≠ .abort ∧
      ∀ I, v = .accept I ↔ ShAccept sys lo hi ps scc I := by
  have hf1 : Fintype.card σ < fuel := by omega
  have hcoAll : ∀ H, ∃ b, cycleOutside fuel sys lo ps scc H = some b ∧
      (b = false ↔ CO sys ps scc H) := by
    intro H
    unfold cycleOutside CO
    cases hp : sys.probabilistic with
    | false =>
      refine ⟨decide (¬ scc ⊆ H), by simp, ?_⟩
      rw [decide_eq_false_iff_not, not_not]; simp
    | true =>
      obtain ⟨X, hX, hX1, hX2⟩ := probLivelock_spec (hps hp) (scc \ H) ∅ hf
      refine ⟨decide X.Nonempty, by simp [hX], ?_⟩
      rw [decide_eq_false_iff_not, Finset.not_nonempty_iff_eq_empty]
      simp only [if_true]
      constructor
      · intro h Z hZ; exact Finset.subset_empty.1 (h ▸ hX2 Z hZ)
      · intro h; exact h X hX1
  unfold shadowCk ShAccept
  split
  · next h => exact ⟨.reject, rfl, by simp, fun I => ⟨fun h => (by cases h), fun h' => absurd h h'.1⟩⟩
  · next hsil =>
    split
    · next hd =>
      obtain ⟨h1, h2⟩ := shadowDirect_spec sys lo hi
      refine ⟨_, rfl, h2, fun I => ?_⟩
      rw [h1]
      constructor
      · rintro ⟨h3, h4⟩; exact ⟨hsil, Or.inl ⟨hd.1, hd.2, h3, h4⟩⟩
      · rintro ⟨_, ⟨_, _, h3, h4⟩ | ⟨h3, _⟩⟩
        · exact ⟨h3, h4⟩
        · exact absurd hd h3
    · next hd =>
      obtain ⟨b, hb, hb'⟩ := hnpr hd
      obtain ⟨H, hH, hfix, hmax⟩ := shLoop_total (lo := lo) (L := liveOf sys hi) (S := selfOf sys hi)
        (T := candOf sys lo hi) (beg := sys.shInv \ rng sys.live) (fin := sys.shInv \ dom sys.live) hf1
      have hIsH : IsH sys lo hi H := ⟨hfix, hmax⟩
      rw [hb]
      cases b with
      | true =>
        refine ⟨.reject, rfl, by simp, fun I => ⟨fun h => (by cases h), ?_⟩⟩
        rintro ⟨_, ⟨h3, h4, _⟩ | ⟨_, H', hg⟩⟩
        · exact absurd ⟨h3, h4⟩ hd
        · have := hb'.2 hg.noStutter; cases this
      | false =>
        have hns := hb'.1 rfl
        simp only [shInit_eq, hH]
        obtain ⟨ba, hba, hba'⟩ := activeShadowOk_spec (sys := sys) (lo := lo) (hi := hi)
          (scc := scc) (H := H) hf1
        have hnoabort : restr lo H ⊆ within (liveOf sys hi) H ∪ within (selfOf sys hi) H := by
          intro e he
          obtain ⟨h1, h2⟩ := mem_restr.1 he
          have h3 := (Finset.mem_sdiff.1 (hfix.sub h2)).2
          have h4 : e ∈ liveOf sys hi ∪ selfOf sys hi := by
            by_contra hc
            exact h3 (mem_dom.2 ⟨e.2, Finset.mem_sdiff.2 ⟨h1, hc⟩⟩)
          have h5 : e.2 ∈ H := hfix.closed e.1 h2 e.2 h1
          rcases Finset.mem_union.1 h4 with h | h
          · exact Finset.mem_union_left _ (mem_within.2 ⟨h, h2, h5⟩)
          · exact Finset.mem_union_right _ (mem_within.2 ⟨h, h2, h5⟩)
        have hgen : ∀ I, (¬ (sys.behav = .silent ∧ scc.Nonempty) ∧
            ((sys.shadowPuppet = false ∧ sys.scope ≠ .future ∧ DirectOk sys lo hi ∧ I = sys.shInv) ∨
            (¬ (sys.shadowPuppet = false ∧ sys.scope ≠ .future) ∧
              ∃ H, GeneralOk sys lo hi ps scc H I))) ↔ GeneralOk sys lo hi ps scc H I := by
          intro I
          constructor
          · rintro ⟨_, ⟨h3, h4, _⟩ | ⟨_, H', hg⟩⟩
            · exact absurd ⟨h3, h4⟩ hd
            · rw [hIsH.unique hg.isH]; exact hg
          · intro hg; exact ⟨hsil, Or.inr ⟨hd, H, hg⟩⟩
        simp only [hgen]
        unfold shTail
        simp only
        rw [if_neg (not_not.2 hnoabort)]
        have hrej : ∀ {P : Prop}, (∀ I, GeneralOk sys lo hi ps scc H I → P) → ¬ P →
            ∃ v, some (Verdict.reject : Verdict (Finset σ)) = some v ∧ v ≠ .abort ∧
              ∀ I, v = .accept I ↔ GeneralOk sys lo hi ps scc H I := by
          intro P h1 h2
          exact ⟨.reject, rfl, by simp, fun I => ⟨fun h => (by cases h), fun h => absurd (h1 I h) h2⟩⟩
        split
        · next h =>
          exact hrej (fun I hg => hg.future h.1) (by rw [h.2]; simp)
        · next h1 =>
          split
          · next h => exact hrej (fun I hg => hg.projP h.1) h.2
          · next h2 =>
            split
            · next h => exact hrej (fun I hg => hg.projX h.1) h.2
            · next h3 =>
              obtain ⟨bc, hbc, hbc'⟩ := hcoAll H
              rw [hbc]
              cases bc with
              | false =>
                have hss := hbc'.1 rfl
                simp only
                rw [hba]
                cases ba with
                | false =>
                  refine hrej (fun I hg => hg.act) ?_
                  intro h; have := hba'.2 h; cases this
                | true =>
                  have hact := hba'.1 rfl
                  simp only [expand_eq hf1]
                  split
                  · next h =>
                    exact hrej (fun I hg => hg.final ▸ hg.direct h.1) h.2
                  · next h4 =>
                    refine ⟨_, rfl, by simp, fun I => ⟨?_, ?_⟩⟩
                    · intro hI
                      cases hI
                      refine ⟨hns, hIsH, ?_, ?_, ?_, hss, hact, rfl, ?_⟩
                      · intro hs
                        rw [Finset.nonempty_iff_ne_empty]
                        intro he; exact h1 ⟨hs, he⟩
                      · intro hs; by_contra hc; exact h2 ⟨hs, hc⟩
                      · intro hs; by_contra hc; exact h3 ⟨hs, hc⟩
                      · intro hs; by_contra hc; exact h4 ⟨hs, hc⟩
                    · intro hg; rw [hg.final]
              | true =>
                refine hrej (fun I hg => hg.scc_sub) ?_
                intro h; have := hbc'.2 h; cases this

/-! ### Exact description of `stabilization_ck` -/

/-- The set handed to the layer counter. -/
def StabOpt.layerInv (opt : StabOpt) (sys : Sys σ τ) : Option (Finset σ) :=
  if opt.countConvergenceLayers then some sys.invariant else none

/-- Conditions under which `stabilization_ck` returns true with invariant `I`, when the cycle
computation yields the set `scc`. -/
structure StabAcceptG (sys : Sys σ τ) (lo hi : Finset (σ × σ)) (ps : List (Finset (σ × σ)))
    (scc I : Finset σ) : Prop where
  nonempty : sys.shInv.Nonempty
  noSelf : sys.probabilistic = false → ∀ e ∈ lo, e ∈ sys.identXn → e.1 ∉ sys.closedAssume
  closedA : Closed lo sys.closedAssume
  deadlock : ∀ s ∈ sys.closedAssume, s ∉ sys.invariant → s ∈ dom hi
  scc_inv : scc ⊆ sys.invariant
  shadow : ShAccept sys lo hi ps scc I
  deadlock' : ∀ s ∈ sys.closedAssume, s ∉ I → s ∈ dom hi
  weak : lo ≠ hi → ∀ s ∈ sys.closedAssume, ∃ t ∈ I, ReachIn hi sys.closedAssume s t

theorem stabCk_specG {sys : Sys σ τ} {opt : StabOpt} {lo hi : Finset (σ × σ)}
    {ps : List (Finset (σ × σ))} (hps : PsOk sys lo ps) {fuel : ℕ} (hf : Fintype.card σ + 1 < fuel)
    (hcyc : Closed lo sys.closedAssume → ∃ scc n, stabCycles fuel sys opt lo ps = some (.ok (scc, n)) ∧
      (¬ (sys.shadowPuppet = false ∧ sys.scope ≠ .future) →
      ∃ b, nonProgress fuel sys lo ps scc = some b ∧ (b = false ↔ NS sys lo ps scc))) :
    ∃ v, stabCk fuel sys opt lo hi ps = some v ∧ v ≠ .abort ∧
      ∀ I n, v = .accept (I, n) ↔
        ∃ scc, stabCycles fuel sys opt lo ps = some (.ok (scc, n)) ∧
          (opt.maxNlayers = 0 ∨ n ≤ opt.maxNlayers) ∧ StabAcceptG sys lo hi ps scc I := by
  have hf1 : Fintype.card σ < fuel := by omega
  have hrej : ∀ {P : Prop}, (∀ I n scc, stabCycles fuel sys opt lo ps = some (.ok (scc, n)) →
        (opt.maxNlayers = 0 ∨ n ≤ opt.maxNlayers) → StabAcceptG sys lo hi ps scc I → P) → ¬ P →
      ∃ v, some (Verdict.reject : Verdict (Finset σ × ℕ)) = some v ∧ v ≠ .abort ∧
        ∀ I n, v = .accept (I, n) ↔ ∃ scc, stabCycles fuel sys opt lo ps = some (.ok (scc, n)) ∧
          (opt.maxNlayers = 0 ∨ n ≤ opt.maxNlayers) ∧ StabAcceptG sys lo hi ps scc I := by
    intro P h1 h2
    exact ⟨.reject, rfl, by simp, fun I n => ⟨fun h => (by cases h),
      fun ⟨scc, h3, h4, h5⟩ => absurd (h1 I n scc h3 h4 h5) h2⟩⟩
  unfold stabCk
  split
  · next h =>
    refine hrej (fun I n _ _ _ h => h.nonempty) ?_
    rw [Sys.shInv, h]; simp
  · next hne =>
    split
    · next h =>
      obtain ⟨hnp, e, he⟩ := h
      obtain ⟨h1, h2⟩ := mem_restr.1 he
      obtain ⟨h3, h4⟩ := Finset.mem_inter.1 h1
      exact hrej (fun I n _ _ _ h => h.noSelf hnp e h3 h4) (not_not.2 h2)
    · next hns =>
      have hns' : sys.probabilistic = false →
          ∀ e ∈ lo, e ∈ sys.identXn → e.1 ∉ sys.closedAssume := by
        intro hnp e h1 h2 h3
        exact hns ⟨hnp, e, mem_restr.2 ⟨Finset.mem_inter.2 ⟨h1, h2⟩, h3⟩⟩
      split
      · next h =>
        obtain ⟨_, t, ht⟩ := h
        obtain ⟨h1, h2⟩ := Finset.mem_sdiff.1 ht
        obtain ⟨s, hs, hst⟩ := mem_img.1 h1
        exact hrej (fun I n _ _ _ h => h.closedA s hs t hst) h2
      · next hcl =>
        have hcl' : Closed lo sys.closedAssume := by
          intro s hs t hst
          by_contra hc
          apply hcl
          refine ⟨?_, t, Finset.mem_sdiff.2 ⟨mem_img.2 ⟨s, hs, hst⟩, hc⟩⟩
          intro h; rw [h] at hc; simp at hc
        split
        · next h =>
          refine hrej (fun I n _ _ _ h => h.deadlock) ?_
          intro h'
          apply h
          intro s hs
          obtain ⟨h1, h2⟩ := Finset.mem_inter.1 hs
          exact h' s h2 (by simpa using h1)
        · next hdl =>
          rw [not_not] at hdl
          have hdl' : ∀ s ∈ sys.closedAssume, s ∉ sys.invariant → s ∈ dom hi := by
            intro s hs hs'
            exact hdl (Finset.mem_inter.2 ⟨by simpa using hs', hs⟩)
          obtain ⟨scc, nl, hc, hnpr⟩ := hcyc hcl'
          have hun : ∀ scc' n', stabCycles fuel sys opt lo ps = some (.ok (scc', n')) →
              scc' = scc ∧ n' = nl := by
            intro scc' n' h'
            rw [hc] at h'
            cases h'; exact ⟨rfl, rfl⟩
          rw [hc] at hrej ⊢
          simp only
          split
          · next h =>
            refine hrej (P := opt.maxNlayers = 0 ∨ nl ≤ opt.maxNlayers) ?_ (by omega)
            intro I n scc' h1 h2 _
            cases h1; exact h2
          · next hnl =>
            split
            · next h =>
              refine hrej (P := scc ⊆ sys.invariant) ?_ h
              intro I n scc' h1 _ h3
              cases h1; exact h3.scc_inv
            · next hscc =>
              rw [not_not] at hscc
              obtain ⟨v, hv, hv1, hv2⟩ := shadowCk_spec (hi := hi) hps hf hnpr
              rw [hv]
              cases v with
              | abort => exact absurd rfl hv1
              | reject =>
                refine hrej (P := ∃ I, ShAccept sys lo hi ps scc I) ?_ ?_
                · intro I n scc' h1 _ h3
                  cases h1; exact ⟨I, h3.shadow⟩
                · rintro ⟨I, hI⟩
                  have := (hv2 I).2 hI; cases this
              | accept J =>
                have hJ := (hv2 J).1 rfl
                have hJu : ∀ I, StabAcceptG sys lo hi ps scc I → I = J := by
                  intro I h
                  have := (hv2 I).2 h.shadow
                  cases this; rfl
                simp only
                split
                · next h =>
                  refine hrej (P := ∀ s ∈ sys.closedAssume, s ∉ J → s ∈ dom hi) ?_ ?_
                  · intro I n scc' h1 _ h3
                    cases h1
                    have := hJu I h3
                    subst this; exact h3.deadlock'
                  · intro h'
                    apply h
                    intro s hs
                    obtain ⟨h1, h2⟩ := Finset.mem_inter.1 hs
                    exact h' s h2 (by simpa using h1)
                · next hdl2 =>
                  rw [not_not] at hdl2
                  have hdl2' : ∀ s ∈ sys.closedAssume, s ∉ J → s ∈ dom hi := by
                    intro s hs hs'
                    exact hdl2 (Finset.mem_inter.2 ⟨by simpa using hs', hs⟩)
                  have hok : (lo ≠ hi → ∀ s ∈ sys.closedAssume, ∃ t ∈ J,
                        ReachIn hi sys.closedAssume s t) →
                      StabAcceptG sys lo hi ps scc J := by
                    intro hw
                    exact ⟨Finset.nonempty_iff_ne_empty.2 hne, hns', hcl', hdl', hscc, hJ, hdl2', hw⟩
                  have hacc : StabAcceptG sys lo hi ps scc J →
                      ∃ v, some (Verdict.accept (J, nl)) = some v ∧ v ≠ .abort ∧
                        ∀ I n, v = .accept (I, n) ↔
                          ∃ scc', some (Claimed.ok (scc, nl)) = some (Claimed.ok (scc', n)) ∧
                          (opt.maxNlayers = 0 ∨ n ≤ opt.maxNlayers) ∧
                          StabAcceptG sys lo hi ps scc' I := by
                    intro h
                    refine ⟨_, rfl, by simp, fun I n => ⟨?_, ?_⟩⟩
                    · intro h'; cases h'; exact ⟨scc, rfl, by omega, h⟩
                    · rintro ⟨scc', h1, h2, h3⟩
                      cases h1
                      rw [hJu I h3]
                  split
                  · next hne' =>
                    obtain ⟨b, n, hb, hb'⟩ := weakConv4_none (xn := hi) (A := sys.closedAssume)
                      (I := J) (some 0) (Or.inr rfl) hf1
                    rw [hb]
                    cases b with
                    | true => exact hacc (hok fun _ => hb'.1 rfl)
                    | false =>
                      refine hrej (P := ∀ s ∈ sys.closedAssume, ∃ t ∈ J,
                        ReachIn hi sys.closedAssume s t) ?_ ?_
                      · intro I n scc' h1 _ h3
                        cases h1
                        have := hJu I h3
                        subst this; exact h3.weak hne'
                      · intro h; have := hb'.2 h; cases this
                  · next heq =>
                    exact hacc (hok fun h => absurd h heq)

/-- Layer count of the general cycle check. -/
def Layers (sys : Sys σ τ) (opt : StabOpt) (lo : Finset (σ × σ)) (n : ℕ) : Prop :=
  ∃ k, Stop lo (opt.layerInv sys) sys.closedAssume k ∧
    (∀ j < k, ¬ Stop lo (opt.layerInv sys) sys.closedAssume j) ∧ n = k + 1 ∧
    (opt.maxNlayers = 0 ∨ k + 1 ≤ opt.maxNlayers)

/-- Non-probabilistic systems with the general cycle check: termination, absence of assertion
failures, and the exact acceptance condition. -/
theorem stabCk_spec {sys : Sys σ τ} (hid : ∀ e, e ∈ sys.identXn ↔ e.1 = e.2)
    (hnp : sys.probabilistic = false) {opt : StabOpt} (hnu : opt.uniring = false)
    {lo hi : Finset (σ × σ)} (ps : List (Finset (σ × σ))) {fuel : ℕ}
    (hf : 2 * Fintype.card σ + 1 < fuel) :
    ∃ v, stabCk fuel sys opt lo hi ps = some v ∧ v ≠ .abort ∧
      ∀ I n, v = .accept (I, n) ↔ Layers sys opt lo n ∧
        StabAcceptG sys lo hi ps (sccOf lo sys.closedAssume) I := by
  have hcy : Closed lo sys.closedAssume → ∃ r, cycleCk fuel lo (some opt.maxNlayers)
      (opt.layerInv sys) (some sys.closedAssume) = some r ∧
      stabCycles fuel sys opt lo ps = some (.ok (r.scc.getD ∅, r.nlayers)) ∧
      ((0 < opt.maxNlayers ∧ r = ⟨false, none, opt.maxNlayers + 1⟩ ∧
        ∀ j < opt.maxNlayers, ¬ Stop lo (opt.layerInv sys) sys.closedAssume j) ∨
       (r.scc = some (sccOf lo sys.closedAssume) ∧ Layers sys opt lo r.nlayers)) := by
    intro hcl
    obtain ⟨r, hr, hp⟩ := cycleCk_closed hcl (opt.layerInv sys) (some opt.maxNlayers)
      (fuel := fuel) (by omega)
    refine ⟨r, hr, ?_, ?_⟩
    · unfold stabCycles
      rw [hnp, hnu]
      simp only [Bool.false_eq_true, if_false]
      unfold StabOpt.layerInv at hr
      rw [hr]; rfl
    · rcases hp with ⟨m, hm, h0, hrr, hst⟩ | ⟨h1, h2, h3⟩
      · cases hm; exact Or.inl ⟨h0, hrr, hst⟩
      · obtain ⟨k0, hk0, hk1, hk2, hk3⟩ := h3 _ rfl
        exact Or.inr ⟨h1, k0, hk0, hk1, hk2, hk3⟩
  have hns : ∀ scc, scc = ∅ ∨ scc = sccOf lo sys.closedAssume →
      ∃ b, nonProgress fuel sys lo ps scc = some b ∧ (b = false ↔ NS sys lo ps scc) := by
    rintro scc (rfl | rfl)
    · have h0 := nonProgress_spec (A := (∅ : Finset σ)) (lo := lo) hid hnp ps (fuel := fuel) (by omega)
      have he : sccOf lo (∅ : Finset σ) = ∅ := by ext s; simp [mem_sccOf]
      rw [he] at h0
      simpa [NS, hnp] using h0
    · have h0 := nonProgress_spec (A := sys.closedAssume) (lo := lo) hid hnp ps (fuel := fuel) (by omega)
      simpa [NS, hnp] using h0
  obtain ⟨v, hv, hv1, hv2⟩ := stabCk_specG (sys := sys) (opt := opt) (lo := lo) (hi := hi) (ps := ps)
    (fuel := fuel) (by intro h; rw [hnp] at h; cases h) (by omega) (by
      intro hcl
      obtain ⟨r, hr, hc, hp⟩ := hcy hcl
      refine ⟨_, _, hc, fun _ => hns _ ?_⟩
      rcases hp with ⟨_, rfl, _⟩ | ⟨h1, _⟩
      · left; rfl
      · right; rw [h1]; rfl)
  refine ⟨v, hv, hv1, fun I n => ?_⟩
  rw [hv2]
  constructor
  · rintro ⟨scc, h1, h2, h3⟩
    obtain ⟨r, hr, hc, hp⟩ := hcy h3.closedA
    rw [hc] at h1
    cases h1
    rcases hp with ⟨h0, rfl, _⟩ | ⟨h4, h5⟩
    · simp only at h2; omega
    · rw [h4] at h3
      exact ⟨h5, h3⟩
  · rintro ⟨h1, h2⟩
    obtain ⟨r, hr, hc, hp⟩ := hcy h2.closedA
    obtain ⟨k, hk1, hk2, hk3, hk4⟩ := h1
    rcases hp with ⟨h0, rfl, hst⟩ | ⟨h4, k', hk1', hk2', hk3', _⟩
    · exact absurd hk1 (hst k (by omega))
    · have hkk : k = k' := by
        rcases Nat.lt_trichotomy k k' with h | h | h
        · exact absurd hk1 (hk2' k h)
        · exact h
        · exact absurd hk1' (hk2 k' h)
      subst hkk
      refine ⟨sccOf lo sys.closedAssume, ?_, by omega, h2⟩
      rw [hc, h4, hk3', hk3]; rfl

end Verif.Model
