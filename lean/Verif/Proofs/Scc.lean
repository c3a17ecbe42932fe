import Mathlib.Data.List.TakeWhile
import Verif.Model.Graph
import Verif.Proofs.Cycle

/-! Helper lemmas: strongly connected components. -/

set_option linter.unusedSectionVars false

namespace Verif.Model
open Verif.Spec

universe u
variable {σ : Type u} [Fintype σ] [DecidableEq σ]

/-! ### Paths inside a set -/

theorem reachIn_refl {E : Finset (σ × σ)} {V : Finset σ} {s : σ} (h : s ∈ V) : ReachIn E V s s := ⟨h, .refl⟩

theorem reachIn_trans {E : Finset (σ × σ)} {V : Finset σ} {s t u : σ} (h1 : ReachIn E V s t) (h2 : ReachIn E V t u) :
    ReachIn E V s u := ⟨h1.1, h1.2.trans h2.2⟩

theorem reachIn_single {E : Finset (σ × σ)} {V : Finset σ} {s t : σ} (h1 : s ∈ V) (h2 : t ∈ V) (h : (s, t) ∈ E) :
    ReachIn E V s t := ⟨h1, .single ⟨h, h2⟩⟩

theorem reachIn_right {E : Finset (σ × σ)} {V : Finset σ} {s t : σ} (h : ReachIn E V s t) : t ∈ V := by
  obtain ⟨h1, h2⟩ := h
  induction h2 with
  | refl => exact h1
  | tail _ h _ => exact h.2

theorem reachIn_sub {E : Finset (σ × σ)} {V W : Finset σ} (hW : W ⊆ V) {s t : σ} (h : ReachIn E W s t) :
    ReachIn E V s t :=
  ⟨hW h.1, Relation.ReflTransGen.mono (fun _ _ hab => ⟨hab.1, hW hab.2⟩) _ _ h.2⟩

/-- A set that contains the next state of every path in `V` contains the paths. -/
theorem reachIn_closed {E : Finset (σ × σ)} {V W : Finset σ} (hc : ∀ s ∈ W, ∀ t ∈ V, (s, t) ∈ E → t ∈ W) {s t : σ}
    (hs : s ∈ W) (h : ReachIn E V s t) : ReachIn E W s t := by
  obtain ⟨_, h2⟩ := h
  induction h2 with
  | refl => exact reachIn_refl hs
  | tail _ h ih =>
    have hb := reachIn_right ih
    exact ⟨hs, ih.2.tail ⟨h.1, hc _ hb _ h.2 h.1⟩⟩

/-- Each reaches the other inside `V`. -/
def Mutual (E : Finset (σ × σ)) (V : Finset σ) (s t : σ) : Prop := ReachIn E V s t ∧ ReachIn E V t s

/-- `s` is in a component with another state. -/
def Nontrivial (E : Finset (σ × σ)) (V : Finset σ) (s : σ) : Prop := ∃ t, t ≠ s ∧ Mutual E V s t

theorem Mutual.symm {E : Finset (σ × σ)} {V : Finset σ} {s t : σ} (h : Mutual E V s t) : Mutual E V t s := ⟨h.2, h.1⟩

theorem Mutual.trans {E : Finset (σ × σ)} {V : Finset σ} {s t u : σ} (h : Mutual E V s t) (h' : Mutual E V t u) :
    Mutual E V s u := ⟨reachIn_trans h.1 h'.1, reachIn_trans h'.2 h.2⟩

/-- All states of a closed walk are in the component. -/
theorem mutual_path {E : Finset (σ × σ)} {V W : Finset σ} (hsat : ∀ s ∈ W, ∀ t, Mutual E V s t → t ∈ W) {s t : σ}
    (hs : s ∈ W) (h : Mutual E V s t) : ReachIn E W s t := by
  obtain ⟨⟨h1, h2⟩, h3⟩ := h
  induction h2 with
  | refl => exact reachIn_refl hs
  | @tail b c hb hbc ih =>
    have h4 : ReachIn E V b s := reachIn_trans (reachIn_single (reachIn_right ⟨h1, hb⟩) hbc.2 hbc.1) h3
    have h5 := ih h4
    have h6 : ReachIn E V s c := ⟨h1, hb.tail hbc⟩
    exact ⟨hs, h5.2.tail ⟨hbc.1, hsat s hs c ⟨h6, h3⟩⟩⟩

theorem nontrivial_iff {E : Finset (σ × σ)} {V W : Finset σ} (hW : W ⊆ V)
    (hsat : ∀ s ∈ W, ∀ t, Mutual E V s t → t ∈ W) {s : σ} (hs : s ∈ W) : Nontrivial E W s ↔ Nontrivial E V s := by
  constructor
  · rintro ⟨t, ht, h⟩
    exact ⟨t, ht, reachIn_sub hW h.1, reachIn_sub hW h.2⟩
  · rintro ⟨t, ht, h⟩
    exact ⟨t, ht, mutual_path hsat hs h, mutual_path hsat (hsat s hs t h) h.symm⟩

/-! ### Spines -/

/-- A path, its last state first, without shortcuts. -/
def Spine (E : Finset (σ × σ)) : List σ → Prop
  | [] => True
  | a :: l => (∀ b, l.head? = some b → (b, a) ∈ E) ∧ (∀ c ∈ l.tail, (c, a) ∉ E) ∧ a ∉ l ∧ Spine E l

theorem Spine.right {E : Finset (σ × σ)} {l2 : List σ} : ∀ {l1 : List σ}, Spine E (l1 ++ l2) → Spine E l2
  | [], h => h
  | _ :: l1, h => Spine.right (l1 := l1) h.2.2.2

theorem Spine.left {E : Finset (σ × σ)} {l2 : List σ} : ∀ {l1 : List σ}, Spine E (l1 ++ l2) → Spine E l1
  | [], _ => trivial
  | [a], _ => ⟨by simp, by simp, by simp, trivial⟩
  | a :: b :: l, h => by
    have ih := Spine.left (l1 := b :: l) h.2.2.2
    refine ⟨?_, ?_, ?_, ih⟩
    · intro c hc; exact h.1 c (by simpa using hc)
    · intro c hc; exact h.2.1 c (by simp at hc ⊢; exact .inl hc)
    · intro hm; exact h.2.2.1 (List.mem_append_left _ hm)

theorem Spine.concat {E : Finset (σ × σ)} {x y : σ} (hxy : (x, y) ∈ E) : ∀ {l : List σ}, Spine E (l ++ [y]) →
    (∀ a ∈ l, (x, a) ∉ E) → x ∉ l ++ [y] → Spine E (l ++ [y] ++ [x])
  | [], _, _, hx => by
    refine ⟨by simpa using hxy, by simp, ?_, by simp, by simp, by simp, trivial⟩
    intro h; simp at h; simp [h] at hx
  | a :: l, h, hl, hx => by
    have ih := Spine.concat hxy (l := l) h.2.2.2 (fun b hb => hl b (List.mem_cons_of_mem _ hb))
      (fun hm => hx (List.mem_cons_of_mem _ hm))
    refine ⟨?_, ?_, ?_, ih⟩
    · intro b hb
      apply h.1 b
      cases l <;> simpa using hb
    · intro c hc
      have : c ∈ (l ++ [y]).tail ∨ c = x := by
        cases l with
        | nil => right; simpa using hc
        | cons d l =>
          have hc' : c ∈ l ++ [y] ++ [x] := hc
          rcases List.mem_append.1 hc' with h1 | h1
          · exact Or.inl h1
          · exact Or.inr (by simpa using h1)
      rcases this with h1 | h1
      · exact h.2.1 c h1
      · subst h1; exact hl a List.mem_cons_self
    · intro hm
      rcases List.mem_append.1 hm with hm | hm
      · exact h.2.2.1 hm
      · rw [List.mem_singleton] at hm; subst hm; exact hx List.mem_cons_self

theorem Spine.reach {E : Finset (σ × σ)} {V : Finset σ} : ∀ {l : List σ} {a : σ}, Spine E (a :: l) →
    (∀ x ∈ a :: l, x ∈ V) → ∀ y ∈ a :: l, ReachIn E V y a
  | [], a, _, hV, y, hy => by
    rw [List.mem_singleton] at hy; subst hy; exact reachIn_refl (hV _ List.mem_cons_self)
  | b :: l, a, h, hV, y, hy => by
    rcases List.mem_cons.1 hy with rfl | hy
    · exact reachIn_refl (hV _ List.mem_cons_self)
    · have ih := Spine.reach h.2.2.2 (fun x hx => hV x (List.mem_cons_of_mem _ hx)) y hy
      exact reachIn_trans ih (reachIn_single (hV b (by simp)) (hV a (by simp)) (h.1 b rfl))

theorem Spine.noSkip {E : Finset (σ × σ)} {b y : σ} : ∀ {l1 l2 : List σ}, Spine E (l1 ++ b :: l2) → y ∈ l2 →
    ∀ a ∈ l1, (y, a) ∉ E
  | a :: l1, l2, h, hy, c, hc => by
    rcases List.mem_cons.1 hc with rfl | hc
    · apply h.2.1 y
      cases l1 with
      | nil => simpa using hy
      | cons d l1 => simp [hy]
    · exact Spine.noSkip h.2.2.2 hy c hc

theorem Spine.link {E : Finset (σ × σ)} {b : σ} : ∀ {l1 l2 : List σ}, Spine E (l1 ++ b :: l2) → l1 ≠ [] →
    ∃ a ∈ l1, (b, a) ∈ E
  | [a], _, h, _ => ⟨a, by simp, h.1 b rfl⟩
  | a :: d :: l1, l2, h, _ => by
    obtain ⟨c, hc, hh⟩ := Spine.link (l1 := d :: l1) h.2.2.2 (by simp)
    exact ⟨c, List.mem_cons_of_mem _ hc, hh⟩

/-! ### The forward set and its skeleton -/

/-- LayersBack of a breadth first search, the last one first. -/
def LayersBack (E : Finset (σ × σ)) : List (Finset σ) → Prop
  | [] => True
  | L :: l => (∀ M, l.head? = some M → ∀ y ∈ L, ∃ x ∈ M, (x, y) ∈ E) ∧ (∀ N ∈ l.tail, ∀ x ∈ N, ∀ y ∈ L, (x, y) ∉ E) ∧
      (∀ N ∈ l, ∀ x ∈ N, x ∉ L) ∧ LayersBack E l

/-- `pick_pre` returns a single state of a nonempty set. -/
def PicksOne (pick : Finset σ → Finset σ) : Prop := ∀ X : Finset σ, X.Nonempty → ∃ x ∈ X, pick X = {x}

/-- Invariant of the first loop of `Skel_Forward`. -/
structure SkelInv (E : Finset (σ × σ)) (V : Finset σ) (v : σ) (st : List (Finset σ) × Finset σ × Finset σ) : Prop where
  layers : LayersBack E (st.2.2 :: st.1)
  ne : ∀ L ∈ st.1, L.Nonempty
  fw : ∀ x, x ∈ st.2.1 ↔ ∃ L ∈ st.1, x ∈ L
  closed : ∀ s ∈ st.2.1, ∀ t ∈ V, (s, t) ∈ E → t ∈ st.2.1 ∪ st.2.2
  sound : ∀ x ∈ st.2.1 ∪ st.2.2, ReachIn E V v x
  start : v ∈ st.2.1 ∪ st.2.2
  fresh : ∀ x ∈ st.2.2, x ∉ st.2.1

theorem skel_loop {E : Finset (σ × σ)} {V : Finset σ} {v : σ} (hv : v ∈ V) (fuel : ℕ) (hf : V.card < fuel) :
    ∃ r, loopFuel (skelBody V E) fuel ([], ∅, {v}) = some r ∧ LayersBack E r.1 ∧ (∀ L ∈ r.1, L.Nonempty) ∧
      (∀ x, x ∈ r.2 ↔ ∃ L ∈ r.1, x ∈ L) ∧ (∀ x, x ∈ r.2 ↔ ReachIn E V v x) := by
  have key := loopFuel_total (body := skelBody V E) (SkelInv E V v)
    (fun r => LayersBack E r.1 ∧ (∀ L ∈ r.1, L.Nonempty) ∧
      (∀ x, x ∈ r.2 ↔ ∃ L ∈ r.1, x ∈ L) ∧ (∀ x, x ∈ r.2 ↔ ReachIn E V v x))
    (fun st => (V \ st.2.1).card) ?_ ?_ fuel ([], ∅, {v}) ?_ ?_
  · exact key
  · rintro ⟨stack, fw, level⟩ r h hb
    unfold skelBody at hb
    split at hb
    · next hl =>
      simp only at hl; subst hl; cases hb
      refine ⟨h.layers.2.2.2, h.ne, h.fw, ?_⟩
      have hc := h.closed
      have hs := h.sound
      have hst := h.start
      simp only [Finset.union_empty] at hc hs hst
      intro x
      exact ⟨hs x, fun hx => reachIn_right (reachIn_closed hc hst hx)⟩
    · cases hb
  · rintro ⟨stack, fw, level⟩ st' h hb
    unfold skelBody at hb
    split at hb
    · cases hb
    · next hl =>
      cases hb
      simp only at hl
      have hlV : ∀ x ∈ level, x ∈ V := fun x hx => reachIn_right (h.sound x (Finset.mem_union_right _ hx))
      refine ⟨⟨⟨?_, ?_, ?_, h.layers⟩, ?_, ?_, ?_, ?_, ?_, ?_⟩, ?_⟩
      · intro M hM y hy
        simp only [List.head?_cons, Option.some.injEq] at hM
        subst hM
        simp only [Finset.mem_sdiff, Finset.mem_inter, mem_img] at hy
        exact hy.1.2
      · intro N hN x hx y hy hxy
        simp only [List.tail_cons] at hN
        simp only [Finset.mem_sdiff, Finset.mem_inter] at hy
        exact hy.2 (h.closed x ((h.fw x).2 ⟨N, hN, hx⟩) y hy.1.1 hxy)
      · intro N hN x hx hy
        simp only [Finset.mem_sdiff] at hy
        apply hy.2
        rcases List.mem_cons.1 hN with rfl | hN
        · exact Finset.mem_union_right _ hx
        · exact Finset.mem_union_left _ ((h.fw x).2 ⟨N, hN, hx⟩)
      · intro L hL
        rcases List.mem_cons.1 hL with rfl | hL
        · exact Finset.nonempty_iff_ne_empty.2 hl
        · exact h.ne L hL
      · intro x
        have := h.fw x
        simp only at this
        simp only [Finset.mem_union, List.mem_cons, exists_eq_or_imp, this]
        exact or_comm
      · intro s hs t ht hst
        simp only at hs
        simp only [Finset.mem_union, Finset.mem_sdiff, Finset.mem_inter, mem_img]
        by_cases hm : t ∈ fw ∨ t ∈ level
        · exact .inl hm
        · right
          rcases Finset.mem_union.1 hs with hs | hs
          · exact absurd (by simpa using h.closed s hs t ht hst) hm
          · exact ⟨⟨ht, s, hs, hst⟩, hm⟩
      · intro x hx
        simp only at hx
        rcases Finset.mem_union.1 hx with hx | hx
        · exact h.sound x hx
        · simp only [Finset.mem_sdiff, Finset.mem_inter, mem_img] at hx
          obtain ⟨⟨hxV, s, hs, hsx⟩, _⟩ := hx
          exact reachIn_trans (h.sound s (Finset.mem_union_right _ hs)) (reachIn_single (hlV s hs) hxV hsx)
      · exact Finset.mem_union_left _ h.start
      · intro x hx; exact (Finset.mem_sdiff.1 hx).2
      · apply Finset.card_lt_card
        rw [Finset.ssubset_iff_of_subset]
        · obtain ⟨x, hx⟩ := Finset.nonempty_iff_ne_empty.2 hl
          exact ⟨x, Finset.mem_sdiff.2 ⟨hlV x hx, h.fresh x hx⟩, by simp [hx]⟩
        · intro x hx
          simp only [Finset.mem_sdiff, Finset.mem_union] at hx ⊢
          tauto
  · refine ⟨⟨by simp, by simp, by simp, trivial⟩, by simp, by simp, by simp, ?_, by simp, by simp⟩
    intro x hx
    simp at hx; subst hx; exact reachIn_refl hv
  · simpa using hf

theorem skeleton_spine {E : Finset (σ × σ)} {pick : Finset σ → Finset σ} (hp : PicksOne pick) :
    ∀ (rest : List (Finset σ)) (L : Finset σ) (l : List σ) (y : σ) (S : Finset σ),
    LayersBack E (L :: rest) → (∀ M ∈ L :: rest, M.Nonempty) → y ∈ L → Spine E (l ++ [y]) → S = (l ++ [y]).toFinset →
    (∀ N ∈ rest, ∀ x ∈ N, ∀ z ∈ l, (x, z) ∉ E) → (∀ N ∈ rest, ∀ x ∈ N, x ∉ l) →
    ∃ l', Spine E (l ++ [y] ++ l') ∧ skeleton pick E S rest = (l ++ [y] ++ l').toFinset ∧
      ∀ z ∈ l', ∃ N ∈ rest, z ∈ N := by
  intro rest
  induction rest with
  | nil =>
    intro L l y S _ _ _ h1 h2 _ _
    exact ⟨[], by simpa using h1, by simp [skeleton, h2], by simp⟩
  | cons M rest ih =>
    intro L l y S hL hne hy hsp hS hno hdis
    obtain ⟨w, hw, hwy⟩ := hL.1 M rfl y hy
    have hX : (pre E S ∩ M).Nonempty := by
      refine ⟨w, Finset.mem_inter.2 ⟨mem_pre.2 ⟨y, ?_, hwy⟩, hw⟩⟩
      rw [hS]; simp
    obtain ⟨x, hx, hpx⟩ := hp _ hX
    obtain ⟨hx1, hxM⟩ := Finset.mem_inter.1 hx
    obtain ⟨z, hz, hxz⟩ := mem_pre.1 hx1
    have hzy : z = y := by
      rw [hS] at hz
      simp only [List.mem_toFinset, List.mem_append, List.mem_singleton] at hz
      rcases hz with hz | hz
      · exact absurd hxz (hno M List.mem_cons_self x hxM z hz)
      · exact hz
    subst hzy
    have hxn : x ∉ l ++ [z] := by
      intro hm
      rcases List.mem_append.1 hm with hm | hm
      · exact hdis M List.mem_cons_self x hxM hm
      · rw [List.mem_singleton] at hm; subst hm
        exact hL.2.2.1 M List.mem_cons_self x hxM hy
    obtain ⟨l', a1, a2, a3⟩ := ih M (l ++ [z]) x (S ∪ {x}) hL.2.2.2
      (fun N hN => hne N (List.mem_cons_of_mem _ hN)) hxM
      (Spine.concat hxz hsp (hno M List.mem_cons_self x hxM) hxn)
      (by rw [hS]; ext a; simp)
      (by
        intro N hN a ha c hc
        rcases List.mem_append.1 hc with hc | hc
        · exact hno N (List.mem_cons_of_mem _ hN) a ha c hc
        · rw [List.mem_singleton] at hc; subst hc
          exact hL.2.1 N (by simpa using hN) a ha c hy)
      (by
        intro N hN a ha hm
        rcases List.mem_append.1 hm with hm | hm
        · exact hdis N (List.mem_cons_of_mem _ hN) a ha hm
        · rw [List.mem_singleton] at hm; subst hm
          exact hL.2.2.1 N (List.mem_cons_of_mem _ hN) a ha hy)
    refine ⟨x :: l', by simpa using a1, ?_, ?_⟩
    · have : skeleton pick E S (M :: rest) = skeleton pick E (S ∪ {x}) rest := by
        simp only [skeleton, List.foldl_cons]; rw [hpx]
      rw [this, a2]; simp
    · intro c hc
      rcases List.mem_cons.1 hc with rfl | hc
      · exact ⟨M, List.mem_cons_self, hxM⟩
      · obtain ⟨N, hN, h⟩ := a3 c hc
        exact ⟨N, List.mem_cons_of_mem _ hN, h⟩

theorem skelForward_spec {E : Finset (σ × σ)} {V : Finset σ} {v : σ} {pick : Finset σ → Finset σ} (hp : PicksOne pick)
    (hv : v ∈ V) (fuel : ℕ) (hf : V.card < fuel) :
    ∃ fw a l, skelForward fuel pick V E {v} = some (.ok (fw, (a :: l).toFinset, {a})) ∧ Spine E (a :: l) ∧
      (∀ x ∈ a :: l, x ∈ fw) ∧ ∀ x, x ∈ fw ↔ ReachIn E V v x := by
  obtain ⟨⟨stack, fw⟩, h1, h2, h3, h4, h5⟩ := skel_loop (E := E) hv fuel hf
  simp only at h2 h3 h4 h5
  cases stack with
  | nil =>
    have := (h5 v).2 (reachIn_refl hv)
    rw [h4] at this; simp at this
  | cons L rest =>
    obtain ⟨a, ha, hpa⟩ := hp L (h3 L List.mem_cons_self)
    obtain ⟨l', b1, b2, b3⟩ := skeleton_spine hp rest L [] a {a} h2 h3 ha
      ⟨by simp, by simp, by simp, trivial⟩ (by simp) (by simp) (by simp)
    refine ⟨fw, a, l', ?_, by simpa using b1, ?_, h5⟩
    · unfold skelForward
      rw [h1]
      simp only
      rw [hpa, b2]
      simp
    · intro x hx
      rw [h4]
      rcases List.mem_cons.1 hx with rfl | hx
      · exact ⟨L, List.mem_cons_self, ha⟩
      · obtain ⟨N, hN, h⟩ := b3 x hx
        exact ⟨N, List.mem_cons_of_mem _ hN, h⟩

/-! ### The component -/

theorem scc_loop {E : Finset (σ × σ)} {V fw : Finset σ} {v : σ} (hv : v ∈ V) (hfw : ∀ x, x ∈ fw ↔ ReachIn E V v x)
    (want : Bool) (fuel : ℕ) (hf : V.card < fuel) :
    (want = false ∧ Nontrivial E V v ∧ loopFuel (sccBody E fw want) fuel ({v}, false) = some none) ∨
    ∃ scc found, loopFuel (sccBody E fw want) fuel ({v}, false) = some (some (scc, found)) ∧
      (∀ x, x ∈ scc ↔ Mutual E V v x) ∧ (found = true ↔ Nontrivial E V v) := by
  have hvf : v ∈ fw := (hfw v).2 (reachIn_refl hv)
  have hfV : fw ⊆ V := fun x hx => reachIn_right ((hfw x).1 hx)
  have key := loopFuel_total (body := sccBody E fw want)
    (fun st => v ∈ st.1 ∧ (∀ x ∈ st.1, Mutual E V v x) ∧ (st.2 = true ↔ ∃ x ∈ st.1, x ≠ v))
    (fun r => (want = false ∧ Nontrivial E V v ∧ r = none) ∨ ∃ scc found, r = some (scc, found) ∧
      (∀ x, x ∈ scc ↔ Mutual E V v x) ∧ (found = true ↔ Nontrivial E V v))
    (fun st => (fw \ st.1).card) ?_ ?_ fuel ({v}, false) ?_ ?_
  · obtain ⟨r, h1, ⟨h2, h3, h4⟩ | ⟨scc, found, h2, h3, h4⟩⟩ := key
    · subst h4; exact .inl ⟨h2, h3, h1⟩
    · subst h2; exact .inr ⟨scc, found, h1, h3, h4⟩
  · rintro ⟨scc, found⟩ r ⟨h1, h2, h3⟩ hb
    simp only at h1 h2 h3
    unfold sccBody at hb
    simp only at hb
    split at hb
    · next he =>
      cases hb
      have hall : ∀ x, x ∈ scc ↔ Mutual E V v x := by
        intro x
        refine ⟨h2 x, fun hm => ?_⟩
        obtain ⟨hx1, hx2⟩ := hm
        have hxf : x ∈ fw := (hfw x).2 hx1
        obtain ⟨_, hx3⟩ := hx2
        have hin : ∀ y, Relation.ReflTransGen (fun a b => Step E a b ∧ b ∈ V) y v → y ∈ fw → y ∈ scc := by
          intro y hy
          induction hy using Relation.ReflTransGen.head_induction_on with
          | refl => intro _; exact h1
          | @head y z hyz _ ih =>
            intro hyf
            have hz : z ∈ scc := ih ((hfw z).2 (reachIn_trans ((hfw y).1 hyf)
              (reachIn_single (hfV hyf) hyz.2 hyz.1)))
            by_contra hn
            have : y ∈ (pre E scc ∩ fw) \ scc :=
              Finset.mem_sdiff.2 ⟨Finset.mem_inter.2 ⟨mem_pre.2 ⟨z, hz, hyz.1⟩, hyf⟩, hn⟩
            rw [he] at this; simp at this
        exact hin x hx3 hxf
      refine .inr ⟨scc, found, rfl, hall, h3.trans ?_⟩
      constructor
      · rintro ⟨x, hx, hn⟩; exact ⟨x, hn, h2 x hx⟩
      · rintro ⟨x, hn, hx⟩; exact ⟨x, (hall x).2 hx, hn⟩
    · next he =>
      split at hb
      · next hw =>
        cases hb
        left
        refine ⟨by simpa using hw, ?_, rfl⟩
        obtain ⟨x, hx⟩ := Finset.nonempty_iff_ne_empty.2 he
        obtain ⟨hx1, hx2⟩ := Finset.mem_sdiff.1 hx
        obtain ⟨hx3, hx4⟩ := Finset.mem_inter.1 hx1
        obtain ⟨z, hz, hxz⟩ := mem_pre.1 hx3
        refine ⟨x, fun h => hx2 (h ▸ h1), (hfw x).1 hx4, ?_⟩
        exact reachIn_trans (reachIn_single (hfV hx4) (h2 z hz).2.1 hxz) (h2 z hz).2
      · cases hb
  · rintro ⟨scc, found⟩ st' ⟨h1, h2, h3⟩ hb
    simp only at h1 h2 h3
    unfold sccBody at hb
    simp only at hb
    split at hb
    · cases hb
    · next he =>
      split at hb
      · cases hb
      · cases hb
        obtain ⟨x, hx⟩ := Finset.nonempty_iff_ne_empty.2 he
        obtain ⟨hx1, hx2⟩ := Finset.mem_sdiff.1 hx
        refine ⟨⟨Finset.mem_union_left _ h1, ?_, ?_⟩, ?_⟩
        · intro y hy
          rcases Finset.mem_union.1 hy with hy | hy
          · exact h2 y hy
          · obtain ⟨hy3, hy4⟩ := Finset.mem_inter.1 hy
            obtain ⟨z, hz, hyz⟩ := mem_pre.1 hy3
            exact ⟨(hfw y).1 hy4, reachIn_trans (reachIn_single (hfV hy4) (h2 z hz).2.1 hyz) (h2 z hz).2⟩
        · exact ⟨fun _ => ⟨x, Finset.mem_union_right _ hx1, fun h => hx2 (h ▸ h1)⟩, fun _ => rfl⟩
        · apply Finset.card_lt_card
          rw [Finset.ssubset_iff_of_subset]
          · exact ⟨x, Finset.mem_sdiff.2 ⟨(Finset.mem_inter.1 hx1).2, hx2⟩, by
              simp only [Finset.mem_sdiff, Finset.mem_union, not_and, not_not]; intro _; exact .inr hx1⟩
          · intro y hy
            simp only [Finset.mem_sdiff, Finset.mem_union] at hy ⊢
            tauto
  · refine ⟨by simp, ?_, by simp⟩
    intro x hx
    simp at hx; subst hx; exact ⟨reachIn_refl hv, reachIn_refl hv⟩
  · refine lt_of_le_of_lt ?_ hf
    exact Finset.card_le_card (Finset.sdiff_subset.trans hfV)

/-! ### The recursion -/

/-- The spine handed to `SCC_Find`. -/
def SpineOk (E : Finset (σ × σ)) (V S node : Finset σ) : Prop :=
  ∃ l, Spine E l ∧ S = l.toFinset ∧ (∀ x ∈ l, x ∈ V) ∧ ∀ a, l.head? = some a → node = {a}

theorem spine_first {E : Finset (σ × σ)} {V S fw scc : Finset σ} {v : σ} (hv : v ∈ V)
    (hfw : ∀ x, x ∈ fw ↔ ReachIn E V v x) (hscc : ∀ x, x ∈ scc ↔ Mutual E V v x)
    {l : List σ} (hl : Spine E l) (hS : S = l.toFinset) (hV : ∀ x ∈ l, x ∈ V)
    (hhead : ∀ a, l.head? = some a → a = v) :
    SpineOk E (V \ fw) (S \ scc) (pre E (scc ∩ S) ∩ (S \ scc)) := by
  cases l with
  | nil => exact ⟨[], trivial, by rw [hS]; simp, by simp, by simp⟩
  | cons a l =>
    have hav := hhead a rfl
    subst hav
    have hto : ∀ y ∈ a :: l, ReachIn E V y a := Spine.reach hl hV
    have hsplit : ∃ A B, a :: l = A ++ B ∧ (∀ x ∈ A, x ∈ scc) ∧ ∀ b, B.head? = some b → b ∉ scc := by
      refine ⟨(a :: l).takeWhile (fun x => decide (x ∈ scc)), (a :: l).dropWhile (fun x => decide (x ∈ scc)),
        (List.takeWhile_append_dropWhile).symm, ?_, ?_⟩
      · intro x hx; simpa using List.mem_takeWhile_imp hx
      · intro b hb
        have := List.head?_dropWhile_not (fun x => decide (x ∈ scc)) (a :: l)
        rw [hb] at this
        simpa using this
    obtain ⟨A, B, hAB, hA, hB⟩ := hsplit
    have hasc : a ∈ scc := (hscc a).2 ⟨reachIn_refl hv, reachIn_refl hv⟩
    have hAne : A ≠ [] := by
      intro h0; subst h0
      rw [List.nil_append] at hAB
      exact hB a (by rw [← hAB]; rfl) hasc
    have hBs : ∀ y ∈ B, y ∉ scc := by
      intro y hy hys
      cases B with
      | nil => simp at hy
      | cons b B =>
        have hsp : Spine E (b :: B) := Spine.right (l1 := A) (hAB ▸ hl)
        have hyb : ReachIn E V y b := Spine.reach hsp
          (fun x hx => hV x (hAB ▸ List.mem_append_right _ hx)) y hy
        apply hB b rfl
        rw [hscc] at hys ⊢
        exact ⟨reachIn_trans hys.1 hyb, hto b (hAB ▸ List.mem_append_right _ List.mem_cons_self)⟩
    have hSB : S \ scc = B.toFinset := by
      ext x
      rw [hS, hAB]
      simp only [Finset.mem_sdiff, List.mem_toFinset, List.mem_append]
      constructor
      · rintro ⟨h | h, hn⟩
        · exact absurd (hA x h) hn
        · exact h
      · intro h; exact ⟨.inr h, hBs x h⟩
    refine ⟨B, Spine.right (l1 := A) (hAB ▸ hl), hSB, ?_, ?_⟩
    · intro x hx
      have hxl : x ∈ a :: l := hAB ▸ List.mem_append_right _ hx
      refine Finset.mem_sdiff.2 ⟨hV x hxl, fun hf => hBs x hx ?_⟩
      rw [hscc]; exact ⟨(hfw x).1 hf, hto x hxl⟩
    · intro b hb
      cases B with
      | nil => simp at hb
      | cons b' B =>
        simp only [List.head?_cons, Option.some.injEq] at hb
        subst hb
        rw [hSB]
        ext y
        simp only [Finset.mem_inter, mem_pre, List.mem_toFinset, Finset.mem_singleton]
        constructor
        · rintro ⟨⟨z, ⟨hz1, hz2⟩, hyz⟩, hy⟩
          rcases List.mem_cons.1 hy with h | h
          · exact h
          · exfalso
            have hzA : z ∈ A := by
              rw [hS, hAB, List.mem_toFinset] at hz2
              rcases List.mem_append.1 hz2 with h' | h'
              · exact h'
              · exact absurd hz1 (hBs z h')
            exact Spine.noSkip (hAB ▸ hl) h z hzA hyz
        · rintro rfl
          obtain ⟨z, hz, hyz⟩ := Spine.link (E := E) (l1 := A) (b := y) (l2 := B) (hAB ▸ hl) hAne
          refine ⟨⟨z, ⟨hA z hz, ?_⟩, hyz⟩, List.mem_cons_self⟩
          rw [hS, hAB, List.mem_toFinset]; exact List.mem_append_left _ hz

theorem spine_second {E : Finset (σ × σ)} {V fw scc : Finset σ} {v a : σ} {l : List σ}
    (hfw : ∀ x, x ∈ fw ↔ ReachIn E V v x) (hscc : ∀ x, x ∈ scc ↔ Mutual E V v x)
    (hl : Spine E (a :: l)) (hV : ∀ x ∈ a :: l, x ∈ fw) :
    SpineOk E (fw \ scc) ((a :: l).toFinset \ scc) ({a} \ scc) := by
  have hfV : fw ⊆ V := fun x hx => reachIn_right ((hfw x).1 hx)
  have hsplit : ∃ A B, a :: l = A ++ B ∧ (∀ x ∈ A, x ∉ scc) ∧ ∀ b, B.head? = some b → b ∈ scc := by
    refine ⟨(a :: l).takeWhile (fun x => decide (x ∉ scc)), (a :: l).dropWhile (fun x => decide (x ∉ scc)),
      (List.takeWhile_append_dropWhile).symm, ?_, ?_⟩
    · intro x hx; simpa using List.mem_takeWhile_imp hx
    · intro b hb
      have := List.head?_dropWhile_not (fun x => decide (x ∉ scc)) (a :: l)
      rw [hb] at this
      simpa using this
  obtain ⟨A, B, hAB, hA, hB⟩ := hsplit
  have hBs : ∀ y ∈ B, y ∈ scc := by
    intro y hy
    cases B with
    | nil => simp at hy
    | cons b B =>
      have hsp : Spine E (b :: B) := Spine.right (l1 := A) (hAB ▸ hl)
      have hyb : ReachIn E V y b := Spine.reach hsp
        (fun x hx => hfV (hV x (hAB ▸ List.mem_append_right _ hx))) y hy
      have hb := hB b rfl
      rw [hscc] at hb ⊢
      exact ⟨(hfw y).1 (hV y (hAB ▸ List.mem_append_right _ hy)), reachIn_trans hyb hb.2⟩
  refine ⟨A, Spine.left (l2 := B) (hAB ▸ hl), ?_, ?_, ?_⟩
  · ext x
    rw [hAB]
    simp only [Finset.mem_sdiff, List.mem_toFinset, List.mem_append]
    constructor
    · rintro ⟨h | h, hn⟩
      · exact h
      · exact absurd (hBs x h) hn
    · intro h; exact ⟨.inl h, hA x h⟩
  · intro x hx
    exact Finset.mem_sdiff.2 ⟨hV x (hAB ▸ List.mem_append_left _ hx), hA x hx⟩
  · intro b hb
    cases A with
    | nil => simp at hb
    | cons c A =>
      simp only [List.head?_cons, Option.some.injEq] at hb
      subst hb
      have : a = c := by
        have := congrArg List.head? hAB
        simpa using this
      subst this
      rw [Finset.sdiff_eq_self_iff_disjoint, Finset.disjoint_singleton_left]
      exact hA a List.mem_cons_self

theorem sccRec_spec {E : Finset (σ × σ)} {pick : Finset σ → Finset σ} (hp : PicksOne pick) (want : Bool) :
    ∀ (fuel : ℕ) (cycles V S node : Finset σ), V.card < fuel → SpineOk E V S node →
    ∃ b cyc, sccRec pick E want fuel cycles V S node = some (.ok (b, cyc)) ∧
      (b = true ↔ ∃ s ∈ V, Nontrivial E V s) ∧
      (want = true → ∀ s, s ∈ cyc ↔ s ∈ cycles ∨ (s ∈ V ∧ Nontrivial E V s)) := by
  intro fuel
  induction fuel with
  | zero => intro cycles V S node h; omega
  | succ fuel ih =>
    intro cycles V S node hcard hsp
    unfold sccRec
    by_cases hV0 : V = ∅
    · rw [if_pos hV0]
      subst hV0
      exact ⟨false, cycles, rfl, by simp, by simp⟩
    rw [if_neg hV0]
    obtain ⟨l, hl, hS, hlV, hnode⟩ := hsp
    obtain ⟨v, hv, hscc0, hhead⟩ : ∃ v ∈ V, (if S = ∅ then pick V else node) = {v} ∧
        ∀ a, l.head? = some a → a = v := by
      cases l with
      | nil =>
        obtain ⟨v, hv, hpv⟩ := hp V (Finset.nonempty_iff_ne_empty.2 hV0)
        exact ⟨v, hv, by rw [hS]; simpa using hpv, by simp⟩
      | cons a l =>
        refine ⟨a, hlV a List.mem_cons_self, ?_, ?_⟩
        · rw [if_neg (by rw [hS]; simp), hnode a rfl]
        · intro b hb; simpa using hb.symm
    simp only [hscc0]
    obtain ⟨fw, a, l', hsk, hsp', hlf, hfw⟩ := skelForward_spec (E := E) hp hv (fuel + 1) hcard
    rw [hsk]
    simp only
    have hvf : v ∈ fw := (hfw v).2 (reachIn_refl hv)
    have hfV : fw ⊆ V := fun x hx => reachIn_right ((hfw x).1 hx)
    rcases scc_loop hv hfw want (fuel + 1) hcard with ⟨hw, hnt, hlp⟩ | ⟨scc, found, hlp, hscc, hfound⟩
    · rw [hlp]
      exact ⟨true, cycles, rfl, ⟨fun _ => ⟨v, hv, hnt⟩, fun _ => rfl⟩, by rw [hw]; simp⟩
    rw [hlp]
    simp only
    have hvs : v ∈ scc := (hscc v).2 ⟨reachIn_refl hv, reachIn_refl hv⟩
    have hsf : scc ⊆ fw := fun x hx => (hfw x).2 ((hscc x).1 hx).1
    have sat1 : ∀ s ∈ V \ fw, ∀ t, Mutual E V s t → t ∈ V \ fw := by
      intro s hs t hm
      refine Finset.mem_sdiff.2 ⟨reachIn_right hm.1, fun ht => (Finset.mem_sdiff.1 hs).2 ?_⟩
      exact (hfw s).2 (reachIn_trans ((hfw t).1 ht) hm.2)
    have sat2 : ∀ s ∈ fw \ scc, ∀ t, Mutual E V s t → t ∈ fw \ scc := by
      intro s hs t hm
      obtain ⟨h1, h2⟩ := Finset.mem_sdiff.1 hs
      refine Finset.mem_sdiff.2 ⟨(hfw t).2 (reachIn_trans ((hfw s).1 h1) hm.1), fun ht => h2 ?_⟩
      rw [hscc] at ht ⊢
      exact ht.trans hm.symm
    have nt0 : ∀ s ∈ scc, (Nontrivial E V s ↔ Nontrivial E V v) := by
      intro s hs
      rw [hscc] at hs
      constructor
      · rintro ⟨t, ht, hm⟩
        by_cases h : s = v
        · subst h; exact ⟨t, ht, hm⟩
        · exact ⟨s, h, hs⟩
      · rintro ⟨t, ht, hm⟩
        by_cases h : s = v
        · subst h; exact ⟨t, ht, hm⟩
        · exact ⟨v, fun h' => h h'.symm, hs.symm⟩
    have nt1 : ∀ s ∈ V \ fw, (Nontrivial E (V \ fw) s ↔ Nontrivial E V s) := fun s hs =>
      nontrivial_iff Finset.sdiff_subset sat1 hs
    have nt2 : ∀ s ∈ fw \ scc, (Nontrivial E (fw \ scc) s ↔ Nontrivial E V s) := fun s hs =>
      nontrivial_iff (Finset.sdiff_subset.trans hfV) sat2 hs
    have c1 : (V \ fw).card < fuel := by
      have : (V \ fw).card < V.card := Finset.card_lt_card (by
        rw [Finset.ssubset_iff_of_subset Finset.sdiff_subset]
        exact ⟨v, hv, by simp [hvf]⟩)
      omega
    have c2 : (fw \ scc).card < fuel := by
      have : (fw \ scc).card < V.card := Finset.card_lt_card (by
        rw [Finset.ssubset_iff_of_subset (Finset.sdiff_subset.trans hfV)]
        exact ⟨v, hv, by simp [hvs]⟩)
      omega
    obtain ⟨b1, cyc1, e1, f1, g1⟩ := ih (if found = true then cycles ∪ scc else cycles) (V \ fw) (S \ scc)
      (pre E (scc ∩ S) ∩ (S \ scc)) c1 (spine_first hv hfw hscc hl hS hlV hhead)
    obtain ⟨b2, cyc2, e2, f2, g2⟩ := ih cyc1 (fw \ scc) ((a :: l').toFinset \ scc) ({a} \ scc) c2
      (spine_second hfw hscc hsp' hlf)
    have hparts : ∀ s, s ∈ V → s ∈ scc ∨ s ∈ V \ fw ∨ s ∈ fw \ scc := by
      intro s hs
      by_cases h1 : s ∈ fw
      · by_cases h2 : s ∈ scc
        · exact .inl h2
        · exact .inr (.inr (Finset.mem_sdiff.2 ⟨h1, h2⟩))
      · exact .inr (.inl (Finset.mem_sdiff.2 ⟨hs, h1⟩))
    rw [e1]
    simp only
    have key : (found = true ∨ b1 = true) ∨ b2 = true ↔ ∃ s ∈ V, Nontrivial E V s := by
      rw [hfound, f1, f2]
      constructor
      · rintro ((h | ⟨s, hs, h⟩) | ⟨s, hs, h⟩)
        · exact ⟨v, hv, h⟩
        · exact ⟨s, (Finset.mem_sdiff.1 hs).1, (nt1 s hs).1 h⟩
        · exact ⟨s, hfV (Finset.mem_sdiff.1 hs).1, (nt2 s hs).1 h⟩
      · rintro ⟨s, hs, h⟩
        rcases hparts s hs with hs | hs | hs
        · exact .inl (.inl ((nt0 s hs).1 h))
        · exact .inl (.inr ⟨s, hs, (nt1 s hs).2 h⟩)
        · exact .inr ⟨s, hs, (nt2 s hs).2 h⟩
    by_cases hq : ((found || b1) && !want) = true
    · rw [if_pos hq]
      simp only [Bool.and_eq_true, Bool.or_eq_true, Bool.not_eq_true'] at hq
      refine ⟨true, cyc1, rfl, ⟨fun _ => key.1 (.inl hq.1), fun _ => rfl⟩, ?_⟩
      intro hw; rw [hq.2] at hw; cases hw
    · rw [if_neg hq, e2]
      refine ⟨found || b1 || b2, cyc2, rfl, ?_, ?_⟩
      · rw [← key]; simp only [Bool.or_eq_true]
      · intro hw s
        rw [g2 hw, g1 hw]
        constructor
        · rintro ((h | ⟨hs, h⟩) | ⟨hs, h⟩)
          · split at h
            · next hfd =>
              rcases Finset.mem_union.1 h with h | h
              · exact .inl h
              · exact .inr ⟨hfV (hsf h), (nt0 s h).2 (hfound.1 hfd)⟩
            · exact .inl h
          · exact .inr ⟨(Finset.mem_sdiff.1 hs).1, (nt1 s hs).1 h⟩
          · exact .inr ⟨hfV (Finset.mem_sdiff.1 hs).1, (nt2 s hs).1 h⟩
        · rintro (h | ⟨hs, h⟩)
          · left; left
            split
            · exact Finset.mem_union_left _ h
            · exact h
          · rcases hparts s hs with hs | hs | hs
            · left; left
              rw [if_pos (hfound.2 ((nt0 s hs).1 h))]
              exact Finset.mem_union_right _ hs
            · exact .inl (.inr ⟨hs, (nt1 s hs).2 h⟩)
            · exact .inr ⟨hs, (nt2 s hs).2 h⟩

end Verif.Model
