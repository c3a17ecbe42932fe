import Verif.Model.Cand
import Verif.Spec.Cand
import Verif.Proofs.Reach

/-! Proofs about `candidate_actions`. -/

set_option linter.unusedSectionVars false

namespace Verif.Proofs
open Verif.Model Verif.Spec

variable {S T : Type} [Fintype S] [DecidableEq S]

/-- The requirements on a system. -/
def demandOf (s : Sys S T) : Demand S :=
  ⟨s.invariant ∩ s.closedAssume, s.closedAssume, s.shadowXn, s.behav = .silent⟩

/-- The action repeats what it reads in a written variable. -/
def WVbl.Repeats (w : WVbl) : Prop := w.random = false ∧ (if w.writeOnly then w.keeps else w.same) = true

/-- An action of a system as the specification sees it. -/
def offerOf (c : CandSys S T) (a : ℕ) : Offer S :=
  ⟨c.xn a, c.pcXn a, c.forbid a, c.permit a, ∀ w ∈ (c.act a).writes, WVbl.Repeats w⟩

/-- The prescribed behavior in legitimate states, if any. -/
def prescribedOf (c : CandSys S T) : Option (Finset (S × S)) :=
  if c.sys.style = .closed then none else some (c.sys.shadowXn ∪ c.shadowSelf)

/-- The action is considered at all. -/
def Possible (c : CandSys S T) (a : ℕ) : Prop :=
  a < c.nActs ∧ (c.act a).rep = true ∧ c.hasPc a = true ∧ (c.xn a).Nonempty

/-- There are no shadow variables: nothing but puppet variables is written or read, and what is left of a
satisfiable formula without them is true. -/
structure DirectCand (c : CandSys S T) : Prop where
  direct : c.sys.shadowPuppet = false
  scope : c.sys.scope = .direct
  writes : ∀ a, ∀ w ∈ (c.act a).writes, w.pureShadow = false
  reads : ∀ a, ∀ r ∈ (c.act a).reads, r.puppet = true
  smoothP : ∀ p, p.Nonempty → c.smoothP p = Finset.univ
  smoothX : ∀ x, x.Nonempty → c.smoothX x = Finset.univ

theorem writes_spec {c : CandSys S T} : ∀ {l : List WVbl} {st : LoopSt S}, (∀ w ∈ l, w.pureShadow = false) →
    (l.foldl (writeStep c) st).shadowLoop = st.shadowLoop ∧ (l.foldl (writeStep c) st).fullImg = st.fullImg ∧
    (l.foldl (writeStep c) st).shadowExists = st.shadowExists ∧
    (l.foldl (writeStep c) st).shadowXn = st.shadowXn ∧
    ((l.foldl (writeStep c) st).puppetLoop = true ↔ st.puppetLoop = true ∧ ∀ w ∈ l, WVbl.Repeats w) := by
  intro l
  induction l with
  | nil => intro st _; simp
  | cons w l ih =>
    intro st h
    have hw : w.pureShadow = false := h w (by simp)
    obtain ⟨h1, h2, h3, h4, h5⟩ := ih (st := writeStep c st w) fun v hv => h v (by simp [hv])
    rw [List.foldl_cons]
    have key : (writeStep c st w).shadowLoop = st.shadowLoop ∧ (writeStep c st w).fullImg = st.fullImg ∧
        (writeStep c st w).shadowExists = st.shadowExists ∧ (writeStep c st w).shadowXn = st.shadowXn ∧
        ((writeStep c st w).puppetLoop = true ↔ st.puppetLoop = true ∧ WVbl.Repeats w) := by
      unfold writeStep WVbl.Repeats
      rw [if_neg (by simp [hw])]
      cases w.random <;> cases w.writeOnly <;> cases w.keeps <;> cases w.same <;> simp
    obtain ⟨k1, k2, k3, k4, k5⟩ := key
    refine ⟨h1.trans k1, h2.trans k2, h3.trans k3, h4.trans k4, ?_⟩
    rw [h5, k5]
    simp only [List.mem_cons, forall_eq_or_imp]
    tauto

theorem reads_spec {c : CandSys S T} : ∀ {l : List RVbl} {x : Finset (S × S)}, (∀ r ∈ l, r.puppet = true) →
    l.foldl (readStep c) x = x := by
  intro l
  induction l with
  | nil => intro x _; rfl
  | cons r l ih =>
    intro x h
    rw [List.foldl_cons, ih fun v hv => h v (by simp [hv])]
    unfold readStep
    simp [h r (by simp)]

theorem flags_spec {c : CandSys S T} (hd : DirectCand c) (a : ℕ) :
    (loopFlags c a).shadowLoop = true ∧ (loopFlags c a).fullImg = true ∧ (loopFlags c a).shadowExists = false ∧
    (loopFlags c a).shadowXn = c.smoothX (c.shadow a) ∧
    ((loopFlags c a).puppetLoop = true ↔ (offerOf c a).repeats) := by
  obtain ⟨h1, h2, h3, h4, h5⟩ := writes_spec (c := c) (st := ⟨true, true, true, false, c.smoothX (c.shadow a)⟩)
    (hd.writes a)
  unfold loopFlags
  refine ⟨h1, h2, h3, ?_, ?_⟩
  · simp only
    rw [reads_spec (hd.reads a), h4]
  · simp only
    rw [h5]
    simp [offerOf]

/-- In the direct case the part about shadow variables does nothing. -/
theorem candShadow_direct {c : CandSys S T} (hd : DirectCand c) {a : ℕ} (hp : (c.pcXn a).Nonempty)
    (hr : ¬ (offerOf c a).repeats) : candShadow c a (loopFlags c a) false = candTail c a := by
  obtain ⟨h1, h2, h3, h4, h5⟩ := flags_spec hd a
  have h6 : (loopFlags c a).puppetLoop = false := by
    rw [← h5] at hr
    simpa using hr
  unfold candShadow
  simp only [h2, h6]
  by_cases hs : c.shadow a = ∅
  · simp [hs]
  · rw [if_neg hs]
    rw [h4, hd.smoothX _ hp, hd.smoothX _ (Finset.nonempty_iff_ne_empty.2 hs)]
    simp

theorem overlap_dom {xn : Finset (S × S)} {A : Finset S} : A ∩ dom xn = ∅ ↔ ¬ ∃ s t, Step xn s t ∧ s ∈ A := by
  rw [Finset.eq_empty_iff_forall_notMem]
  constructor
  · rintro h ⟨s, t, h1, h2⟩
    exact h s (Finset.mem_inter.2 ⟨h2, mem_dom.2 ⟨t, h1⟩⟩)
  · intro h s hs
    obtain ⟨h1, h2⟩ := Finset.mem_inter.1 hs
    obtain ⟨t, ht⟩ := mem_dom.1 h2
    exact h ⟨s, t, ht, h1⟩

theorem img_sub {xn : Finset (S × S)} {A B : Finset S} : img xn A ⊆ B ↔ ∀ s t, Step xn s t → s ∈ A → t ∈ B := by
  constructor
  · intro h s t hst hs
    exact h (mem_img.2 ⟨s, hs, hst⟩)
  · intro h t ht
    obtain ⟨s, hs, hst⟩ := mem_img.1 ht
    exact h s t hst hs

/-- What becomes of an action in the direct case. -/
theorem candKind_direct {c : CandSys S T} (hd : DirectCand c) (hl : (demandOf c.sys).legit.Nonempty) {a : ℕ}
    (ha : a < c.nActs) :
    candKind c a = (by
      classical exact
      if ¬ Possible c a then .skip
      else if (offerOf c a).Improper (demandOf c.sys) (prescribedOf c) then .rej
      else if (offerOf c a).Moves (demandOf c.sys) then .cand
      else .del) := by
  classical
  unfold candKind
  by_cases h1 : (c.act a).rep = false
  · rw [if_pos h1, if_pos (by simp [Possible, h1])]
  rw [if_neg h1]
  by_cases h2 : c.hasPc a = false
  · rw [if_pos h2, if_pos (by simp [Possible, h2])]
  rw [if_neg h2]
  by_cases h3 : c.xn a = ∅
  · rw [if_pos h3, if_pos (by simp [Possible, h3])]
  rw [if_neg h3, if_neg (not_not.2 ⟨ha, by simpa using h1, by simpa using h2, Finset.nonempty_iff_ne_empty.2 h3⟩)]
  by_cases h4 : c.pcXn a ⊆ c.forbid a
  · rw [if_pos h4, if_pos (.inl (.inl h4))]
  rw [if_neg h4]
  by_cases h5 : (c.permit a).Nonempty ∧ ¬ c.pcXn a ⊆ c.permit a
  · rw [if_pos h5, if_pos (.inl (.inr h5))]
  rw [if_neg h5]
  obtain ⟨f1, f2, f3, f4, f5⟩ := flags_spec hd a
  by_cases h6 : (offerOf c a).repeats
  · have hI : (offerOf c a).Improper (demandOf c.sys) (prescribedOf c) := .inr (.inl h6)
    rw [if_pos hI]
    simp only [f1, f5.2 h6, and_self, if_true]
  have hp : (c.pcXn a).Nonempty := by
    rw [Finset.nonempty_iff_ne_empty]
    intro h
    exact h4 (by simp [h])
  have f6 : (loopFlags c a).puppetLoop = false := by
    rw [← f5] at h6
    simpa using h6
  simp only [f1, f3, f6, Bool.and_false, false_and, if_false, Bool.false_eq_true]
  rw [candShadow_direct hd hp h6]
  have hnr : ¬ (offerOf c a).Refused := by
    rintro (h | h)
    · exact h4 h
    · exact h5 h
  by_cases h7 : img (c.xn a) c.sys.closedAssume ⊆ c.sys.closedAssume
  swap
  · have hI : (offerOf c a).Improper (demandOf c.sys) (prescribedOf c) := by
      rw [img_sub] at h7
      push Not at h7
      obtain ⟨s, t, p1, p2, p3⟩ := h7
      exact .inr (.inr ⟨s, t, p1, .inl ⟨p2, p3⟩⟩)
    rw [if_pos h7, if_pos hI]
  rw [if_neg (not_not.2 h7)]
  by_cases h8 : (offerOf c a).Moves (demandOf c.sys)
  swap
  · have hov : c.sys.closedAssume ∩ dom (c.xn a) = ∅ := overlap_dom.2 h8
    rw [if_pos hov, if_neg, if_neg h8]
    rintro (h | h | ⟨s, t, p1, p2⟩)
    · exact hnr h
    · exact h6 h
    · refine h8 ⟨s, t, p1, ?_⟩
      rcases p2 with ⟨p2, _⟩ | ⟨p2, _⟩ | ⟨p2, _⟩
      · exact p2
      · exact (Finset.mem_inter.1 p2).2
      · exact (Finset.mem_inter.1 p2).2
  have hov : ¬ c.sys.closedAssume ∩ dom (c.xn a) = ∅ := fun h => overlap_dom.1 h h8
  rw [if_neg hov]
  have hsm : ¬ c.smoothP (rng (c.xn a)) ∩ (c.sys.invariant ∩ c.sys.closedAssume) = ∅ := by
    obtain ⟨e, he⟩ := Finset.nonempty_iff_ne_empty.2 h3
    rw [hd.smoothP _ ⟨e.2, mem_rng.2 ⟨e.1, he⟩⟩, Finset.univ_inter]
    exact Finset.nonempty_iff_ne_empty.1 hl
  rw [if_neg hsm]
  unfold candTail
  simp only [hd.scope, true_and]
  rw [img_sub] at h7
  by_cases h9 : img (c.xn a) (c.sys.invariant ∩ c.sys.closedAssume) ⊆ c.sys.invariant
  swap
  · have hI : (offerOf c a).Improper (demandOf c.sys) (prescribedOf c) := by
      rw [img_sub] at h9
      push Not at h9
      obtain ⟨s, t, p1, p2, p3⟩ := h9
      exact .inr (.inr ⟨s, t, p1, .inr (.inl ⟨p2, fun h => p3 (Finset.mem_inter.1 h).1⟩)⟩)
    rw [if_pos h9, if_pos hI]
  rw [if_neg (not_not.2 h9)]
  rw [img_sub] at h9
  by_cases h10 : c.sys.style ≠ .closed ∧
      ¬ restr (c.xn a) (c.sys.invariant ∩ c.sys.closedAssume) ⊆ c.sys.shadowXn ∪ c.shadowSelf
  · have hI : (offerOf c a).Improper (demandOf c.sys) (prescribedOf c) := by
      obtain ⟨q1, q2⟩ := h10
      rw [Finset.not_subset] at q2
      obtain ⟨e, q3, q4⟩ := q2
      rw [mem_restr] at q3
      exact .inr (.inr ⟨e.1, e.2, q3.1, .inr (.inr ⟨q3.2, _, by unfold prescribedOf; rw [if_neg q1]; rfl, q4⟩)⟩)
    rw [if_pos h10, if_pos hI]
  rw [if_neg h10, if_neg (by rwa [Finset.inter_comm]), if_neg ?_, if_pos h8]
  rintro (h | h | ⟨s, t, p1, p2⟩)
  · exact hnr h
  · exact h6 h
  · rcases p2 with ⟨p2, p3⟩ | ⟨p2, p3⟩ | ⟨p2, x, p3, p4⟩
    · exact p3 (h7 s t p1 p2)
    · exact p3 (Finset.mem_inter.2 ⟨h9 s t p1 p2, h7 s t p1 (Finset.mem_inter.1 p2).2⟩)
    · unfold prescribedOf at p3
      split at p3
      · simp at p3
      · rename_i q1
        obtain rfl := Option.some.inj p3
        exact h10 ⟨q1, fun h => p4 (h (mem_restr.2 ⟨p1, p2⟩))⟩

end Verif.Proofs
