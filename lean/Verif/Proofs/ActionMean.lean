import Verif.Proofs.ActionSem

/-!
The action read back has the transitions of the action written.
-/

namespace Verif.Proofs

open Verif.Model Verif.Spec

variable {n : ℕ} {dom : Fin n → ℕ}

/-- The tree of an action means the transitions of the action. -/
theorem tree_meaning (s0 : FSt n dom) {c : RdPc n dom} {ρ : IMap} {ref : ℕ → String × Ex}
    (hr : Resolves c ρ ref) (hok : PcOk c.pc) (hnd : c.pc.wvbls.Nodup)
    (hrand : ∀ v ∈ c.pc.rvbls, c.random v = false) {vals : List ℕ}
    (hv : List.Forall₂ (· < ·) vals c.pc.spec.doms) {T : ActTree} (hT : IsTree c.pc.spec ref vals T) :
    ∃ P x, AtLast (fun k => parseAction c k ρ T true) P ∧ xnOfPc c.pc vals = some x ∧
      (∀ s t, (s, t) ∈ x ↔ (s, t) ∈ P ∧ ∃ v ∈ c.pc.wvbls, t v ≠ s v) ∧ (T.asgs ≠ [] → P = x) := by
  obtain ⟨hto, ⟨e, gs, hg, hTg⟩, l, hl, _, hTa⟩ := hT
  obtain ⟨P, hP1, hP2⟩ := parse_tree s0 hr hok hnd hrand hv hto hg hTg
    (fun m hm => (by obtain ⟨acc, h, _⟩ := (hl m).1 hm; exact h)) hTa
  obtain ⟨x, hx1, hx2⟩ := xnOfPc_spec hok hv
  -- the written variables
  have hW : ∀ (j : ℕ) (v : Fin n), c.pc.wvbls[j]? = some v → ∃ (r : ℕ) (acc : Access) (g a : ℕ), c.pc.spec.wmap[j]? = some r ∧
      c.pc.rvbls[r]? = some v ∧ c.pc.spec.access[r]? = some acc ∧ vals[r]? = some g ∧
      vals[c.pc.spec.access.length + j]? = some a ∧ acc.writeCk = true ∧ a < acc.wdomsz ∧ dom v = acc.domsz := by
    intro j v hj
    rw [wvbls_get hok.len, Option.bind_eq_some_iff] at hj
    obtain ⟨r, h1, h2⟩ := hj
    obtain ⟨v', acc, g, a, q1, q2, q3, q4, q5, q6⟩ := wfacts hok hv h1
    rw [q1] at h2; cases h2
    exact ⟨r, acc, g, a, h1, q1, q2, q3, q4, q5, q6, hok.doms r _ acc q1 q2⟩
  have hJ : ∀ (j r : ℕ) (v : Fin n), c.pc.spec.wmap[j]? = some r → c.pc.rvbls[r]? = some v → c.pc.wvbls[j]? = some v := by
    intro j r v h1 h2
    rw [wvbls_get hok.len, h1]; exact h2
  -- a variable that is not mentioned keeps the value that it has when the guard holds
  have hkeep : ∀ s : FSt n dom, (∀ g ∈ (actOf c.pc vals).guards, (s g.1).val = g.2) →
      ∀ (j r : ℕ) (v : Fin n) (acc : Access) (g a : ℕ), c.pc.spec.wmap[j]? = some r → c.pc.rvbls[r]? = some v →
      c.pc.spec.access[r]? = some acc → vals[r]? = some g → vals[c.pc.spec.access.length + j]? = some a →
      acc.writeCk = true → a ≠ acc.domsz → (∀ m ∈ l, m.1 ≠ j) → (s v).val = a := by
    intro s hgd j r v acc g a h1 h2 h3 h4 h5 h6 h7 h8
    have hnm : ¬ Mentions c.pc.spec vals (j, r, a) := fun h => h8 _ ((hl _).2 h) rfl
    have hst : Still c.pc.spec vals ∧ acc.pureShadowCk = false := by
      by_contra hcon
      refine hnm ⟨acc, h1, h3, h5, h7, fun hs => ?_⟩
      by_contra hps
      exact hcon ⟨hs, by simpa using hps⟩
    have := hst.1 j r acc g a h1 h3 h4 h5
    by_cases hwo : acc.syntWriteonlyCk = true
    · rw [if_pos hwo] at this
      exfalso
      refine h7 (this ?_)
      have hps := hst.2
      simp only [Access.pureShadowCk, decide_eq_false_iff_not] at hps
      simp only [Access.puppetCk, Bool.or_eq_true, decide_eq_true_eq]
      cases hro : acc.role <;> simp_all
    · rw [if_neg hwo] at this
      have hsr : acc.syntReadCk = true := by
        simp only [Access.syntWriteonlyCk, h6, Bool.and_true, Bool.not_eq_true', Bool.not_eq_false] at hwo
        simpa using hwo
      rw [← this.1]
      exact hgd (v, g) (mem_actOf_guards.2 ⟨r, acc, h2, h3, h4, hsr⟩)
  -- effect
  have heff : ∀ s t : FSt n dom, (∀ g ∈ (actOf c.pc vals).guards, (s g.1).val = g.2) →
      ((SetTo c l (s, t) ∧ ∀ (j : ℕ) (v : Fin n), c.pc.wvbls[j]? = some v → (∀ m ∈ l, m.1 ≠ j) → t v = s v) ↔
        (actOf c.pc vals).Effect s t) := by
    intro s t hgd
    constructor
    · rintro ⟨a1, a2⟩ ⟨v, o⟩ hw
      obtain ⟨r, j, acc, a, h1, h2, h3, h4, h5⟩ := (mem_actOf_writes hok.len).1 hw
      simp only at h2 h5
      obtain ⟨r', acc', g', a', b1, b2, b3, b4, b5, b6, b7, b8⟩ := hW j v (hJ j r v h1 h2)
      rw [h1] at b1; cases b1
      rw [h3] at b3; cases b3
      rw [h4] at b5; cases b5
      by_cases ha : a = acc.domsz
      · rw [if_pos ha] at h5
        subst h5
        simp only
        refine a2 j v (hJ j r v h1 h2) ?_
        rintro ⟨j', r', x'⟩ hm rfl
        obtain ⟨acc', c1, c2, c3, c4, _⟩ := (hl _).1 hm
        simp only at c1 c2 c3 c4
        rw [h1] at c1; cases c1
        rw [h3] at c2; cases c2
        rw [h4] at c3; cases c3
        exact c4 ha
      · rw [if_neg ha] at h5
        subst h5
        simp only
        have hlt : a < dom v := by have := wdomsz_le acc; omega
        by_cases hm : ∃ m ∈ l, m.1 = j
        · obtain ⟨⟨j', r', x'⟩, hm, rfl⟩ := hm
          obtain ⟨acc', c1, c2, c3, c4, _⟩ := (hl _).1 hm
          simp only at c1 c2 c3 c4
          rw [h1] at c1; cases c1
          rw [h4] at c3; cases c3
          have := a1 _ hm v h2
          simp only at this
          rw [this, Nat.mod_eq_of_lt hlt]
        · push Not at hm
          rw [a2 j v (hJ j r v h1 h2) hm]
          exact hkeep s hgd j r v acc g' a h1 h2 h3 b4 h4 b6 ha hm
    · intro he
      constructor
      · rintro ⟨j, r, a⟩ hm v hv'
        obtain ⟨acc, c1, c2, c3, c4, _⟩ := (hl _).1 hm
        simp only at c1 c2 c3 c4 hv' ⊢
        obtain ⟨r', acc', g', a', b1, b2, b3, b4, b5, b6, b7, b8⟩ := hW j v (hJ j r v c1 hv')
        rw [c1] at b1; cases b1
        rw [c2] at b3; cases b3
        rw [c3] at b5; cases b5
        have hlt : a < dom v := by have := wdomsz_le acc; omega
        have := he (v, some a) ((mem_actOf_writes hok.len).2 ⟨r, j, acc, a, c1, hv', c2, c3, by simp [c4]⟩)
        simp only at this
        rw [this, Nat.mod_eq_of_lt hlt]
      · intro j v hj hm
        obtain ⟨r, acc, g, a, b1, b2, b3, b4, b5, b6, b7, b8⟩ := hW j v hj
        by_cases ha : a = acc.domsz
        · have := he (v, none) ((mem_actOf_writes hok.len).2 ⟨r, j, acc, a, b1, b2, b3, b5, by simp [ha]⟩)
          exact this
        · have h1 := he (v, some a) ((mem_actOf_writes hok.len).2 ⟨r, j, acc, a, b1, b2, b3, b5, by simp [ha]⟩)
          simp only at h1
          exact Fin.ext (h1.trans (hkeep s hgd j r v acc g a b1 b2 b3 b4 b5 b6 ha hm).symm)
  -- change
  have hch : ∀ s t : FSt n dom, (actOf c.pc vals).Effect s t →
      ((∃ v ∈ c.pc.wvbls, t v ≠ s v) ↔ ∃ w ∈ (actOf c.pc vals).writes, ∃ x, w.2 = some x ∧ (s w.1).val ≠ x) := by
    intro s t he
    constructor
    · rintro ⟨v, hvm, hne⟩
      obtain ⟨j, hj⟩ := List.mem_iff_getElem?.1 hvm
      obtain ⟨r, acc, g, a, b1, b2, b3, b4, b5, b6, b7, b8⟩ := hW j v hj
      by_cases ha : a = acc.domsz
      · have := he (v, none) ((mem_actOf_writes hok.len).2 ⟨r, j, acc, a, b1, b2, b3, b5, by simp [ha]⟩)
        exact absurd this hne
      · have hw : (v, some a) ∈ (actOf c.pc vals).writes :=
          (mem_actOf_writes hok.len).2 ⟨r, j, acc, a, b1, b2, b3, b5, by simp [ha]⟩
        refine ⟨_, hw, a, rfl, fun h => hne ?_⟩
        have h1 := he _ hw
        simp only at h1
        exact Fin.ext (h1.trans h.symm)
    · rintro ⟨⟨v, o⟩, hw, x, rfl, hne⟩
      obtain ⟨r, j, acc, a, h1, h2, h3, h4, h5⟩ := (mem_actOf_writes hok.len).1 hw
      refine ⟨v, List.mem_of_getElem? (hJ j r v h1 h2), fun h => hne ?_⟩
      have h6 := he _ hw
      simp only at h6
      simp only
      rw [← h, h6]
  have hPe : ∀ s t, (s, t) ∈ P ↔ (∀ g ∈ (actOf c.pc vals).guards, (s g.1).val = g.2) ∧
      (actOf c.pc vals).Effect s t ∧ (anyWo c l = true → ∃ v ∈ c.pc.wvbls, t v ≠ s v) := by
    intro s t
    rw [hP2]
    constructor
    · rintro ⟨a1, a2, a3, a4⟩
      exact ⟨a1, (heff s t a1).1 ⟨a2, a3⟩, a4⟩
    · rintro ⟨a1, a2, a4⟩
      obtain ⟨a2, a3⟩ := (heff s t a1).2 a2
      exact ⟨a1, a2, a3, a4⟩
  have hx3 : ∀ s t, (s, t) ∈ x ↔ (s, t) ∈ P ∧ ∃ v ∈ c.pc.wvbls, t v ≠ s v := by
    intro s t
    rw [hx2, hPe]
    constructor
    · rintro ⟨⟨a1, a2⟩, a3⟩
      have := (hch s t a3).2 a2
      exact ⟨⟨a1, a3, fun _ => this⟩, this⟩
    · rintro ⟨⟨a1, a3, _⟩, a4⟩
      exact ⟨⟨a1, (hch s t a3).1 a4⟩, a3⟩
  refine ⟨P, x, hP1, hx1, hx3, fun hne => ?_⟩
  ext ⟨s, t⟩
  rw [hx3]
  refine ⟨fun h => ⟨h, ?_⟩, fun h => h.1⟩
  obtain ⟨hgd, hef, hwo⟩ := (hPe s t).1 h
  by_contra hno
  -- no mentioned variable is only written
  have hnwo : ∀ m ∈ l, ∀ acc, c.pc.spec.access[m.2.1]? = some acc → acc.syntWriteonlyCk = false := by
    intro m hm acc hacc
    by_contra hc
    refine hno (hwo ?_)
    simp only [anyWo, List.any_eq_true]
    exact ⟨m, hm, by rw [hacc]; simpa using hc⟩
  have hstill : Still c.pc.spec vals := by
    by_contra hns
    refine hns ?_
    intro j r acc g a h1 h2 h3 h4
    obtain ⟨v, acc', g', a', q1, q2, q3, q4, q5, q6⟩ := wfacts hok hv h1
    rw [h2] at q2; cases q2
    rw [h3] at q3; cases q3
    rw [h4] at q4; cases q4
    have hment : a ≠ acc.domsz → (j, r, a) ∈ l := fun ha =>
      (hl _).2 ⟨acc, h1, h2, h4, ha, fun hs => absurd hs hns⟩
    by_cases hc : acc.syntWriteonlyCk = true
    · rw [if_pos hc]
      intro _
      by_contra ha
      have := hnwo _ (hment ha) acc h2
      rw [hc] at this; cases this
    · rw [if_neg hc]
      refine ⟨?_, hok.norand acc (List.mem_of_getElem? h2)⟩
      have hsr : acc.syntReadCk = true := by
        simp only [Access.syntWriteonlyCk, q5, Bool.and_true, Bool.not_eq_true', Bool.not_eq_false] at hc
        simpa using hc
      have hd := hok.doms r v acc q1 h2
      have hlt : a < acc.domsz := by
        have := wdomsz_readable hsr
        have := (s0 v).isLt
        omega
      have e1 := hgd (v, g) (mem_actOf_guards.2 ⟨r, acc, q1, h2, h3, hsr⟩)
      have e2 := hef (v, some a) ((mem_actOf_writes hok.len).2 ⟨r, j, acc, a, h1, q1, h2, h4, by simp [hlt.ne]⟩)
      simp only at e1 e2
      by_contra hga
      refine hno ⟨v, List.mem_of_getElem? (hJ j r v h1 q1), fun h => hga ?_⟩
      rw [← e1, ← e2, h]
  apply hne
  rw [hTa]
  cases hl' : l with
  | nil => rfl
  | cons m l' =>
    exfalso
    have hm : m ∈ l := by rw [hl']; simp
    obtain ⟨acc, h1, h2, h3, h4, h5⟩ := (hl m).1 hm
    have hps := h5 hstill
    have := hnwo m hm acc h2
    obtain ⟨v, acc', g', a', q1, q2, q3, q4, q5, q6⟩ := wfacts hok hv h1
    rw [h2] at q2; cases q2
    simp only [Access.syntWriteonlyCk, q5, Bool.and_true, Bool.not_eq_false'] at this
    simp only [Access.syntReadCk, Access.puppetCk, Access.pureShadowCk, decide_eq_true_eq] at this hps
    rw [hps] at this
    simp at this

end Verif.Proofs
