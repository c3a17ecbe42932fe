import Verif.Proofs.GenSearch

/-! Renaming the values of a propagation function keeps everything that the search looks at. -/

set_option linter.unusedSectionVars false

namespace Verif.Proofs
open Verif.Model Verif.Spec Verif.Props

variable {d : ℕ}

/-- The renaming on all numbers. -/
def ren (σ : Equiv.Perm (Fin d)) (v : ℕ) : ℕ := if h : v < d then (σ ⟨v, h⟩ : ℕ) else v

theorem ren_lt {σ : Equiv.Perm (Fin d)} {v : ℕ} (h : v < d) : ren σ v < d := by
  unfold ren; rw [dif_pos h]; exact Fin.is_lt _

theorem ren_symm (σ : Equiv.Perm (Fin d)) (v : ℕ) : ren σ.symm (ren σ v) = v := by
  unfold ren
  by_cases h : v < d
  · simp [h]
  · simp [h]

theorem ren_symm' (σ : Equiv.Perm (Fin d)) (v : ℕ) : ren σ (ren σ.symm v) = v := by
  have := ren_symm σ.symm v
  simpa using this

theorem ren_inj (σ : Equiv.Perm (Fin d)) {v w : ℕ} : ren σ v = ren σ w ↔ v = w := by
  constructor
  · intro h
    have := congrArg (ren σ.symm) h
    rwa [ren_symm, ren_symm] at this
  · rintro rfl; rfl

theorem ren_fin (σ : Equiv.Perm (Fin d)) (v : Fin d) : ren σ v = (σ v : ℕ) := by
  unfold ren; rw [dif_pos v.2]

theorem renamed_step {σ : Equiv.Perm (Fin d)} {P Q : List ℕ} (h : PpgRenamed σ P Q) {a b c : ℕ}
    (hs : PpgStep P d a b c) : PpgStep Q d (ren σ a) (ren σ b) (ren σ c) := by
  obtain ⟨ha, hb, hc, e⟩ := hs
  refine ⟨ren_lt ha, ren_lt hb, ren_lt hc, ?_⟩
  have := (h ⟨a, ha⟩ ⟨b, hb⟩).1 ⟨c, hc⟩ e
  simpa [ren, ha, hb, hc] using this

theorem renamed_symm {σ : Equiv.Perm (Fin d)} {P Q : List ℕ} (hP : PpgTable P d) (h : PpgRenamed σ P Q) :
    PpgRenamed σ.symm Q P := by
  intro a b
  obtain ⟨h1, h2⟩ := h (σ.symm a) (σ.symm b)
  simp only [Equiv.apply_symm_apply] at h1 h2
  have hlt : (σ.symm a : ℕ) * d + σ.symm b < P.length := by rw [hP.1]; exact pair_lt (Fin.is_lt _) (Fin.is_lt _)
  have e : P[(σ.symm a : ℕ) * d + σ.symm b]? = some P[(σ.symm a : ℕ) * d + σ.symm b] :=
    List.getElem?_eq_getElem hlt
  have hv := hP.2 _ (List.getElem_mem hlt)
  generalize P[(σ.symm a : ℕ) * d + σ.symm b] = v at *
  rcases Nat.lt_or_ge v d with hv' | hv'
  · have h3 := h1 ⟨v, hv'⟩ e
    refine ⟨fun c hc => ?_, fun hc => ?_⟩
    · rw [h3, Option.some.injEq] at hc
      have : σ ⟨v, hv'⟩ = c := Fin.ext hc
      rw [e, ← this]; simp
    · rw [h3, Option.some.injEq] at hc
      have := (σ ⟨v, hv'⟩).2
      omega
  · have hvd : v = d := by omega
    subst hvd
    have h3 := h2 e
    refine ⟨fun c hc => ?_, fun hc => e⟩
    rw [h3, Option.some.injEq] at hc
    have := c.2
    omega

theorem renamed_step_iff {σ : Equiv.Perm (Fin d)} {P Q : List ℕ} (hP : PpgTable P d) (h : PpgRenamed σ P Q)
    {a b c : ℕ} : PpgStep Q d a b c ↔ PpgStep P d (ren σ.symm a) (ren σ.symm b) (ren σ.symm c) := by
  constructor
  · exact renamed_step (renamed_symm hP h)
  · intro hs
    have := renamed_step h hs
    rwa [ren_symm', ren_symm', ren_symm'] at this

theorem renamed_exclude (σ : Equiv.Perm (Fin d)) {nw : Bool} {a b c a' b' c' : ℕ} :
    Exclude nw (ren σ a, ren σ b, ren σ c) (ren σ a', ren σ b', ren σ c') ↔ Exclude nw (a, b, c) (a', b', c') := by
  simp only [Exclude, ren_inj]

theorem renamed_space {σ : Equiv.Perm (Fin d)} {P Q : List ℕ} {nw : Bool} (hP : SearchSpace nw P d)
    (hQ : PpgTable Q d) (h : PpgRenamed σ P Q) : SearchSpace nw Q d := by
  have st : ∀ {a b c}, PpgStep Q d a b c ↔ _ := fun {a b c} => renamed_step_iff (a := a) (b := b) (c := c) ⟨hP.len, hP.vals⟩ h
  refine ⟨hQ.1, hQ.2, fun a b c hs e => ?_, fun hn a b c hs e => ?_, fun a b c a' b' c' hs hs' hne hex => ?_⟩
  · exact hP.moves _ _ _ (st.1 hs) (by rw [e])
  · exact hP.noCopy hn _ _ _ (st.1 hs) (by rw [e])
  · refine hP.compat _ _ _ _ _ _ (st.1 hs) (st.1 hs') (fun e => hne ?_) ((renamed_exclude _).2 hex)
    simp only [Prod.mk.injEq, ren_inj] at e
    rw [e.1, e.2.1, e.2.2]

theorem renamed_bands {σ : Equiv.Perm (Fin d)} {P Q : List ℕ} (hP : PpgTable P d) (h : PpgRenamed σ P Q)
    (hb : AllInBands P d) : AllInBands Q d := by
  intro a b c hs
  obtain ⟨n, t, m, bot, hband, h1, h2⟩ := hb _ _ _ ((renamed_step_iff hP h).1 hs)
  refine ⟨n, fun i => ren σ (t i), fun i => ren σ (m i), fun i => ren σ (bot i), ⟨hband.pos, fun i => ?_,
    fun i => renamed_step h (hband.mid i), fun i => renamed_step h (hband.bot i), fun i => ?_, fun i => ?_, fun i => ?_⟩,
    ?_, ?_⟩
  · obtain ⟨x, hx⟩ := hband.top i
    exact ⟨ren σ x, renamed_step h hx⟩
  · simp only [hband.pt]
  · simp only [hband.pm]
  · simp only [hband.pb]
  · simp only [h1, ren_symm']
  · simp only [h2, ren_symm']

theorem renamed_torus {σ : Equiv.Perm (Fin d)} {P Q : List ℕ} {w k : ℕ} {T : ℕ → ℕ → ℕ} (h : PpgRenamed σ P Q)
    (ht : Torus P d w k T) : Torus Q d w k fun r c => ren σ (T r c) :=
  ⟨fun r c => renamed_step h (ht.tile r c), fun r c => by simp only [ht.rows], fun r c => by simp only [ht.cols]⟩

theorem renamed_livelock {σ : Equiv.Perm (Fin d)} {P Q : List ℕ} {n : ℕ} (h : PpgRenamed σ P Q)
    (hl : HasLivelock (PpgProtocol P d : ZMod n → ℕ → ℕ → ℕ → Prop)) :
    HasLivelock (PpgProtocol Q d : ZMod n → ℕ → ℕ → ℕ → Prop) := by
  obtain ⟨e, he⟩ := hl
  refine ⟨fun t i => ren σ (e t i), fun t => ?_⟩
  obtain ⟨i, c, hs, hu⟩ := he t
  refine ⟨i, ren σ c, renamed_step h hs, ?_⟩
  funext j
  simp only [hu]
  by_cases hj : j = i
  · subst hj; simp
  · simp [hj]

theorem space_selfDisabling {P : List ℕ} {nw : Bool} (hP : SearchSpace nw P d) : PpgSelfDisabling P d := by
  intro a b c e h1 h2
  refine hP.compat _ _ _ _ _ _ h1 h2 (fun h => ?_) (.inr (.inl ⟨rfl, rfl⟩))
  simp only [Prod.mk.injEq] at h
  exact hP.moves _ _ _ h1 h.2.1

/-- Two values can be renamed to 0 and 1. -/
theorem exists_perm2 {a b : ℕ} (ha : a < d) (hb : b < d) (hab : a ≠ b) :
    ∃ σ : Equiv.Perm (Fin d), ren σ a = 0 ∧ ren σ b = 1 := by
  let z : Fin d := ⟨0, by omega⟩
  let o : Fin d := ⟨1, by omega⟩
  have hzo : z ≠ o := by simp [z, o]
  let A : Fin d := ⟨a, ha⟩
  let E : Fin d := ⟨b, hb⟩
  let s := Equiv.swap A z
  have h1 : s A = z := Equiv.swap_apply_left _ _
  have h2 : s E ≠ z := by
    rw [← h1]; intro e
    have := s.injective e
    simp only [A, E, Fin.mk.injEq] at this
    exact hab this.symm
  refine ⟨s.trans (Equiv.swap (s E) o), ?_, ?_⟩
  · rw [show a = (A : ℕ) from rfl, ren_fin]
    simp only [Equiv.trans_apply, h1]
    rw [Equiv.swap_apply_of_ne_of_ne h2.symm hzo]
  · rw [show b = (E : ℕ) from rfl, ren_fin]
    simp [o]

/-- Three values can be renamed to 0, 1 and 2. -/
theorem exists_perm3 {a b c : ℕ} (ha : a < d) (hb : b < d) (hc : c < d) (hab : a ≠ b) (hac : a ≠ c) (hbc : b ≠ c) :
    ∃ σ : Equiv.Perm (Fin d), ren σ a = 0 ∧ ren σ b = 1 ∧ ren σ c = 2 := by
  obtain ⟨s, h1, h2⟩ := exists_perm2 ha hb hab
  have hd : 2 < d := by omega
  let C : Fin d := ⟨c, hc⟩
  let t : Fin d := ⟨2, hd⟩
  have ne : ∀ {x : Fin d}, (x : ℕ) ≠ c → s x ≠ s C := by
    intro x hx e
    exact hx (congrArg Fin.val (s.injective e))
  rw [show a = ((⟨a, ha⟩ : Fin d) : ℕ) from rfl, ren_fin] at h1
  rw [show b = ((⟨b, hb⟩ : Fin d) : ℕ) from rfl, ren_fin] at h2
  refine ⟨s.trans (Equiv.swap (s C) t), ?_, ?_, ?_⟩
  · rw [show a = ((⟨a, ha⟩ : Fin d) : ℕ) from rfl, ren_fin]
    simp only [Equiv.trans_apply]
    rw [Equiv.swap_apply_of_ne_of_ne (ne hac) (fun e => ?_), h1]
    rw [e] at h1; simp [t] at h1
  · rw [show b = ((⟨b, hb⟩ : Fin d) : ℕ) from rfl, ren_fin]
    simp only [Equiv.trans_apply]
    rw [Equiv.swap_apply_of_ne_of_ne (ne hbc) (fun e => ?_), h2]
    rw [e] at h2; simp [t] at h2
  · rw [show c = (C : ℕ) from rfl, ren_fin]
    simp [t]

/-- The least member of an isomorphism class begins with an action named in order. -/
theorem least_firstNamed {Q : List ℕ} {nw : Bool} (hd : 3 ≤ d) (hQ : SearchSpace nw Q d)
    (hne : ∃ a b c, PpgStep Q d a b c)
    (hmin : ∀ (τ : Equiv.Perm (Fin d)) (Q' : List ℕ), Q'.length = d * d → PpgRenamed τ Q Q' → ¬ Q' < Q) :
    FirstNamed Q d := by
  have hT : PpgTable Q d := ⟨hQ.len, hQ.vals⟩
  have hdd : 3 * 3 ≤ d * d := Nat.mul_le_mul hd hd
  have get : ∀ {P : List ℕ}, PpgTable P d → ∀ i < d * d, P[i]? = some (P.getD i d) ∧ P.getD i d ≤ d := by
    intro P hP i hi
    have e : P[i]? = some (P.getD i d) := by
      rw [List.getD_eq_getElem?_getD, List.getElem?_eq_getElem (by rw [hP.1]; exact hi)]; rfl
    exact ⟨e, hP.2 _ (List.mem_of_getElem? e)⟩
  -- the first two entries of any other member
  have low : ∀ (τ : Equiv.Perm (Fin d)), ∃ Q', PpgTable Q' d ∧ PpgRenamed τ Q Q' ∧
      Q.getD 0 d ≤ Q'.getD 0 d ∧ (Q.getD 0 d = Q'.getD 0 d → Q.getD 1 d ≤ Q'.getD 1 d) := by
    intro τ
    obtain ⟨Q', -, n, r⟩ := permuteAct_renamed τ Q hQ.len hQ.vals
    have hn := hmin τ Q' n r
    rw [lex_lt_iff n hQ.len d] at hn
    push Not at hn
    refine ⟨Q', ⟨n, ?_⟩, r, ?_, fun h0 => ?_⟩
    · intro v hv
      obtain ⟨i, hi, rfl⟩ := List.mem_iff_getElem.1 hv
      have hi' : i < d * d := by rw [← n]; exact hi
      have hk : i / d < d := by rw [Nat.div_lt_iff_lt_mul (by omega)]; omega
      have hm := Nat.mod_lt i (show 0 < d by omega)
      have ei : i / d * d + i % d = i := by rw [Nat.mul_comm]; exact Nat.div_add_mod i d
      have h := (ppgRenamed_iff hQ.len n hQ.vals).1 r (τ.symm ⟨i / d, hk⟩) (τ.symm ⟨i % d, hm⟩)
      simp only [Equiv.apply_symm_apply, pval, ei, List.getD_eq_getElem?_getD, List.getElem?_eq_getElem hi,
        Option.getD_some] at h
      rw [h]; exact rval_le _ _
    · by_contra hlt
      obtain ⟨j, hj, -⟩ := hn 0 (by omega) (by omega)
      omega
    · by_contra hlt
      obtain ⟨j, hj, hne⟩ := hn 1 (by omega) (by omega)
      have : j = 0 := by omega
      subst this
      exact hne h0.symm
  have step0 : Q.getD 0 d < d → PpgStep Q d 0 0 (Q.getD 0 d) := fun h =>
    ⟨by omega, by omega, h, by simpa using (get hT 0 (by omega)).1⟩
  have step1 : Q.getD 1 d < d → PpgStep Q d 0 1 (Q.getD 1 d) := fun h =>
    ⟨by omega, by omega, h, by simpa using (get hT 1 (by omega)).1⟩
  have entry : ∀ {P : List ℕ} {b c : ℕ}, PpgStep P d 0 b c → P.getD b d = c := by
    intro P b c h
    have := h.2.2.2
    rw [Nat.zero_mul, Nat.zero_add] at this
    rw [List.getD_eq_getElem?_getD, this]; rfl
  by_cases h1 : ∃ a c, PpgStep Q d a a c
  · left
    obtain ⟨a, c, hs⟩ := h1
    have hac := hQ.moves _ _ _ hs
    obtain ⟨τ, e1, e2⟩ := exists_perm2 hs.1 hs.2.2.1 hac
    obtain ⟨Q', t', r, l0, -⟩ := low τ
    have hs' := renamed_step r hs
    rw [e1, e2] at hs'
    rw [entry hs'] at l0
    have hq := step0 (by omega)
    have := hQ.moves _ _ _ hq
    rwa [show Q.getD 0 d = 1 by omega] at hq
  · right
    push Not at h1
    refine ⟨fun a c => h1 a c, ?_⟩
    have q0 : Q.getD 0 d = d := by
      by_contra hq
      exact h1 _ _ (step0 (by have := (get hT 0 (by omega)).2; omega))
    have q0' : ∀ {τ : Equiv.Perm (Fin d)} {Q' : List ℕ}, PpgTable Q' d → PpgRenamed τ Q Q' → Q'.getD 0 d = d := by
      intro τ Q' t' r
      by_contra hq
      have hs : PpgStep Q' d 0 0 (Q'.getD 0 d) :=
        ⟨by omega, by omega, by have := (get t' 0 (by omega)).2; omega, by simpa using (get t' 0 (by omega)).1⟩
      exact h1 _ _ ((renamed_step_iff hT r).1 hs)
    by_cases h2 : ∃ a b, PpgStep Q d a b a
    · left
      obtain ⟨a, b, hs⟩ := h2
      have hab := hQ.moves _ _ _ hs
      obtain ⟨τ, e1, e2⟩ := exists_perm2 hs.1 hs.2.1 hab.symm
      obtain ⟨Q', t', r, -, l1⟩ := low τ
      have hs' := renamed_step r hs
      rw [e1, e2] at hs'
      have l1 := l1 (by rw [q0, q0' t' r])
      rw [entry hs'] at l1
      have hq := step1 (by omega)
      rwa [show Q.getD 1 d = 0 by omega] at hq
    · right
      push Not at h2
      refine ⟨fun a b => h2 a b, ?_⟩
      obtain ⟨a, b, c, hs⟩ := hne
      have hab : a ≠ b := by rintro rfl; exact h1 _ _ hs
      have hac : a ≠ c := by rintro rfl; exact h2 _ _ hs
      obtain ⟨τ, e1, e2, e3⟩ := exists_perm3 hs.1 hs.2.1 hs.2.2.1 hab hac (hQ.moves _ _ _ hs)
      obtain ⟨Q', t', r, -, l1⟩ := low τ
      have hs' := renamed_step r hs
      rw [e1, e2, e3] at hs'
      have l1 := l1 (by rw [q0, q0' t' r])
      rw [entry hs'] at l1
      have hq := step1 (by omega)
      have n1 := hQ.moves _ _ _ hq
      have n0 : Q.getD 1 d ≠ 0 := by
        intro e
        rw [e] at hq
        exact h2 _ _ hq
      rwa [show Q.getD 1 d = 2 by omega] at hq

end Verif.Proofs
