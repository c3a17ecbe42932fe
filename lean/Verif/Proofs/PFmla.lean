import Verif.Spec.PFmla

/-! Proofs about formulas, memory part. -/

set_option linter.unusedSectionVars false

namespace Verif.Proofs
open Verif.Model Verif.Spec

variable {ν M : Type} [DecidableEq ν]

theorem pval_phase {st : Store ν M} {p : Ptr} {v : FVal M} (h : pval st p = some v) :
    phaseOf st p = some (match v with | .no => .no | .yes => .yes | .may _ _ => .may) := by
  cases p with
  | null => simp [pval] at h; subst h; rfl
  | base => simp [pval] at h; subst h; rfl
  | obj p =>
    simp only [pval, Option.bind_eq_some_iff, Option.map_eq_some_iff] at h
    obtain ⟨o, h1, m, h2, rfl⟩ := h
    simp [phaseOf, h1]

theorem pval_may {st : Store ν M} {p : Ptr} {k : ℕ} {m : M} (h : pval st p = some (.may k m)) :
    ∃ q, p = .obj q ∧ st.heap q = some ⟨k, some m⟩ := by
  cases p with
  | null => simp [pval] at h
  | base => simp [pval] at h
  | obj p =>
    simp only [pval, Option.bind_eq_some_iff, Option.map_eq_some_iff] at h
    obtain ⟨o, h1, m', h2, h3⟩ := h
    simp only [FVal.may.injEq] at h3
    obtain ⟨rfl, rfl⟩ := h3
    exact ⟨p, rfl, by rw [h1, ← h2]⟩

/-- Freeing the object of `c` and letting `c` be a constant. -/
theorem lose_set {st : Store ν M} (h : Owned st) (c : ν) (q : Ptr) (hq : ∀ p, q ≠ .obj p) :
    ∃ st', lose c st = some st' ∧ st'.vars = st.vars ∧ Owned (setVar st' c q) ∧
      (∀ z, z ≠ c → hval (setVar st' c q) z = hval st z) ∧ st'.brk = st.brk ∧
      (∀ z p, z ≠ c → st.vars z = .obj p → st'.heap p = st.heap p) := by
  have base : (∀ p, st.vars c ≠ .obj p) → Owned (setVar st c q) ∧
      (∀ z, z ≠ c → hval (setVar st c q) z = hval st z) := by
    intro hc
    refine ⟨⟨?_, ?_, ?_, h.fresh⟩, ?_⟩
    · intro x y p hx hy
      by_cases hxc : x = c
      · subst hxc; simp [setVar] at hx; exact absurd hx (hq p)
      · by_cases hyc : y = c
        · subst hyc; simp [setVar] at hy; exact absurd hy (hq p)
        · simp only [setVar, Function.update_of_ne hxc, Function.update_of_ne hyc] at hx hy
          exact h.inj x y p hx hy
    · intro x p hx
      by_cases hxc : x = c
      · subst hxc; simp [setVar] at hx; exact absurd hx (hq p)
      · simp only [setVar, Function.update_of_ne hxc] at hx
        exact h.live x p hx
    · intro p o hp
      obtain ⟨x, hx⟩ := h.noLeak p o hp
      refine ⟨x, ?_⟩
      have hxc : x ≠ c := by rintro rfl; exact hc p hx
      simp only [setVar, Function.update_of_ne hxc, hx]
    · intro z hz
      simp only [hval, setVar, Function.update_of_ne hz]
      cases st.vars z <;> rfl
  unfold lose
  cases hc : st.vars c with
  | null =>
    exact ⟨st, rfl, rfl, (base (by simp [hc])).1, (base (by simp [hc])).2, rfl, fun _ _ _ _ => rfl⟩
  | base =>
    exact ⟨st, rfl, rfl, (base (by simp [hc])).1, (base (by simp [hc])).2, rfl, fun _ _ _ _ => rfl⟩
  | obj p0 =>
    obtain ⟨k, m, hp⟩ := h.live c p0 hc
    simp only [hp, Option.map_some]
    have hne : ∀ z p, z ≠ c → st.vars z = .obj p → p ≠ p0 := by
      rintro z p hz hv rfl
      exact hz (h.inj z c p hv hc)
    refine ⟨_, rfl, rfl, ⟨?_, ?_, ?_, ?_⟩, ?_, rfl, ?_⟩
    · intro x y p hx hy
      by_cases hxc : x = c
      · subst hxc; simp [setVar] at hx; exact absurd hx (hq p)
      · by_cases hyc : y = c
        · subst hyc; simp [setVar] at hy; exact absurd hy (hq p)
        · simp only [setVar, Function.update_of_ne hxc, Function.update_of_ne hyc] at hx hy
          exact h.inj x y p hx hy
    · intro x p hx
      by_cases hxc : x = c
      · subst hxc; simp [setVar] at hx; exact absurd hx (hq p)
      · simp only [setVar, Function.update_of_ne hxc] at hx
        simp only [setVar, Function.update_of_ne (hne x p hxc hx)]
        exact h.live x p hx
    · intro p o hp'
      by_cases hpp : p = p0
      · subst hpp; simp [setVar] at hp'
      · simp only [setVar, Function.update_of_ne hpp] at hp'
        obtain ⟨x, hx⟩ := h.noLeak p o hp'
        refine ⟨x, ?_⟩
        have hxc : x ≠ c := by
          rintro rfl
          rw [hc] at hx; exact hpp (by simpa [eq_comm] using hx)
        simp only [setVar, Function.update_of_ne hxc, hx]
    · intro p hp'
      by_cases hpp : p = p0
      · subst hpp; simp [setVar]
      · simp only [setVar, Function.update_of_ne hpp]
        exact h.fresh p hp'
    · intro z hz
      simp only [hval, setVar, Function.update_of_ne hz]
      cases hv : st.vars z with
      | null => rfl
      | base => rfl
      | obj p => simp only [pval, Function.update_of_ne (hne z p hz hv)]
    · intro z p hz hv
      simp only [Function.update_of_ne (hne z p hz hv)]

theorem wipe1_spec {st : Store ν M} (h : Owned st) (c : ν) (b : Bool) :
    ∃ st', wipe1 c b st = some st' ∧ Sets st st' c (cval b) := by
  obtain ⟨st', h1, h2, h3, h4, -⟩ := lose_set h c (if b then .base else .null) (by cases b <;> simp)
  refine ⟨_, by rw [wipe1, h1]; rfl, h3, ?_, h4⟩
  cases b <;> simp [hval, phaseFo, setVar, pval, cval]

/-- After `cons` and writing the diagram. -/
theorem cons_write {st : Store ν M} (h : Owned st) (c : ν) (hc : ∀ p, st.vars c ≠ .obj p) (k : ℕ) (r : M) :
    ∃ st', writeMdd c r (consTo c k st) = some st' ∧ Sets st st' c (.may k r) := by
  have hne : ∀ z p, st.vars z = .obj p → p ≠ st.brk := by
    rintro z p hv rfl
    obtain ⟨k, m, hp⟩ := h.live z _ hv
    rw [h.fresh _ (le_refl _)] at hp; cases hp
  refine ⟨_, by simp only [writeMdd, consTo, Function.update_self, Option.map_some]; rfl, ⟨?_, ?_, ?_, ?_⟩,
    by simp [hval, pval], ?_⟩
  · intro x y p hx hy
    by_cases hxc : x = c
    · by_cases hyc : y = c
      · rw [hxc, hyc]
      · simp only [hxc, Function.update_self, Function.update_of_ne hyc] at hx hy
        simp only [Ptr.obj.injEq] at hx
        exact absurd hx.symm (hne y p hy)
    · by_cases hyc : y = c
      · simp only [hyc, Function.update_self, Function.update_of_ne hxc] at hx hy
        simp only [Ptr.obj.injEq] at hy
        exact absurd hy.symm (hne x p hx)
      · simp only [Function.update_of_ne hxc, Function.update_of_ne hyc] at hx hy
        exact h.inj x y p hx hy
  · intro x p hx
    by_cases hxc : x = c
    · simp only [hxc, Function.update_self, Ptr.obj.injEq] at hx
      subst hx
      exact ⟨k, r, by simp⟩
    · simp only [Function.update_of_ne hxc] at hx
      simp only [Function.update_of_ne (hne x p hx)]
      exact h.live x p hx
  · intro p o hp
    by_cases hpp : p = st.brk
    · exact ⟨c, by simp [hpp]⟩
    · simp only [Function.update_of_ne hpp] at hp
      obtain ⟨x, hx⟩ := h.noLeak p o hp
      have hxc : x ≠ c := by rintro rfl; exact hc p hx
      exact ⟨x, by simp only [Function.update_of_ne hxc, hx]⟩
  · intro p hp
    have hp' : st.brk + 1 ≤ p := hp
    have : p ≠ st.brk := by omega
    simp only [Function.update_of_ne this]
    exact h.fresh p (by omega)
  · intro z hz
    simp only [hval, Function.update_of_ne hz]
    cases hv : st.vars z with
    | null => rfl
    | base => rfl
    | obj p => simp only [pval, Function.update_of_ne (hne z p hv)]

/-- Writing the diagram of a handle. -/
theorem write_own {st : Store ν M} (h : Owned st) (c : ν) {p : ℕ} {k : ℕ} {m : M} (hc : st.vars c = .obj p)
    (hp : st.heap p = some ⟨k, some m⟩) (r : M) :
    ∃ st', writeMdd c r st = some st' ∧ Sets st st' c (.may k r) := by
  have hne : ∀ z q, z ≠ c → st.vars z = .obj q → q ≠ p := by
    rintro z q hz hv rfl
    exact hz (h.inj z c q hv hc)
  refine ⟨⟨st.vars, Function.update st.heap p (some ⟨k, some r⟩), st.brk⟩,
    by simp only [writeMdd, hc, hp, Option.map_some], ⟨h.inj, ?_, ?_, ?_⟩, by simp [hval, pval, hc], ?_⟩
  · intro x q hx
    by_cases hq : q = p
    · exact ⟨k, r, by simp [hq]⟩
    · simp only [Function.update_of_ne hq]; exact h.live x q hx
  · intro q o hq
    by_cases hqp : q = p
    · exact ⟨c, by rw [hqp]; exact hc⟩
    · simp only [Function.update_of_ne hqp] at hq
      exact h.noLeak q o hq
  · intro q hq
    have := h.fresh q hq
    have hqp : q ≠ p := by rintro rfl; rw [hp] at this; cases this
    simp only [Function.update_of_ne hqp, this]
  · intro z hz
    simp only [hval]
    cases hv : st.vars z with
    | null => rfl
    | base => rfl
    | obj q => simp only [pval, Function.update_of_ne (hne z q hz hv)]

theorem sets_trans {st st1 st2 : Store ν M} {c : ν} {v : FVal M} (h1 : ∀ z, z ≠ c → hval st1 z = hval st z)
    (h2 : Sets st1 st2 c v) : Sets st st2 c v :=
  ⟨h2.1, h2.2.1, fun z hz => (h2.2.2 z hz).trans (h1 z hz)⟩

/-- After `pre_op2_PFmla` the operands are still there and the destination can be written. -/
theorem preOp2_spec {st : Store ν M} (h : Owned st) (c x y : ν) {k : ℕ} {m m' : M}
    (hx : hval st x = some (.may k m)) (hy : hval st y = some (.may k m')) :
    ∃ st1, preOp2 c (st.vars x) (st.vars y) st = some st1 ∧ mddOf st1 (st.vars x) = some m ∧
      mddOf st1 (st.vars y) = some m' ∧ ∀ r, ∃ st2, writeMdd c r st1 = some st2 ∧ Sets st st2 c (.may k r) := by
  obtain ⟨p, hxp, hp⟩ := pval_may hx
  obtain ⟨q, hyq, hq⟩ := pval_may hy
  rw [hxp, hyq]
  have hbrk : ∀ z r o, st.vars z = .obj r → st.heap r = some o → r ≠ st.brk := by
    rintro z r o - hr rfl
    rw [h.fresh _ (le_refl _)] at hr; cases hr
  have hpb := hbrk x p _ hxp hp
  have hqb := hbrk y q _ hyq hq
  cases hc : st.vars c with
  | null =>
    refine ⟨consTo c k st, ?_, ?_, ?_, fun r => cons_write h c (by simp [hc]) k r⟩
    · simp [preOp2, ctxOf, hp, hq, hc, phaseOf]
    · simp [mddOf, consTo, Function.update_of_ne hpb, hp]
    · simp [mddOf, consTo, Function.update_of_ne hqb, hq]
  | base =>
    obtain ⟨st', h1, h2, h3, h4, h5, h6⟩ := lose_set h c .null (by simp)
    have hst' : st' = st := by simp [lose, hc] at h1; exact h1.symm
    subst hst'
    refine ⟨consTo c k (setVar st' c .null), ?_, ?_, ?_, fun r => ?_⟩
    · simp [preOp2, ctxOf, hp, hq, hc, wipe, h1, phaseOf, setVar]
    · simp [mddOf, consTo, setVar, Function.update_of_ne hpb, hp]
    · simp [mddOf, consTo, setVar, Function.update_of_ne hqb, hq]
    · obtain ⟨st2, g1, g2⟩ := cons_write h3 c (by simp [setVar]) k r
      exact ⟨st2, g1, sets_trans h4 g2⟩
  | obj s =>
    obtain ⟨kc, mc, hs⟩ := h.live c s hc
    by_cases hk : kc = k
    · subst hk
      refine ⟨st, ?_, ?_, ?_, fun r => write_own h c hc hs r⟩
      · simp [preOp2, ctxOf, hp, hq, hc, hs, phaseOf]
      · simp [mddOf, hp]
      · simp [mddOf, hq]
    · obtain ⟨st', h1, h2, h3, h4, h5, h6⟩ := lose_set h c .null (by simp)
      have hxc : x ≠ c := by
        rintro rfl
        rw [hxp] at hc
        simp only [Ptr.obj.injEq] at hc
        subst hc
        rw [hp] at hs
        simp at hs
        exact hk hs.1.symm
      have hyc : y ≠ c := by
        rintro rfl
        rw [hyq] at hc
        simp only [Ptr.obj.injEq] at hc
        subst hc
        rw [hq] at hs
        simp at hs
        exact hk hs.1.symm
      refine ⟨consTo c k (setVar st' c .null), ?_, ?_, ?_, fun r => ?_⟩
      · simp [preOp2, ctxOf, hp, hq, hc, hs, hk, wipe, h1, phaseOf, setVar]
      · simp [mddOf, consTo, setVar, h5, Function.update_of_ne hpb, h6 x p hxc hxp, hp]
      · simp [mddOf, consTo, setVar, h5, Function.update_of_ne hqb, h6 y q hyc hyq, hq]
      · obtain ⟨st2, g1, g2⟩ := cons_write h3 c (by simp [setVar]) k r
        exact ⟨st2, g1, sets_trans h4 g2⟩

theorem unary_spec {st : Store ν M} (h : Owned st) (k : Bool → Bool) (f : M → M) (c x : ν) {v : FVal M}
    (hx : hval st x = some v) :
    ∃ st', unary k f c (st.vars x) st = some st' ∧ Sets st st' c (unV k f v) := by
  rw [unary, pval_phase hx]
  cases v with
  | no => exact wipe1_spec h c _
  | yes => exact wipe1_spec h c _
  | may ctx m =>
    obtain ⟨st1, h1, h2, -, h4⟩ := preOp2_spec h c x x hx hx
    obtain ⟨st2, h5, h6⟩ := h4 (f m)
    exact ⟨st2, by simp [h1, h2, h5], h6⟩

theorem binaryMay_spec {st : Store ν M} (h : Owned st) (f : M → M → M) (c x y : ν) {k : ℕ} {m m' : M}
    (hx : hval st x = some (.may k m)) (hy : hval st y = some (.may k m')) :
    ∃ st', binaryMay f c (st.vars x) (st.vars y) st = some st' ∧ Sets st st' c (.may k (f m m')) := by
  obtain ⟨st1, h1, h2, h3, h4⟩ := preOp2_spec h c x y hx hy
  obtain ⟨st2, h5, h6⟩ := h4 (f m m')
  exact ⟨st2, by simp [binaryMay, h1, h2, h3, h5], h6⟩

/-- A branch that computes a function of one operand. -/
def Does (st : Store ν M) (c : ν) (F : Store ν M → Option (Store ν M)) (v : FVal M) : Prop :=
  ∃ st', F st = some st' ∧ Sets st st' c v

theorem branchA_spec {st : Store ν M} (c x y : ν) {v w : FVal M}
    (hx : hval st x = some v) (hy : hval st y = some w) (hc : Compat v w)
    {A B C D E : Store ν M → Option (Store ν M)} {aYes aNo bYes bNo : FVal M → FVal M} {f : M → M → M}
    (hA : Does st c A (aYes w)) (hB : Does st c B (aNo w)) (hC : Does st c C (bYes v)) (hD : Does st c D (bNo v))
    (hE : ∀ k m m', v = .may k m → w = .may k m' → Does st c E (.may k (f m m'))) :
    Does st c (branchA (st.vars x) (st.vars y) A B C D E) (brV aYes aNo bYes bNo f v w) := by
  unfold Does branchA
  rw [pval_phase hx]
  have hy' := pval_phase hy
  simp only [Option.bind_some]
  rw [hy']
  simp only [Option.bind_some]
  cases v with
  | yes => exact hA
  | no => exact hB
  | may k m =>
    cases w with
    | yes => exact hC
    | no => exact hD
    | may k' m' =>
      have : k = k' := hc
      subst this
      exact hE k m m' rfl rfl

theorem run1_spec (vt : Vt M) (op : Op1) {st : Store ν M} (h : Owned st) (c x : ν) {v : FVal M}
    (hx : hval st x = some v) :
    ∃ st', run1 vt op c (st.vars x) st = some st' ∧ Sets st st' c (op1V vt op v) := by
  cases op <;> exact unary_spec h _ _ c x hx

theorem run2_spec (vt : Vt M) (op : Op2) {st : Store ν M} (h : Owned st) (c x y : ν) {v w : FVal M}
    (hx : hval st x = some v) (hy : hval st y = some w) (hc : Compat v w) :
    ∃ st', run2 vt op c (st.vars x) (st.vars y) st = some st' ∧ Sets st st' c (op2V vt op v w) := by
  have hc' : Compat w v := by
    cases v <;> cases w <;> first | trivial | exact Eq.symm hc
  have hE : ∀ f : M → M → M, ∀ k m m', v = .may k m → w = .may k m' →
      Does st c (binaryMay f c (st.vars x) (st.vars y)) (.may k (f m m')) := by
    intro f k m m' h1 h2
    subst h1; subst h2
    exact binaryMay_spec h f c x y hx hy
  have hE' : ∀ f : M → M → M, ∀ k m m', w = .may k m → v = .may k m' →
      Does st c (binaryMay f c (st.vars x) (st.vars y)) (.may k (f m' m)) :=
    fun f k m m' h1 h2 => hE f k m' m h2 h1
  have w1 : ∀ b, Does st c (wipe1 c b) (cval b) := fun b => wipe1_spec h c b
  have u1 : ∀ k f, Does st c (unary k f c (st.vars x)) (unV k f v) := fun k f => unary_spec h k f c x hx
  have u2 : ∀ k f, Does st c (unary k f c (st.vars y)) (unV k f w) := fun k f => unary_spec h k f c y hy
  change Does st c (run2 vt op c (st.vars x) (st.vars y)) (op2V vt op v w)
  cases op with
  | and =>
    simp only [run2, andP, op2V]
    refine branchA_spec c x y hx hy hc ?_ ?_ ?_ ?_ ?_
    exacts [u2 _ _, w1 false, u1 _ _, w1 false, hE _]
  | or =>
    simp only [run2, orP, op2V]
    refine branchA_spec c x y hx hy hc ?_ ?_ ?_ ?_ ?_
    exacts [w1 true, u2 _ _, w1 true, u1 _ _, hE _]
  | nimp =>
    simp only [run2, nimpP, op2V]
    refine branchA_spec c x y hx hy hc ?_ ?_ ?_ ?_ ?_
    exacts [u2 _ _, w1 false, w1 false, u1 _ _, hE _]
  | xnor =>
    simp only [run2, xnorP, op2V]
    refine branchA_spec c x y hx hy hc ?_ ?_ ?_ ?_ ?_
    exacts [u2 _ _, u2 _ _, u1 _ _, u1 _ _, hE _]
  | xor =>
    simp only [run2, xorP, op2V]
    refine branchA_spec c x y hx hy hc ?_ ?_ ?_ ?_ ?_
    exacts [u2 _ _, u2 _ _, u1 _ _, u1 _ _, hE _]
  | pre1 =>
    simp only [run2, pre1P, op2V]
    refine branchA_spec c y x hy hx hc' ?_ ?_ ?_ ?_ ?_
    exacts [u1 _ _, w1 false, w1 true, w1 false, hE' _]
  | pre2 l =>
    simp only [run2, pre2P, op2V]
    refine branchA_spec c y x hy hx hc' ?_ ?_ ?_ ?_ ?_
    exacts [u1 _ _, w1 false, u2 _ _, w1 false, hE' _]
  | img1 =>
    simp only [run2, img1P, op2V]
    refine branchA_spec c y x hy hx hc' ?_ ?_ ?_ ?_ ?_
    exacts [u1 _ _, w1 false, w1 true, w1 false, hE' _]
  | img2 l =>
    simp only [run2, img2P, op2V]
    refine branchA_spec c y x hy hx hc' ?_ ?_ ?_ ?_ ?_
    exacts [u1 _ _, w1 false, u2 _ _, w1 false, hE' _]
  | dotjoin =>
    simp only [run2, dotjoinP, op2V]
    refine branchA_spec c y x hy hx hc' ?_ ?_ ?_ ?_ ?_
    exacts [u1 _ _, w1 false, u2 _ _, w1 false, hE' _]

end Verif.Proofs
