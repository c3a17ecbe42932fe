import Verif.Proofs.PFmlaVbl
import Mathlib.Data.Fin.VecNotation

/-!
Properties of formulas.

* C41: formulas kept as constants behave like the sets they denote.
* C42: image and preimage of constants.
* C65: handles neither share nor lose objects; a destination may also be an operand.
* C66: picking a state; comparing variables.
-/

set_option linter.unusedSectionVars false

namespace Verif.Props
open Verif.Model Verif.Spec Verif.Proofs

variable {ν M : Type} [DecidableEq ν]

/-! ### C65: memory -/

/-- Every operation with one operand, for every table of functions: it succeeds, sets the destination to a
value that depends on the operand only, changes no other handle, and leaves no object shared, freed while in
use, or lost.  The destination `c` may be the operand `x`. -/
theorem C65_one_operand (vt : Vt M) (op : Op1) (st : Store ν M) (h : Owned st) (c x : ν) (v : FVal M)
    (hx : hval st x = some v) :
    ∃ st', run1 vt op c (st.vars x) st = some st' ∧ Sets st st' c (op1V vt op v) :=
  run1_spec vt op h c x hx

/-- Every operation with two operands of the same context or constants; any of the three handles may be the
same. -/
theorem C65_two_operands (vt : Vt M) (op : Op2) (st : Store ν M) (h : Owned st) (c x y : ν) (v w : FVal M)
    (hx : hval st x = some v) (hy : hval st y = some w) (hc : Compat v w) :
    ∃ st', run2 vt op c (st.vars x) (st.vars y) st = some st' ∧ Sets st st' c (op2V vt op v w) :=
  run2_spec vt op h c x y hx hy hc

/-- Formulas of different contexts cannot be combined. -/
theorem C65_contexts (vt : Vt M) (op : Op2) (st : Store ν M) (c x y : ν) (k k' : ℕ) (m m' : M) (hk : k ≠ k')
    (hx : hval st x = some (.may k m)) (hy : hval st y = some (.may k' m')) :
    run2 vt op c (st.vars x) (st.vars y) st = none := by
  have hb : ∀ f : M → M → M, binaryMay f c (st.vars x) (st.vars y) st = none := by
    intro f
    obtain ⟨p, hxp, hp⟩ := pval_may hx
    obtain ⟨q, hyq, hq⟩ := pval_may hy
    simp [binaryMay, preOp2, hxp, hyq, ctxOf, hp, hq, hk]
  cases op <;> simp [run2, andP, orP, nimpP, xnorP, xorP, pre1P, pre2P, img1P, img2P, dotjoinP, branchA,
    pval_phase hx, pval_phase hy, hb]

/-- The value of each handle exists in an owned store. -/
theorem C65_handles_valid (st : Store ν M) (h : Owned st) (x : ν) : ∃ v, hval st x = some v := by
  unfold hval
  cases hx : st.vars x with
  | null => exact ⟨.no, rfl⟩
  | base => exact ⟨.yes, rfl⟩
  | obj p =>
    obtain ⟨k, m, hp⟩ := h.live x p hx
    exact ⟨.may k m, by simp [pval, hp]⟩

/-- Once all handles are constants (as after `lose_PFmla` in a destructor) no object is left. -/
theorem C65_no_leak (st : Store ν M) (h : Owned st) (hc : ∀ x p, st.vars x ≠ .obj p) (p : ℕ) : st.heap p = none := by
  by_contra hp
  obtain ⟨o, ho⟩ := Option.ne_none_iff_exists'.1 hp
  obtain ⟨x, hx⟩ := h.noLeak p o ho
  exact hc x p hx

/-- Two handles: the first has a diagram in context 7, the second is `true`. -/
def exStore (M : Type) (m : M) : Store Bool M :=
  ⟨fun x => if x then .base else .obj 0, fun p => if p = 0 then some ⟨7, some m⟩ else none, 1⟩

theorem exStore_owned (M : Type) (m : M) : Owned (exStore M m) := by
  refine ⟨?_, ?_, ?_, ?_⟩
  · intro x y p hx hy
    cases x <;> cases y <;> simp [exStore] at hx hy ⊢
  · intro x p hx
    cases x <;> simp [exStore] at hx
    subst hx
    exact ⟨7, m, by simp [exStore]⟩
  · intro p o hp
    by_cases h : p = 0
    · exact ⟨false, by simp [exStore, h]⟩
    · simp [exStore, h] at hp
  · intro p hp
    have : (1 : ℕ) ≤ p := hp
    have h : p ≠ 0 := by omega
    simp [exStore, h]

/-- A case of `C65_two_operands` in which the destination is an operand. -/
example (vt : Vt ℕ) : ∃ st', run2 vt .nimp false ((exStore ℕ 5).vars true) ((exStore ℕ 5).vars false) (exStore ℕ 5) = some st' ∧
    Sets (exStore ℕ 5) st' false (.may 7 (vt.op2 .not0 5 5)) :=
  C65_two_operands vt .nimp (exStore ℕ 5) (exStore_owned ℕ 5) false true false .yes (.may 7 5) rfl rfl trivial

/-- A case of `C65_contexts`. -/
example (vt : Vt ℕ) : run2 vt .and true (.obj 0) (.obj 1)
    (⟨fun x => if x then .obj 1 else .obj 0, fun p => some ⟨p, some 3⟩, 2⟩ : Store Bool ℕ) = none :=
  C65_contexts vt .and ⟨fun x => if x then .obj 1 else .obj 0, fun p => some ⟨p, some 3⟩, 2⟩ true false true 0 1 3 3
    (by decide) rfl rfl

theorem instr_spec (vt : Vt M) (i : Instr ν) (st : Store ν M) (h : Owned st) (K : ℕ) (ρ : ν → FVal M)
    (hρ : ∀ x, hval st x = some (ρ x)) (hK : OneCtx K ρ) :
    ∃ st', runInstr vt st i = some st' ∧ Owned st' ∧ (∀ x, hval st' x = some (valInstr vt ρ i x)) ∧
      OneCtx K (valInstr vt ρ i) := by
  have fin : ∀ (c : ν) (v : FVal M) (F : Store ν M → Option (Store ν M)),
      (∃ st', F st = some st' ∧ Sets st st' c v) → (∀ k m, v = .may k m → k = K) →
      ∃ st', F st = some st' ∧ Owned st' ∧ (∀ x, hval st' x = some (Function.update ρ c v x)) ∧
        OneCtx K (Function.update ρ c v) := by
    rintro c v F ⟨st', h1, h2, h3, h4⟩ hv
    refine ⟨st', h1, h2, fun x => ?_, fun x k m hx => ?_⟩
    · by_cases hx : x = c
      · subst hx; rw [h3, Function.update_self]
      · rw [h4 x hx, hρ, Function.update_of_ne hx]
    · by_cases hxc : x = c
      · subst hxc; rw [Function.update_self] at hx; exact hv k m hx
      · rw [Function.update_of_ne hxc] at hx; exact hK x k m hx
  have un : ∀ (kk : Bool → Bool) (f : M → M) (v : FVal M) (k : ℕ) (m : M), (∀ k m, v = .may k m → k = K) →
      unV kk f v = .may k m → k = K := by
    intro kk f v k m hv hu
    cases v with
    | no => simp only [unV, cval] at hu; split at hu <;> cases hu
    | yes => simp only [unV, cval] at hu; split at hu <;> cases hu
    | may k' m' => simp only [unV, FVal.may.injEq] at hu; rw [← hu.1]; exact hv k' m' rfl
  cases i with
  | const c b =>
    refine fin c (cval b) (wipe1 c b) (wipe1_spec h c b) ?_
    intro k m hv; cases b <;> cases hv
  | op1 op c x =>
    refine fin c _ (run1 vt op c (st.vars x)) (run1_spec vt op h c x (hρ x)) ?_
    intro k m hv
    cases op <;> exact un _ _ _ k m (hK x) hv
  | op2 op c x y =>
    have hc : Compat (ρ x) (ρ y) := by
      cases hx : ρ x <;> cases hy : ρ y <;> try trivial
      exact (hK _ _ _ hx).trans (hK _ _ _ hy).symm
    refine fin c _ (run2 vt op c (st.vars x) (st.vars y)) (run2_spec vt op h c x y (hρ x) (hρ y) hc) ?_
    intro k m hv
    have br : ∀ (A B C D : FVal M → FVal M) (f : M → M → M) (v w : FVal M), brV A B C D f v w = .may k m →
        (∀ k m, v = .may k m → k = K) → (∀ k m, A w = .may k m → k = K) → (∀ k m, B w = .may k m → k = K) →
        (∀ k m, C v = .may k m → k = K) → (∀ k m, D v = .may k m → k = K) → k = K := by
      intro A B C D f v w hbr hv hA hB hC hD
      cases v with
      | yes => exact hA k m hbr
      | no => exact hB k m hbr
      | may k1 m1 =>
        cases w with
        | yes => exact hC k m hbr
        | no => exact hD k m hbr
        | may k2 m2 => simp only [brV, FVal.may.injEq] at hbr; rw [← hbr.1]; exact hv k1 m1 rfl
    have hx := hK x
    have hy := hK y
    have c1 : ∀ (k : ℕ) (m : M), (FVal.no : FVal M) = .may k m → k = K := by intro _ _ h; cases h
    have c2 : ∀ (k : ℕ) (m : M), (FVal.yes : FVal M) = .may k m → k = K := by intro _ _ h; cases h
    have ux : ∀ kk f k m, unV kk f (ρ x) = .may k m → k = K := fun kk f k m => un kk f _ k m hx
    have uy : ∀ kk f k m, unV kk f (ρ y) = .may k m → k = K := fun kk f k m => un kk f _ k m hy
    cases op <;> simp only [op2V] at hv
    case and => exact br _ _ _ _ _ _ _ hv hx (uy _ _) c1 (ux _ _) c1
    case or => exact br _ _ _ _ _ _ _ hv hx c2 (uy _ _) c2 (ux _ _)
    case nimp => exact br _ _ _ _ _ _ _ hv hx (uy _ _) c1 c1 (ux _ _)
    case xnor => exact br _ _ _ _ _ _ _ hv hx (uy _ _) (uy _ _) (ux _ _) (ux _ _)
    case xor => exact br _ _ _ _ _ _ _ hv hx (uy _ _) (uy _ _) (ux _ _) (ux _ _)
    case pre1 => exact br _ _ _ _ _ _ _ hv hy (ux _ _) c1 c2 c1
    case pre2 l => exact br _ _ _ _ _ _ _ hv hy (ux _ _) c1 (uy _ _) c1
    case img1 => exact br _ _ _ _ _ _ _ hv hy (ux _ _) c1 c2 c1
    case img2 l => exact br _ _ _ _ _ _ _ hv hy (ux _ _) c1 (uy _ _) c1
    case dotjoin => exact br _ _ _ _ _ _ _ hv hy (ux _ _) c1 (uy _ _) c1

/-- Every program over handles of one context runs to the end without touching freed memory, leaves memory in
order, and computes the values of the value-level program. -/
theorem C65_programs (vt : Vt M) (prog : List (Instr ν)) (st : Store ν M) (h : Owned st) (K : ℕ) (ρ : ν → FVal M)
    (hρ : ∀ x, hval st x = some (ρ x)) (hK : OneCtx K ρ) :
    ∃ st', prog.foldlM (runInstr vt) st = some st' ∧ Owned st' ∧
      (∀ x, hval st' x = some (prog.foldl (valInstr vt) ρ x)) ∧ OneCtx K (prog.foldl (valInstr vt) ρ) := by
  induction prog generalizing st ρ with
  | nil => exact ⟨st, rfl, h, hρ, hK⟩
  | cons i l ih =>
    obtain ⟨st1, h1, h2, h3, h4⟩ := instr_spec vt i st h K ρ hρ hK
    obtain ⟨st2, g1, g2, g3, g4⟩ := ih st1 h2 _ h3 h4
    exact ⟨st2, by rw [List.foldlM_cons, h1]; exact g1, g2, g3, g4⟩

/-- A case of `C65_programs`: the handles `x`, `y` with `x` a diagram and `y` true; `y := y and x; x := not x;
y := x or y`. -/
example (vt : Vt ℕ) : ∃ st', [Instr.op2 .and true true false, .op1 .not false false, .op2 .or true false true].foldlM
    (runInstr vt) (exStore ℕ 5) = some st' ∧ Owned st' ∧
      hval st' true = some (.may 7 (vt.op2 .or (vt.op2 .not0 5 5) (vt.op2 .iden0 5 5))) := by
  obtain ⟨st', h1, h2, h3, -⟩ := C65_programs vt
    [Instr.op2 .and true true false, .op1 .not false false, .op2 .or true false true] (exStore ℕ 5)
    (exStore_owned ℕ 5) 7 (fun x => if x then .yes else .may 7 5) (fun x => by cases x <;> rfl)
    (fun x k m h => by cases x <;> simp at h; exact h.1.symm)
  exact ⟨st', h1, h2, (h3 true).trans (by simp [valInstr, op2V, brV, op1V, unV, Function.update])⟩

/-! ### C41: sets -/

variable {n : ℕ} {dom : Fin n → ℕ} (lib : MddLib n dom) (lists : ℕ → Finset (Fin n))

theorem setStep_val (i : Instr ν) (hi : IsBool i) (ρ : ν → FVal (Mdd n dom)) :
    SetStep (fun x => (ρ x).den) (fun x => (valInstr (gluVt lib lists) ρ i x).den) i := by
  cases i with
  | const c b =>
    refine ⟨?_, fun z hz => by simp [valInstr, Function.update_of_ne hz]⟩
    cases b <;> simp [valInstr, cval, FVal.den]
  | op1 op c x =>
    refine ⟨?_, fun z hz => by simp [valInstr, Function.update_of_ne hz]⟩
    simp only [valInstr, Function.update_self]
    rcases hi with rfl | rfl
    · exact den_iden lib lists _
    · exact den_not lib lists _
  | op2 op c x y =>
    refine ⟨?_, fun z hz => by simp [valInstr, Function.update_of_ne hz]⟩
    simp only [valInstr, Function.update_self]
    rcases hi with rfl | rfl | rfl | rfl | rfl
    · exact den_and lib lists _ _
    · exact den_or lib lists _ _
    · exact den_nimp lib lists _ _
    · exact den_xnor lib lists _ _
    · exact den_xor lib lists _ _

theorem setRun_val (prog : List (Instr ν)) (hp : ∀ i ∈ prog, IsBool i) (ρ : ν → FVal (Mdd n dom)) :
    SetRun prog (fun x => (ρ x).den) (fun x => (prog.foldl (valInstr (gluVt lib lists)) ρ x).den) := by
  induction prog generalizing ρ with
  | nil => exact SetRun.nil
  | cons i l ih =>
    exact SetRun.cons (setStep_val lib lists i (hp i (by simp)) ρ) (ih (fun j hj => hp j (by simp [hj])) _)

/-- **C41**: every sequence of Boolean operations on formulas, with any mix of constants and diagrams of one
context and any aliasing, succeeds and computes what the sequence computes on sets. -/
theorem C41_programs (prog : List (Instr ν)) (hp : ∀ i ∈ prog, IsBool i) (st : Store ν (Mdd n dom)) (h : Owned st)
    (K : ℕ) (ρ : ν → FVal (Mdd n dom)) (hρ : ∀ x, hval st x = some (ρ x)) (hK : OneCtx K ρ) :
    ∃ st', ∃ ρ' : ν → FVal (Mdd n dom), prog.foldlM (runInstr (gluVt lib lists)) st = some st' ∧ Owned st' ∧
      (∀ x, hval st' x = some (ρ' x)) ∧ SetRun prog (fun x => (ρ x).den) (fun x => (ρ' x).den) := by
  obtain ⟨st', h1, h2, h3, -⟩ := C65_programs (gluVt lib lists) prog st h K ρ hρ hK
  exact ⟨st', _, h1, h2, h3, setRun_val lib lists prog hp ρ⟩

/-- A library whose substitution composes; one that exchanges the variables is admissible as well. -/
def stdLib (n : ℕ) (dom : Fin n → ℕ) : MddLib n dom :=
  ⟨fun old new L f => Finset.univ.filter fun e => copyTo old new L e ∈ f, fun _ _ _ _ _ => rfl⟩

/-- A case of `C41_programs`. -/
example (m : Mdd n dom) : ∃ st', ∃ ρ' : Bool → FVal (Mdd n dom),
    [Instr.op2 .nimp true true false, .op2 .xor false true false].foldlM (runInstr (gluVt (stdLib n dom) lists))
      (exStore _ m) = some st' ∧ Owned st' ∧ (∀ x, hval st' x = some (ρ' x)) ∧
      SetRun [Instr.op2 .nimp true true false, .op2 .xor false true false]
        (fun x => (if x then FVal.yes else .may 7 m : FVal (Mdd n dom)).den) (fun x => (ρ' x).den) :=
  C41_programs (stdLib n dom) lists _ (by simp [IsBool]) _ (exStore_owned _ m) 7 _ (fun x => by cases x <;> rfl)
    (fun x k m' h => by cases x <;> simp at h; exact h.1.symm)

/-- The sequence on sets has only one result. -/
theorem C41_setRun_unique (prog : List (Instr ν)) (S A B : ν → Finset (Env n dom)) (ha : SetRun prog S A)
    (hb : SetRun prog S B) : A = B := by
  induction prog generalizing S with
  | nil => cases ha; cases hb; rfl
  | cons i l ih =>
    cases ha with
    | cons h1 h2 =>
      cases hb with
      | cons g1 g2 =>
        rename_i S1 S2
        have : S1 = S2 := by
          have key : ∀ c : ν, S1 c = S2 c → (∀ z, z ≠ c → S1 z = S z) → (∀ z, z ≠ c → S2 z = S z) → S1 = S2 := by
            intro c hc e1 e2
            funext z
            by_cases hz : z = c
            · subst hz; exact hc
            · rw [e1 z hz, e2 z hz]
          cases i with
          | const c b => exact key c (h1.1.trans g1.1.symm) h1.2 g1.2
          | op1 op c x =>
            refine key c ?_ h1.2 g1.2
            have a := h1.1; have b := g1.1
            cases op <;> simp only [Bool1] at a b <;> rw [a, b]
          | op2 op c x y =>
            refine key c ?_ h1.2 g1.2
            have a := h1.1; have b := g1.1
            cases op <;> simp only [Bool2] at a b <;> first | rw [a, b] | (ext e; rw [a, b])
        subst this
        exact ih _ h2 g2

variable [∀ i, NeZero (dom i)]

/-- The tests with one operand. -/
theorem C41_checks_one (st : Store ν (Mdd n dom)) (x : ν) (v : FVal (Mdd n dom)) (hx : hval st x = some v) :
    (∃ b, tautP (gluVt lib lists) (st.vars x) st = some b ∧ (b = true ↔ v.den = Finset.univ)) ∧
    (∃ b, satP (gluVt lib lists) (st.vars x) st = some b ∧ (b = true ↔ v.den ≠ ∅)) := by
  have hne : (Finset.univ : Finset (Env n dom)) ≠ ∅ :=
    Finset.nonempty_iff_ne_empty.1 ⟨fun _ i => 0, Finset.mem_univ _⟩
  unfold tautP satP
  rw [pval_phase hx]
  cases v with
  | no => exact ⟨⟨false, rfl, by simp [FVal.den, hne.symm]⟩, ⟨false, rfl, by simp [FVal.den]⟩⟩
  | yes => exact ⟨⟨true, rfl, by simp [FVal.den]⟩, ⟨true, rfl, by simp [FVal.den, hne]⟩⟩
  | may k m =>
    obtain ⟨p, hxp, hp⟩ := pval_may hx
    simp only [mddOf, hxp, hp, Option.bind_some, Option.map_some]
    exact ⟨⟨_, rfl, by simp [FVal.den, gluVt]⟩, ⟨_, rfl, by simp [FVal.den, gluVt]⟩⟩

/-- The tests with two operands of one context or constants: equivalence, overlap, and inclusion. -/
theorem C41_checks_two (st : Store ν (Mdd n dom)) (x y : ν) (v w : FVal (Mdd n dom)) (hx : hval st x = some v)
    (hy : hval st y = some w) (hc : Compat v w) :
    (∃ b, equivP (gluVt lib lists) (st.vars x) (st.vars y) st = some b ∧ (b = true ↔ v.den = w.den)) ∧
    (∃ b, overlapP (gluVt lib lists) (st.vars x) (st.vars y) st = some b ∧ (b = true ↔ v.den ∩ w.den ≠ ∅)) ∧
    (∃ b, subseteqP (gluVt lib lists) (st.vars x) (st.vars y) st = some b ∧ (b = true ↔ v.den ⊆ w.den)) := by
  obtain ⟨⟨b1, tx, i1⟩, b2, sx, i2⟩ := C41_checks_one lib lists st x v hx
  obtain ⟨⟨b3, ty, i3⟩, b4, sy, i4⟩ := C41_checks_one lib lists st y w hy
  unfold equivP overlapP subseteqP
  rw [pval_phase hx, pval_phase hy, tx, sx, ty, sy]
  cases v with
  | no =>
    refine ⟨⟨!b4, rfl, ?_⟩, ⟨false, rfl, by simp [FVal.den]⟩, ⟨true, rfl, by simp [FVal.den]⟩⟩
    have : (FVal.no : FVal (Mdd n dom)).den = w.den ↔ w.den = ∅ := eq_comm
    rw [this]
    cases b4 <;> simp_all
  | yes =>
    refine ⟨⟨b3, rfl, ?_⟩, ⟨b4, rfl, ?_⟩, ⟨b3, rfl, ?_⟩⟩
    · rw [i3]; exact eq_comm
    · rw [i4]; simp [FVal.den]
    · rw [i3]; exact Finset.univ_subset_iff.symm
  | may k m =>
    cases w with
    | no =>
      refine ⟨⟨!b2, rfl, ?_⟩, ⟨false, rfl, by simp [FVal.den]⟩, ⟨!b2, rfl, ?_⟩⟩
      · cases b2 <;> simp_all [FVal.den]
      · cases b2 <;> simp_all [FVal.den]
    | yes =>
      refine ⟨⟨b1, rfl, i1⟩, ⟨b2, rfl, ?_⟩, ⟨true, rfl, by simp [FVal.den]⟩⟩
      rw [i2]; simp [FVal.den]
    | may k' m' =>
      have hk : k = k' := hc
      subst hk
      obtain ⟨p, hxp, hp⟩ := pval_may hx
      obtain ⟨q, hyq, hq⟩ := pval_may hy
      have hck : ∀ f, ckMay f (st.vars x) (st.vars y) st = some (f m m') := by
        intro f; simp [ckMay, hxp, hyq, ctxOf, hp, hq, mddOf]
      have : m ⊆ m'ᶜ ↔ m ∩ m' = ∅ := by
        rw [Finset.subset_compl_iff_disjoint_right, Finset.disjoint_iff_inter_eq_empty]
      simp only [Option.bind_some, hck]
      refine ⟨⟨_, rfl, by simp [FVal.den, gluVt]⟩, ⟨_, rfl, ?_⟩, ⟨_, rfl, by simp [FVal.den, gluVt]⟩⟩
      simp [FVal.den, gluVt, this]

/-- `ensure_ctx`: turns constants into diagrams of the context that denote the same set, leaves formulas of the
context as they are, and rejects others. -/
theorem C41_ensure_ctx (st : Store ν (Mdd n dom)) (h : Owned st) (c : ν) (v : FVal (Mdd n dom)) (k : ℕ)
    (hc : hval st c = some v) :
    (∃ k' m, v = .may k' m ∧ k' ≠ k ∧ ensureCtx (gluVt lib lists) k c st = none) ∨
    ∃ st' m, ensureCtx (gluVt lib lists) k c st = some st' ∧ Sets st st' c (.may k m) ∧ m = v.den := by
  unfold ensureCtx
  rw [pval_phase hc]
  cases v with
  | no =>
    right
    have hn : ∀ p, st.vars c ≠ .obj p := by
      intro p hp
      obtain ⟨k', m', hh⟩ := h.live c p hp
      simp [hval, pval, hp, hh] at hc
    obtain ⟨st', h1, h2⟩ := cons_write h c hn k (∅ : Mdd n dom)
    exact ⟨st', ∅, h1, h2, rfl⟩
  | yes =>
    right
    have hn : ∀ p, st.vars c ≠ .obj p := by
      intro p hp
      obtain ⟨k', m', hh⟩ := h.live c p hp
      simp [hval, pval, hp, hh] at hc
    obtain ⟨st', h1, h2⟩ := cons_write h c hn k (Finset.univ : Mdd n dom)
    exact ⟨st', Finset.univ, h1, h2, rfl⟩
  | may k' m =>
    obtain ⟨p, hcp, hp⟩ := pval_may hc
    by_cases hk : k' = k
    · subst hk
      right
      exact ⟨st, m, by simp [ctxOf, hcp, hp], ⟨h, hc, fun _ _ => rfl⟩, rfl⟩
    · left
      exact ⟨k', m, rfl, hk, by simp [ctxOf, hcp, hp, hk]⟩

/-- A case: the constant `true` becomes a diagram of context 3. -/
example (m : Mdd n dom) : ∃ st', ensureCtx (gluVt lib lists) 3 true (exStore _ m) = some st' ∧
    Sets (exStore _ m) st' true (.may 3 Finset.univ) := by
  rcases C41_ensure_ctx lib lists (exStore _ m) (exStore_owned _ m) true .yes 3 rfl with ⟨_, _, h, _⟩ | ⟨st', m', h1, h2, h3⟩
  · cases h
  · exact ⟨st', h1, by rw [h3] at h2; exact h2⟩

/-! ### C42: relations -/

/-- **C42** (partial): preimage and image of formulas, with constants, denote those of the relation and the
set -- except when the relation is the constant `true` and the set is the empty diagram. -/
theorem C42_pre_img_partial (v w : FVal (Mdd n dom)) (R : Set (FSt n dom × FSt n dom)) (P : Set (FSt n dom))
    (h : IsRel v R) (h' : IsPred w P) (hx : v = .yes → ∀ k, w ≠ .may k ∅) :
    IsPred (op2V (gluVt lib lists) .pre1 v w) {s | ∃ t, (s, t) ∈ R ∧ t ∈ P} ∧
    IsPred (op2V (gluVt lib lists) .img1 v w) {t | ∃ s, s ∈ P ∧ (s, t) ∈ R} :=
  ⟨pre1_pred lib lists h h' hx, img1_pred lib lists h h' hx⟩

/-- In the excluded case the results are all states though they should be empty. -/
theorem C42_true_of_empty (k : ℕ) :
    IsRel (.yes : FVal (Mdd n dom)) Set.univ ∧ IsPred (.may k ∅ : FVal (Mdd n dom)) ∅ ∧
    op2V (gluVt lib lists) .pre1 .yes (.may k ∅) = .yes ∧ op2V (gluVt lib lists) .img1 .yes (.may k ∅) = .yes ∧
    ¬ IsPred (.yes : FVal (Mdd n dom)) {s | ∃ t, (s, t) ∈ (Set.univ : Set (FSt n dom × FSt n dom)) ∧ t ∈ (∅ : Set (FSt n dom))} := by
  refine ⟨fun e => by simp [FVal.den], fun e => by simp [FVal.den], rfl, rfl, fun h => ?_⟩
  have := h (fun _ i => 0)
  simp [FVal.den] at this

/-- Preimage and image without a set, image as primed formula, primed formula of a set, inverse and composition
are exact for all formulas, constants included. -/
theorem C42_relations (v w : FVal (Mdd n dom)) (R S : Set (FSt n dom × FSt n dom)) (h : IsRel v R) (h' : IsRel w S) :
    IsPred (op1V (gluVt lib lists) .pre v) {s | ∃ t, (s, t) ∈ R} ∧
    IsPred (op1V (gluVt lib lists) .img v) {t | ∃ s, (s, t) ∈ R} ∧
    IsRel (op1V (gluVt lib lists) .imgAsImg v) {p | ∃ s, (s, p.2) ∈ R} ∧
    IsRel (op1V (gluVt lib lists) .inverse v) {p | (p.2, p.1) ∈ R} ∧
    IsRel (op2V (gluVt lib lists) .dotjoin v w) {p | ∃ t, (p.1, t) ∈ R ∧ (t, p.2) ∈ S} :=
  ⟨pre_pred lib lists h, img_pred lib lists h, imgAsImg_rel lib lists h, inverse_rel lib lists h,
    dotjoin_rel lib lists h h'⟩

/-- `as_img`. -/
theorem C42_as_img (v : FVal (Mdd n dom)) (P : Set (FSt n dom)) (h : IsPred v P) :
    IsRel (op1V (gluVt lib lists) .asImg v) {p | p.2 ∈ P} :=
  asImg_rel lib lists h

/-- Preimage of a formula that describes the variables of a list only; all others keep their values. -/
theorem C42_pre_list (v w : FVal (Mdd n dom)) (R : Set (FSt n dom × FSt n dom)) (P : Set (FSt n dom)) (l : ℕ)
    (h : IsRel v R) (h' : IsPred w P)
    (hR : ∀ s t t', (∀ i, i ∈ lists l → t i = t' i) → (s, t) ∈ R → (s, t') ∈ R) :
    IsPred (op2V (gluVt lib lists) (.pre2 l) v w)
      {s | ∃ t, (s, t) ∈ R ∧ (∀ i, i ∉ lists l → t i = s i) ∧ t ∈ P} :=
  pre2_pred lib lists l h h' hR

/-- Quantifying the variables of a list: the unprimed, the primed, or both. -/
theorem C42_smooth (v : FVal (Mdd n dom)) (R : Set (FSt n dom × FSt n dom)) (l : ℕ) (sg : ℤ) (h : IsRel v R) :
    IsRel (op1V (gluVt lib lists) (.smooth l sg) v)
      {p | ∃ q ∈ R, (∀ i, i ∉ lists l ∨ 0 < sg → q.1 i = p.1 i) ∧ (∀ i, i ∉ lists l ∨ sg < 0 → q.2 i = p.2 i)} := by
  cases v with
  | no => exact isRel_no fun s ⟨q, hq, _⟩ => rel_no h _ hq
  | yes => exact isRel_yes fun s => ⟨s, rel_yes h _, fun _ _ => rfl, fun _ _ => rfl⟩
  | may k m =>
    intro e
    simp only [op1V, unV, FVal.den, gluVt, mddSmooth, Finset.mem_filter, Finset.mem_univ, true_and]
    constructor
    · rintro ⟨e', he', hag⟩
      refine ⟨(e' .pre, e' .img), (may_rel h e').1 he', fun i hi => hag .pre i ?_, fun i hi => hag .img i ?_⟩
      · split
        · rw [mem_cp]; rcases hi with hi | hi
          · simp [hi]
          · omega
        · split
          · simp [mem_cp]
          · simp only [Finset.mem_union, mem_cp]; rcases hi with hi | hi
            · simp [hi]
            · omega
      · split
        · simp [mem_cp]
        · split
          · rw [mem_cp]; rcases hi with hi | hi
            · simp [hi]
            · omega
          · simp only [Finset.mem_union, mem_cp]; rcases hi with hi | hi
            · simp [hi]
            · omega
    · rintro ⟨q, hq, h1, h2⟩
      refine ⟨env3 q.1 q.2 (e .aux), (may_rel h _).2 (by simpa [env3] using hq), fun c i hc => ?_⟩
      cases c with
      | aux => rfl
      | pre =>
        refine h1 i ?_
        by_contra hn
        push Not at hn
        apply hc
        split
        · simp [mem_cp, hn.1]
        · rw [if_neg (by omega)]; simp [mem_cp, hn.1]
      | img =>
        refine h2 i ?_
        by_contra hn
        push Not at hn
        apply hc
        rw [if_neg (by omega)]
        split
        · simp [mem_cp, hn.1]
        · simp [mem_cp, hn.1]

/-- Renaming the variables of a list in a set of states to primed ones. -/
theorem C42_subst1 (v : FVal (Mdd n dom)) (P : Set (FSt n dom)) (l : ℕ) (h : IsPred v P) :
    IsRel (op1V (gluVt lib lists) (.subst1 l true) v)
      {p | (fun i => if i ∈ lists l then p.2 i else p.1 i) ∈ P} := by
  cases v with
  | no => exact isRel_no fun s hq => pred_no h _ hq
  | yes => exact isRel_yes fun s => pred_yes h _
  | may k m =>
    intro e
    show e ∈ (if true = true then lib.subst .pre .img (lists l) m else lib.subst .img .pre (lists l) m) ↔ _
    rw [if_pos rfl, mem_subst lib _ _ _ _ (by simp [may_pred h])]
    simp [may_pred h]

/-- Image of such a formula, unless the set is the constant `true`. -/
theorem C42_img_list_partial (v w : FVal (Mdd n dom)) (R : Set (FSt n dom × FSt n dom)) (P : Set (FSt n dom)) (l : ℕ)
    (h : IsRel v R) (h' : IsPred w P)
    (hR : ∀ s t t', (∀ i, i ∈ lists l → t i = t' i) → (s, t) ∈ R → (s, t') ∈ R) (hw : w ≠ .yes) :
    IsPred (op2V (gluVt lib lists) (.img2 l) v w)
      {t | ∃ s, s ∈ P ∧ (∀ i, i ∉ lists l → s i = t i) ∧ (s, t) ∈ R} :=
  img2_pred lib lists l h h' hR hw

/-- The action `x = 0 --> y := 1` over `x, y` below 2, writing only `y`. -/
def exGuardAct : Set (FSt 2 (fun _ => 2) × FSt 2 (fun _ => 2)) := {p | p.1 0 = 0 ∧ p.2 1 = 1}

/-- The image of the constant `true` forgets that variables that are not written keep their values: the
action leads to states with `x = 0` only, the result has also states with `x = 1`.  The same set as a
diagram gives the right result. -/
theorem C42_img_list_true (lib : MddLib 2 (fun _ => 2)) (k : ℕ) (m : Mdd 2 (fun _ => 2))
    (h : IsRel (.may k m) exGuardAct) :
    (∀ s t t', (∀ i, i ∈ ({1} : Finset (Fin 2)) → t i = t' i) → (s, t) ∈ exGuardAct → (s, t') ∈ exGuardAct) ∧
    IsPred (op2V (gluVt lib fun _ => {1}) (.img2 0) (.may k m) .yes) {t | t 1 = 1} ∧
    IsPred (op2V (gluVt lib fun _ => {1}) (.img2 0) (.may k m) (.may k Finset.univ)) {t | t 0 = 0 ∧ t 1 = 1} := by
  have h1 : ∀ s t t', (∀ i, i ∈ ({1} : Finset (Fin 2)) → t i = t' i) → (s, t) ∈ exGuardAct → (s, t') ∈ exGuardAct := by
    rintro s t t' ht ⟨h1, h2⟩
    exact ⟨h1, (ht 1 (by simp)).symm.trans h2⟩
  refine ⟨h1, ?_, ?_⟩
  · have := img_pred lib (fun _ => {1}) h
    intro e
    refine (this e).trans ?_
    constructor
    · rintro ⟨s, hs⟩; exact hs.2
    · intro he; exact ⟨fun _ => 0, rfl, he⟩
  · have := img2_pred lib (fun _ => {1}) (w := .may k Finset.univ) (P := Set.univ) 0 h
      (fun e => by simp [FVal.den]) h1 (by simp)
    intro e
    refine (this e).trans ?_
    constructor
    · rintro ⟨s, -, hs, h2⟩
      exact ⟨by rw [← hs 0 (by simp)]; exact h2.1, h2.2⟩
    · rintro ⟨h2, h3⟩
      exact ⟨e .pre, trivial, fun _ _ => rfl, h2, h3⟩

/-- Cases of `C42_pre_img_partial` and `C42_pre_list`: the hypotheses hold for the action above. -/
example : ∃ m : Mdd 2 (fun _ => 2), IsRel (.may 0 m) exGuardAct ∧
    IsPred (.may 0 (eqc 1 1) : FVal (Mdd 2 (fun _ => 2))) {s | s 1 = 1} := by
  refine ⟨Finset.univ.filter fun e => e .pre 0 = 0 ∧ e .img 1 = 1, fun e => ?_, fun e => ?_⟩
  · simp [FVal.den, exGuardAct]
  · show e ∈ eqc 1 1 ↔ e .pre 1 = 1
    rw [mem_eqc, Fin.ext_iff]; rfl

/-! ### C66: states and variables -/

/-- **C66**: `state_of_PFmla` of a satisfiable formula gives the lexicographically smallest values of the
variables among the assignments of the formula. -/
theorem C66_state_of (a : Mdd n dom) (ha : a.Nonempty) (l : List (Fin n)) :
    ∃ vals, stateOf .may a l = some vals ∧ (∃ e ∈ a, valsOf l (e .pre) = vals) ∧
      ∀ e ∈ a, LexLe vals (valsOf l (e .pre)) := by
  obtain ⟨-, -, h⟩ := stateLoop_spec a l Finset.univ
  obtain ⟨h1, h2⟩ := h (by simpa using ha)
  exact ⟨_, rfl, by simpa using h1, by simpa using h2⟩

/-- A case: over `x, y, z` below 3 the formula `x + z = 3` has the smallest values `x = 1`, `z = 2`. -/
example : stateOf .may (Finset.univ.filter fun e : Env 3 (fun _ => 3) => (e .pre 0).val + (e .pre 2).val = 3) [0, 2]
    = some [1, 2] := by
  obtain ⟨vals, h1, ⟨e, he, hv⟩, h3⟩ := C66_state_of (n := 3) (dom := fun _ => 3)
    (Finset.univ.filter fun e : Env 3 (fun _ => 3) => (e .pre 0).val + (e .pre 2).val = 3)
    ⟨env3 ![1, 0, 2] ![0, 0, 0] ![0, 0, 0], by simp [env3]⟩ [0, 2]
  rw [h1, ← hv]
  have h4 := h3 (env3 ![1, 0, 2] ![0, 0, 0] ![0, 0, 0]) (by simp [env3])
  rw [← hv] at h4
  simp only [Finset.mem_filter, Finset.mem_univ, true_and] at he
  have h5 : (e .pre 0).val < 3 := (e .pre 0).isLt
  have h6 : (e .pre 2).val < 3 := (e .pre 2).isLt
  simp only [valsOf, List.map_cons, List.map_nil, env3] at h4 ⊢
  generalize (e .pre 0).val = x at he h4 h5 ⊢
  generalize (e .pre 2).val = z at he h4 h6 ⊢
  have hx : x ≤ 1 := by
    cases h4 with
    | lt h _ => exact le_of_lt h
    | eq h => exact le_refl _
  have h1 : x = 1 := by omega
  have h2 : z = 2 := by omega
  rw [h1, h2]

/-- For the constants. -/
theorem C66_state_of_const (a : Mdd n dom) (l : List (Fin n)) :
    stateOf .yes a l = some (valsOf l (fun i => (0 : Fin (dom i)))) ∧ stateOf .no a l = none ∧
      ∀ s : FSt n dom, LexLe (valsOf l (fun i => (0 : Fin (dom i)))) (valsOf l s) := by
  refine ⟨by simp [stateOf, valsOf], rfl, fun s => ?_⟩
  induction l with
  | nil => exact LexLe.nil
  | cons i l ih =>
    rcases Nat.eq_zero_or_pos (s i).val with h | h
    · have : valsOf (i :: l) s = 0 :: valsOf l s := by simp [valsOf, h]
      rw [this]
      have : valsOf (i :: l) (fun i => (0 : Fin (dom i))) = 0 :: valsOf l (fun i => (0 : Fin (dom i))) := by
        simp [valsOf]
      rw [this]
      exact LexLe.eq ih
    · exact LexLe.lt (by simpa using h) (by simp)

/-- `pick_pre_PFmla` of a satisfiable formula gives exactly one state, the smallest one of the formula. -/
theorem C66_pick_pre (a : Mdd n dom) (ha : a.Nonempty) :
    ∃ r, ∃ s : FSt n dom, pickPre .may a = some r ∧ (∀ e : Env n dom, e ∈ r ↔ e .pre = s) ∧
      (∃ e ∈ a, e .pre = s) ∧ ∀ e ∈ a, LexLe (valsOf (List.finRange n) s) (valsOf (List.finRange n) (e .pre)) := by
  obtain ⟨-, h2, h⟩ := stateLoop_spec a (List.finRange n) Finset.univ
  obtain ⟨⟨e0, he0, hv⟩, hall⟩ := h (by simpa using ha)
  have inj : ∀ s t : FSt n dom, valsOf (List.finRange n) s = valsOf (List.finRange n) t → s = t := by
    intro s t hst
    funext i
    have := List.map_inj_left.1 hst i (List.mem_finRange i)
    exact Fin.ext this
  refine ⟨_, e0 .pre, rfl, fun e => ?_, ⟨e0, by simpa using he0, rfl⟩, fun e he => ?_⟩
  · rw [h2]
    simp only [Finset.mem_univ, true_and]
    constructor
    · intro h3; exact inj _ _ (h3.trans hv.symm)
    · intro h3; rw [h3]; exact hv
  · rw [hv]; exact hall e (by simpa using he)

/-- For a set of states: the picked formula is one of its states. -/
theorem C66_pick_pre_pred (k : ℕ) (a : Mdd n dom) (P : Set (FSt n dom)) (hP : IsPred (.may k a) P) (s0 : FSt n dom)
    (hs0 : s0 ∈ P) : ∃ r s, pickPre .may a = some r ∧ IsPred (.may k r) {s} ∧ s ∈ P ∧ r ⊆ a := by
  have ha : a.Nonempty := ⟨env3 s0 s0 s0, (may_pred hP _).2 hs0⟩
  obtain ⟨r, s, h1, h2, ⟨e, he, hes⟩, -⟩ := C66_pick_pre a ha
  have hs : s ∈ P := hes ▸ (may_pred hP e).1 he
  refine ⟨r, s, h1, fun e => h2 e, hs, fun e he => (may_pred hP e).2 ?_⟩
  rw [(h2 e).1 he]; exact hs

/-- For an unsatisfiable diagram the picked state is not a state of the formula: it has the largest value of
every variable. -/
theorem C66_pick_pre_unsat : ∃ r, pickPre .may (∅ : Mdd n dom) = some r ∧
    ∀ e : Env n dom, e ∈ r ↔ ∀ i, (e .pre i).val = dom i - 1 := by
  refine ⟨_, rfl, fun e => ?_⟩
  obtain ⟨-, h2, -⟩ := stateLoop_spec (∅ : Mdd n dom) (List.finRange n) Finset.univ
  rw [h2, stateLoop_empty]
  simp [valsOf]

/-- Comparing a variable with a constant and with another variable. -/
theorem C66_eq (a b : Fin n) (x : ℕ) (e : Env n dom) :
    (e ∈ eqc a x ↔ (e .pre a).val = x) ∧ (e ∈ eqVbl a b ↔ (e .pre a).val = (e .pre b).val) := by
  refine ⟨mem_eqc a x e, ?_⟩
  unfold eqVbl
  rw [mem_foldl_or]
  simp only [Finset.notMem_empty, false_or, List.mem_range, Finset.mem_inter, mem_eqc]
  constructor
  · rintro ⟨i, -, h1, h2⟩; rw [h1, h2]
  · intro h
    have h1 := (e .pre a).isLt
    have h2 := (e .pre b).isLt
    exact ⟨(e .pre a).val, by split <;> omega, rfl, h.symm⟩

/-- Assignments to a variable are modulo its domain size. -/
theorem C66_img_eq (a b : Fin n) (x : ℕ) (e : Env n dom) :
    (e ∈ imgEqc a x ↔ (e .img a).val = x % dom a) ∧
    (e ∈ imgEqVbl a b ↔ (e .img a).val = (e .pre b).val % dom a) ∧
    (e ∈ imgEqImgVbl a b ↔ (e .img a).val = (e .img b).val % dom a) := by
  refine ⟨mem_imgEqc a x e, ?_, ?_⟩
  · unfold imgEqVbl
    rw [mem_foldl_or]
    simp only [Finset.notMem_empty, false_or, List.mem_range, Finset.mem_inter, mem_imgEqc, mem_eqc]
    constructor
    · rintro ⟨i, -, h1, h2⟩; rw [h1, h2]
    · intro h; exact ⟨_, (e .pre b).isLt, h, rfl⟩
  · unfold imgEqImgVbl
    rw [mem_foldl_or]
    simp only [Finset.notMem_empty, false_or, List.mem_range, Finset.mem_inter, mem_imgEqc]
    constructor
    · rintro ⟨i, hi, h1, h2⟩; rw [h1, h2, Nat.mod_eq_of_lt hi]
    · intro h; exact ⟨_, (e .img b).isLt, h, by rw [Nat.mod_eq_of_lt (e .img b).isLt]⟩

end Verif.Props
