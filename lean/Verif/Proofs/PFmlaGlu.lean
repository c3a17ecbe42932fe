import Verif.Proofs.PFmla

/-! Proofs about formulas: sets and relations that decision diagrams denote. -/

set_option linter.unusedSectionVars false

namespace Verif.Proofs
open Verif.Model Verif.Spec

variable {n : ℕ} {dom : Fin n → ℕ}

theorem mem_cp (c c' : Copy) (i : Fin n) (L : Finset (Fin n)) : (c', i) ∈ cp c L ↔ c' = c ∧ i ∈ L := by
  simp only [cp, Finset.mem_image, Prod.mk.injEq]
  constructor
  · rintro ⟨j, h1, h2, h3⟩; exact ⟨h2.symm, h3 ▸ h1⟩
  · rintro ⟨h1, h2⟩; exact ⟨i, h2, h1.symm, rfl⟩

theorem mem_smooth (c : Copy) (L : Finset (Fin n)) (f : Mdd n dom) (e : Env n dom) :
    e ∈ mddSmooth (cp c L) f ↔ ∃ s, (∀ i, i ∉ L → s i = e c i) ∧ Function.update e c s ∈ f := by
  simp only [mddSmooth, Finset.mem_filter, Finset.mem_univ, true_and, mem_cp]
  constructor
  · rintro ⟨e', h1, h2⟩
    refine ⟨e' c, fun i hi => h2 c i (by simp [hi]), ?_⟩
    convert h1 using 1
    funext c'
    by_cases h : c' = c
    · subst h; simp
    · rw [Function.update_of_ne h]; funext i; exact (h2 c' i (by simp [h])).symm
  · rintro ⟨s, h1, h2⟩
    refine ⟨_, h2, fun c' i h => ?_⟩
    by_cases hc : c' = c
    · subst hc; rw [Function.update_self]; exact h1 i (fun hi => h ⟨rfl, hi⟩)
    · rw [Function.update_of_ne hc]

theorem mem_smooth_univ (c : Copy) (f : Mdd n dom) (e : Env n dom) :
    e ∈ mddSmooth (cp c Finset.univ) f ↔ ∃ s, Function.update e c s ∈ f := by
  rw [mem_smooth]; simp

theorem indep_of_update (c : Copy) (L : Finset (Fin n)) (f : Mdd n dom)
    (h : ∀ e s, (∀ i, i ∉ L → s i = e c i) → Function.update e c s ∈ f → e ∈ f) : IndepOf (cp c L) f := by
  have key : ∀ e e' : Env n dom, (∀ c' i, (c', i) ∉ cp c L → e c' i = e' c' i) → e ∈ f → e' ∈ f := by
    intro e e' he hm
    refine h e' (e c) (fun i hi => he c i (by simp [mem_cp, hi])) ?_
    convert hm using 1
    funext c'
    by_cases hc : c' = c
    · subst hc; simp
    · rw [Function.update_of_ne hc]; funext i; exact (he c' i (by simp [mem_cp, hc])).symm
  intro e e' he
  exact ⟨key e e' he, key e' e fun c' i hi => (he c' i hi).symm⟩

theorem copyTo_eq (old new : Copy) (L : Finset (Fin n)) (e : Env n dom) :
    copyTo old new L e = Function.update e old (fun i => if i ∈ L then e new i else e old i) := by
  funext c i
  by_cases hc : c = old
  · subst hc; simp [copyTo]
  · simp [copyTo, hc]

theorem mem_subst (lib : MddLib n dom) (old new : Copy) (L : Finset (Fin n)) (f : Mdd n dom)
    (hf : ∀ e s, (∀ i, i ∉ L → s i = e new i) → Function.update e new s ∈ f → e ∈ f) (e : Env n dom) :
    e ∈ lib.subst old new L f ↔ Function.update e old (fun i => if i ∈ L then e new i else e old i) ∈ f := by
  rw [lib.ok old new L f (indep_of_update new L f hf)]
  simp [copyTo_eq]

theorem mem_subst_univ (lib : MddLib n dom) (old new : Copy) (f : Mdd n dom)
    (hf : ∀ e s, Function.update e new s ∈ f → e ∈ f) (e : Env n dom) :
    e ∈ lib.subst old new Finset.univ f ↔ Function.update e old (e new) ∈ f := by
  rw [mem_subst lib old new _ f (fun e s _ => hf e s)]
  simp

/-! ### Denotation of the operations -/

variable (lib : MddLib n dom) (lists : ℕ → Finset (Fin n))

theorem den_iden (v : FVal (Mdd n dom)) : (op1V (gluVt lib lists) .iden v).den = v.den := by
  cases v <;> rfl

theorem den_not (v : FVal (Mdd n dom)) : (op1V (gluVt lib lists) .not v).den = v.denᶜ := by
  cases v <;> simp [op1V, unV, cval, FVal.den, gluVt, gluOp2]

theorem den_and (v w : FVal (Mdd n dom)) : (op2V (gluVt lib lists) .and v w).den = v.den ∩ w.den := by
  cases v <;> cases w <;> simp [op2V, brV, op1V, unV, cval, FVal.den, gluVt, gluOp2]

theorem den_or (v w : FVal (Mdd n dom)) : (op2V (gluVt lib lists) .or v w).den = v.den ∪ w.den := by
  cases v <;> cases w <;> simp [op2V, brV, op1V, unV, cval, FVal.den, gluVt, gluOp2]

theorem den_nimp (v w : FVal (Mdd n dom)) : (op2V (gluVt lib lists) .nimp v w).den = v.den \ w.den := by
  ext e
  cases v <;> cases w <;> simp [op2V, brV, op1V, unV, cval, FVal.den, gluVt, gluOp2]

theorem den_xnor (v w : FVal (Mdd n dom)) (e : Env n dom) :
    e ∈ (op2V (gluVt lib lists) .xnor v w).den ↔ (e ∈ v.den ↔ e ∈ w.den) := by
  cases v <;> cases w <;> simp [op2V, brV, op1V, unV, cval, FVal.den, gluVt, gluOp2] <;> tauto

theorem den_xor (v w : FVal (Mdd n dom)) (e : Env n dom) :
    e ∈ (op2V (gluVt lib lists) .xor v w).den ↔ ¬ (e ∈ v.den ↔ e ∈ w.den) := by
  cases v <;> cases w <;> simp [op2V, brV, op1V, unV, cval, FVal.den, gluVt, gluOp2] <;> tauto

/-! ### Relations -/

theorem IsRel.upd_aux {v : FVal (Mdd n dom)} {R} (h : IsRel v R) (e : Env n dom) (s) :
    Function.update e .aux s ∈ v.den ↔ e ∈ v.den := by
  rw [h, h]; simp

/-- A choice of the values of one copy. -/
def env3 (a b c : FSt n dom) : Env n dom
  | .pre => a
  | .img => b
  | .aux => c

variable [∀ i, NeZero (dom i)]

theorem rel_yes {R : Set (FSt n dom × FSt n dom)} (h : IsRel .yes R) (p) : p ∈ R := by
  have := (h (env3 p.1 p.2 p.1)).1 (by simp [FVal.den])
  simpa [env3] using this

theorem rel_no {R : Set (FSt n dom × FSt n dom)} (h : IsRel .no R) (p) : p ∉ R := by
  intro hp
  have := (h (env3 p.1 p.2 p.1)).2 (by simpa [env3] using hp)
  simp [FVal.den] at this

theorem pred_yes {P : Set (FSt n dom)} (h : IsPred .yes P) (p) : p ∈ P := by
  have := (h (env3 p p p)).1 (by simp [FVal.den])
  simpa [env3] using this

theorem pred_no {P : Set (FSt n dom)} (h : IsPred .no P) (p) : p ∉ P := by
  intro hp
  have := (h (env3 p p p)).2 (by simpa [env3] using hp)
  simp [FVal.den] at this

theorem may_rel {k : ℕ} {m : Mdd n dom} {R : Set (FSt n dom × FSt n dom)} (h : IsRel (.may k m) R) (e : Env n dom) :
    e ∈ m ↔ (e .pre, e .img) ∈ R := h e

theorem may_pred {k : ℕ} {m : Mdd n dom} {P : Set (FSt n dom)} (h : IsPred (.may k m) P) (e : Env n dom) :
    e ∈ m ↔ e .pre ∈ P := h e

theorem isPred_yes {P : Set (FSt n dom)} (h : ∀ s, s ∈ P) : IsPred (.yes : FVal (Mdd n dom)) P :=
  fun e => by simp [FVal.den, h]

theorem isPred_no {P : Set (FSt n dom)} (h : ∀ s, s ∉ P) : IsPred (.no : FVal (Mdd n dom)) P :=
  fun e => by simp [FVal.den, h]

theorem isRel_yes {R : Set (FSt n dom × FSt n dom)} (h : ∀ s, s ∈ R) : IsRel (.yes : FVal (Mdd n dom)) R :=
  fun e => by simp [FVal.den, h]

theorem isRel_no {R : Set (FSt n dom × FSt n dom)} (h : ∀ s, s ∉ R) : IsRel (.no : FVal (Mdd n dom)) R :=
  fun e => by simp [FVal.den, h]

theorem pre_pred {v : FVal (Mdd n dom)} {R} (h : IsRel v R) :
    IsPred (op1V (gluVt lib lists) .pre v) {s | ∃ t, (s, t) ∈ R} := by
  cases v with
  | no => exact isPred_no fun s ⟨t, ht⟩ => rel_no h _ ht
  | yes => exact isPred_yes fun s => ⟨s, rel_yes h _⟩
  | may k m =>
    intro e
    show e ∈ mddSmooth (cp .img Finset.univ) m ↔ _
    rw [mem_smooth_univ]
    simp [may_rel h]

theorem imgAsImg_rel {v : FVal (Mdd n dom)} {R} (h : IsRel v R) :
    IsRel (op1V (gluVt lib lists) .imgAsImg v) {p | ∃ s, (s, p.2) ∈ R} := by
  cases v with
  | no => exact isRel_no fun s ⟨t, ht⟩ => rel_no h _ ht
  | yes => exact isRel_yes fun s => ⟨s.1, rel_yes h _⟩
  | may k m =>
    intro e
    show e ∈ mddSmooth (cp .pre Finset.univ) m ↔ _
    rw [mem_smooth_univ]
    simp [may_rel h]

theorem mem_img_may {m : Mdd n dom} {R : Set (FSt n dom × FSt n dom)} (h : ∀ e : Env n dom, e ∈ m ↔ (e .pre, e .img) ∈ R)
    (e : Env n dom) :
    e ∈ lib.subst .img .pre Finset.univ (mddSmooth (cp .pre Finset.univ) m) ↔ ∃ s, (s, e .pre) ∈ R := by
  rw [mem_subst_univ lib _ _ _ (by simp [mem_smooth_univ, h]), mem_smooth_univ]
  simp [h]

theorem img_pred {v : FVal (Mdd n dom)} {R} (h : IsRel v R) :
    IsPred (op1V (gluVt lib lists) .img v) {t | ∃ s, (s, t) ∈ R} := by
  cases v with
  | no => exact isPred_no fun s ⟨t, ht⟩ => rel_no h _ ht
  | yes => exact isPred_yes fun s => ⟨s, rel_yes h _⟩
  | may k m => exact fun e => mem_img_may lib (may_rel h) e

theorem asImg_rel {v : FVal (Mdd n dom)} {P} (h : IsPred v P) :
    IsRel (op1V (gluVt lib lists) .asImg v) {p | p.2 ∈ P} := by
  cases v with
  | no => exact isRel_no fun s ht => pred_no h _ ht
  | yes => exact isRel_yes fun s => pred_yes h _
  | may k m =>
    intro e
    show e ∈ lib.subst .pre .img Finset.univ m ↔ _
    rw [mem_subst_univ lib _ _ _ (by simp [may_pred h])]
    simp [may_pred h]

theorem inverse_rel {v : FVal (Mdd n dom)} {R} (h : IsRel v R) :
    IsRel (op1V (gluVt lib lists) .inverse v) {p | (p.2, p.1) ∈ R} := by
  cases v with
  | no => exact isRel_no fun s ht => rel_no h _ ht
  | yes => exact isRel_yes fun s => rel_yes h _
  | may k m =>
    intro e
    show e ∈ lib.subst .aux .pre Finset.univ
      (lib.subst .pre .img Finset.univ (lib.subst .img .aux Finset.univ m)) ↔ _
    have h1 : ∀ e, e ∈ lib.subst .img .aux Finset.univ m ↔ (e .pre, e .aux) ∈ R := by
      intro e
      rw [mem_subst_univ lib _ _ _ (by simp [may_rel h])]
      simp [may_rel h]
    have h2 : ∀ e, e ∈ lib.subst .pre .img Finset.univ (lib.subst .img .aux Finset.univ m) ↔
        (e .img, e .aux) ∈ R := by
      intro e
      rw [mem_subst_univ lib _ _ _ (by simp [h1])]
      simp [h1]
    rw [mem_subst_univ lib _ _ _ (by simp [h2])]
    simp [h2]

theorem dotjoin_rel {v w : FVal (Mdd n dom)} {R S} (h : IsRel v R) (h' : IsRel w S) :
    IsRel (op2V (gluVt lib lists) .dotjoin v w) {p | ∃ t, (p.1, t) ∈ R ∧ (t, p.2) ∈ S} := by
  cases w with
  | no => cases v <;> exact isRel_no fun s ⟨t, _, ht⟩ => rel_no h' _ ht
  | yes =>
    have : IsRel (op1V (gluVt lib lists) .pre v) {p | ∃ t, (p.1, t) ∈ R ∧ (t, p.2) ∈ S} := by
      intro e
      rw [pre_pred lib lists h e]
      simp [rel_yes h']
    cases v <;> exact this
  | may k m' =>
    cases v with
    | no => exact isRel_no fun s ⟨t, ht, _⟩ => rel_no h _ ht
    | yes =>
      intro e
      show e ∈ (op1V (gluVt lib lists) .imgAsImg (.may k m')).den ↔ _
      rw [imgAsImg_rel lib lists h' e]
      simp [rel_yes h]
    | may k2 m =>
      intro e
      show e ∈ mddSmooth (cp .aux Finset.univ)
        (lib.subst .img .aux Finset.univ m ∩ lib.subst .pre .aux Finset.univ m') ↔ _
      rw [mem_smooth_univ]
      simp only [Finset.mem_inter]
      refine exists_congr fun t => ?_
      rw [mem_subst_univ lib _ _ _ (by simp [may_rel h]), mem_subst_univ lib _ _ _ (by simp [may_rel h'])]
      simp [may_rel h, may_rel h']

theorem pre1_pred {v w : FVal (Mdd n dom)} {R P} (h : IsRel v R) (h' : IsPred w P)
    (hx : v = .yes → ∀ k, w ≠ .may k ∅) :
    IsPred (op2V (gluVt lib lists) .pre1 v w) {s | ∃ t, (s, t) ∈ R ∧ t ∈ P} := by
  cases w with
  | no => cases v <;> exact isPred_no fun s ⟨t, _, ht⟩ => pred_no h' _ ht
  | yes =>
    have : IsPred (op1V (gluVt lib lists) .pre v) {s | ∃ t, (s, t) ∈ R ∧ t ∈ P} := by
      intro e
      rw [pre_pred lib lists h e]
      simp [pred_yes h']
    cases v <;> exact this
  | may k m' =>
    cases v with
    | no => exact isPred_no fun s ⟨t, ht, _⟩ => rel_no h _ ht
    | yes =>
      have hne : m' ≠ ∅ := fun hm => hx rfl k (by rw [hm])
      obtain ⟨e, he⟩ := Finset.nonempty_iff_ne_empty.2 hne
      exact isPred_yes fun s => ⟨e .pre, rel_yes h _, (may_pred h' e).1 he⟩
    | may k2 m =>
      intro e
      show e ∈ mddSmooth (cp .img Finset.univ) (m ∩ lib.subst .pre .img Finset.univ m') ↔ _
      rw [mem_smooth_univ]
      simp only [Finset.mem_inter]
      refine exists_congr fun t => ?_
      rw [mem_subst_univ lib _ _ _ (by simp [may_pred h'])]
      simp [may_rel h, may_pred h']

theorem img1_pred {v w : FVal (Mdd n dom)} {R P} (h : IsRel v R) (h' : IsPred w P)
    (hx : v = .yes → ∀ k, w ≠ .may k ∅) :
    IsPred (op2V (gluVt lib lists) .img1 v w) {t | ∃ s, s ∈ P ∧ (s, t) ∈ R} := by
  cases w with
  | no => cases v <;> exact isPred_no fun s ⟨t, ht, _⟩ => pred_no h' _ ht
  | yes =>
    have : IsPred (op1V (gluVt lib lists) .img v) {t | ∃ s, s ∈ P ∧ (s, t) ∈ R} := by
      intro e
      rw [img_pred lib lists h e]
      simp [pred_yes h']
    cases v <;> exact this
  | may k m' =>
    cases v with
    | no => exact isPred_no fun s ⟨t, _, ht⟩ => rel_no h _ ht
    | yes =>
      have hne : m' ≠ ∅ := fun hm => hx rfl k (by rw [hm])
      obtain ⟨e, he⟩ := Finset.nonempty_iff_ne_empty.2 hne
      exact isPred_yes fun s => ⟨e .pre, (may_pred h' e).1 he, rel_yes h _⟩
    | may k2 m =>
      intro e
      show e ∈ lib.subst .img .pre Finset.univ (mddSmooth (cp .pre Finset.univ) (m ∩ m')) ↔ _
      rw [mem_img_may lib (R := {p | p ∈ R ∧ p.1 ∈ P}) (fun e => by simp [may_rel h, may_pred h'])]
      simp [and_comm]

/-- `t` differs from `s` at most in the variables `L`. -/
theorem mix_eq (L : Finset (Fin n)) (s t : FSt n dom) (h : ∀ i, i ∉ L → t i = s i) :
    (fun i => if i ∈ L then t i else s i) = t := by
  funext i
  by_cases hi : i ∈ L
  · simp [hi]
  · simp [hi, h i hi]

theorem smooth_pre_pred {v : FVal (Mdd n dom)} {P} (h : IsPred v P) (l : ℕ) :
    IsPred (op1V (gluVt lib lists) (.smooth l (-1)) v) {s | ∃ t, (∀ i, i ∉ lists l → t i = s i) ∧ t ∈ P} := by
  cases v with
  | no => exact isPred_no fun s ⟨t, _, ht⟩ => pred_no h _ ht
  | yes => exact isPred_yes fun s => ⟨s, fun _ _ => rfl, pred_yes h _⟩
  | may k m =>
    intro e
    have : (op1V (gluVt lib lists) (.smooth l (-1)) (.may k m)).den = mddSmooth (cp .pre (lists l)) m := by
      simp [op1V, unV, FVal.den, gluVt]
    rw [this, mem_smooth]
    simp [may_pred h]

theorem pre2_pred {v w : FVal (Mdd n dom)} {R P} (l : ℕ) (h : IsRel v R) (h' : IsPred w P)
    (hR : ∀ s t t', (∀ i, i ∈ lists l → t i = t' i) → (s, t) ∈ R → (s, t') ∈ R) :
    IsPred (op2V (gluVt lib lists) (.pre2 l) v w)
      {s | ∃ t, (s, t) ∈ R ∧ (∀ i, i ∉ lists l → t i = s i) ∧ t ∈ P} := by
  cases w with
  | no => cases v <;> exact isPred_no fun s ⟨t, _, _, ht⟩ => pred_no h' _ ht
  | yes =>
    have : IsPred (op1V (gluVt lib lists) .pre v)
        {s | ∃ t, (s, t) ∈ R ∧ (∀ i, i ∉ lists l → t i = s i) ∧ t ∈ P} := by
      intro e
      rw [pre_pred lib lists h e]
      constructor
      · rintro ⟨t, ht⟩
        refine ⟨fun i => if i ∈ lists l then t i else e .pre i, hR _ t _ (fun i hi => by simp [hi]) ht,
          fun i hi => by simp [hi], pred_yes h' _⟩
      · rintro ⟨t, ht, _⟩; exact ⟨t, ht⟩
    cases v <;> exact this
  | may k m' =>
    cases v with
    | no => exact isPred_no fun s ⟨t, ht, _⟩ => rel_no h _ ht
    | yes =>
      intro e
      show e ∈ (op1V (gluVt lib lists) (.smooth l (-1)) (.may k m')).den ↔ _
      rw [smooth_pre_pred lib lists h' l e]
      simp [rel_yes h]
    | may k2 m =>
      intro e
      show e ∈ mddSmooth (cp .img (lists l)) (m ∩ lib.subst .pre .img (lists l) m') ↔ _
      rw [mem_smooth]
      simp only [Finset.mem_inter]
      constructor
      · rintro ⟨t, ht, h1, h2⟩
        rw [mem_subst lib _ _ _ _ (by simp [may_pred h'])] at h2
        simp only [may_rel h, may_pred h', Function.update_self] at h1 h2
        refine ⟨fun i => if i ∈ lists l then t i else e .pre i, hR _ t _ (fun i hi => by simp [hi]) ?_,
          fun i hi => by simp [hi], ?_⟩
        · simpa using h1
        · simpa using h2
      · rintro ⟨t, h1, h2, h3⟩
        refine ⟨fun i => if i ∈ lists l then t i else e .img i, fun i hi => by simp [hi], ?_, ?_⟩
        · rw [may_rel h]
          simp only [Function.update_self]
          exact hR _ t _ (fun i hi => by simp [hi]) (by simpa using h1)
        · rw [mem_subst lib _ _ _ _ (by simp [may_pred h'])]
          simp only [may_pred h', Function.update_self]
          convert h3 using 1
          funext i
          by_cases hi : i ∈ lists l
          · simp [hi]
          · simp [hi, h2 i hi]

theorem img2_pred {v w : FVal (Mdd n dom)} {R P} (l : ℕ) (h : IsRel v R) (h' : IsPred w P)
    (hR : ∀ s t t', (∀ i, i ∈ lists l → t i = t' i) → (s, t) ∈ R → (s, t') ∈ R) (hw : w ≠ .yes) :
    IsPred (op2V (gluVt lib lists) (.img2 l) v w)
      {t | ∃ s, s ∈ P ∧ (∀ i, i ∉ lists l → s i = t i) ∧ (s, t) ∈ R} := by
  cases w with
  | no => cases v <;> exact isPred_no fun s ⟨t, ht, _⟩ => pred_no h' _ ht
  | yes => exact absurd rfl hw
  | may k m' =>
    cases v with
    | no => exact isPred_no fun s ⟨t, _, _, ht⟩ => rel_no h _ ht
    | yes =>
      intro e
      show e ∈ (op1V (gluVt lib lists) (.smooth l (-1)) (.may k m')).den ↔ _
      rw [smooth_pre_pred lib lists h' l e]
      simp [rel_yes h, and_comm]
    | may k2 m =>
      intro e
      show e ∈ lib.subst .img .pre (lists l) (mddSmooth (cp .pre (lists l)) (m ∩ m')) ↔ _
      have h1 : ∀ e, e ∈ mddSmooth (cp .pre (lists l)) (m ∩ m') ↔
          ∃ s, (∀ i, i ∉ lists l → s i = e .pre i) ∧ (s, e .img) ∈ R ∧ s ∈ P := by
        intro e
        rw [mem_smooth]
        simp [may_rel h, may_pred h']
      rw [mem_subst lib _ _ _ _ ?_, h1]
      · simp only [Function.update_self]
        constructor
        · rintro ⟨s, h2, h3, h4⟩
          have h2' : ∀ i, i ∉ lists l → s i = e .pre i := by simpa using h2
          refine ⟨s, h4, h2', hR _ _ _ (fun i hi => ?_) h3⟩
          simp [hi]
        · rintro ⟨s, h2, h3, h4⟩
          refine ⟨s, by simpa using h3, hR _ _ _ (fun i hi => ?_) h4, h2⟩
          simp [hi]
      · intro e s hs
        rw [h1, h1]
        rintro ⟨s', h2, h3, h4⟩
        refine ⟨s', fun i hi => ?_, by simpa using h3, h4⟩
        rw [h2 i hi, Function.update_self, hs i hi]

end Verif.Proofs
