import Verif.Spec.Eval
import Verif.Props.IntFmla

/-! Lemmas for C40 and C64: evaluation of expressions. -/

set_option linter.unusedSectionVars false

namespace Verif.Proofs
open Verif.Model Verif.Spec Verif.Props

variable {n : ℕ} {dom : Fin n → ℕ}

/-! ### The meaning is unique -/

/-- Both are truth values or both are numbers. -/
def Res.SameKind : Res → Res → Prop
  | .bool _, .bool _ => True
  | .ints _, .ints _ => True
  | _, _ => False

theorem OpVal.unique {op : IntOp} {x y z z' : ℤ} (h : OpVal op x y z) (h' : OpVal op x y z') : z = z' := by
  rw [← opVal_iff] at h h'
  rw [h] at h'
  exact Option.some.inj h'

theorem forall₂_opVal_unique {op : IntOp} {ps : List (ℤ × ℤ)} {l : List ℤ}
    (h : List.Forall₂ (fun p z => OpVal op p.1 p.2 z) ps l) :
    ∀ {l'}, List.Forall₂ (fun p z => OpVal op p.1 p.2 z) ps l' → l = l' := by
  induction h with
  | nil => intro l' h; cases h; rfl
  | cons hz _ ih =>
    intro l' h
    cases h with
    | cons hz' ht => rw [OpVal.unique hz hz', ih ht]

theorem PredNamed.unique {env : EvalEnv n dom} {x : String} {p q : Finset (FSt n dom)}
    (h : PredNamed env x p) (h' : PredNamed env x q) : p = q := by
  rcases h with ⟨rfl, rfl⟩ | ⟨rfl, rfl⟩ | ⟨h1, h2, h3⟩
  · rcases h' with ⟨-, rfl⟩ | ⟨h, -⟩ | ⟨h, -⟩
    · rfl
    · simp at h
    · simp at h
  · rcases h' with ⟨h, -⟩ | ⟨-, rfl⟩ | ⟨-, h, -⟩
    · simp at h
    · rfl
    · simp at h
  · rcases h' with ⟨h, -⟩ | ⟨h, -⟩ | ⟨-, -, h4⟩
    · exact absurd h h1
    · exact absurd h h2
    · rcases h3 with h3 | ⟨h3, pc, e, h5⟩ <;> rcases h4 with h4 | ⟨h4, pc', e', h6⟩
      · rw [h3] at h4; exact Option.some.inj h4
      · rw [h3] at h4; cases h4
      · rw [h3] at h4; cases h4
      · rw [e] at e'; cases e'
        rw [h5] at h6; exact Option.some.inj h6

theorem IntNamed.unique {env : EvalEnv n dom} {ρ : IMap} {x : String} {v w : ℤ}
    (h : IntNamed env ρ x v) (h' : IntNamed env ρ x w) : v = w := by
  rcases h with h | ⟨h0, h⟩ <;> rcases h' with h' | ⟨h0', h'⟩
  · rw [h] at h'; exact Option.some.inj h'
  · rw [h] at h0'; cases h0'
  · rw [h'] at h0; cases h0
  · rcases h with ⟨l, h⟩ | ⟨h, pc, e, h1⟩ <;> rcases h' with ⟨l', h'⟩ | ⟨h', pc', e', h1'⟩
    · rw [h] at h'; simp at h'; exact h'.1
    · rw [h] at h'; cases h'
    · rw [h] at h'; cases h'
    · rw [e] at e'; cases e'
      rw [h1] at h1'; exact Option.some.inj h1'

theorem Member.unique {α : Type} {l : List α} {i : ℤ} {a b : α} (h : Member l i a) (h' : Member l i b) :
    a = b := by
  obtain ⟨k, h1, h2⟩ := h
  obtain ⟨k', h1', h2'⟩ := h'
  have hk : k < l.length := (List.getElem?_eq_some_iff.1 h1).1
  have hk' : k' < l.length := (List.getElem?_eq_some_iff.1 h1').1
  have hd : (l.length : ℤ) ∣ (k : ℤ) - k' := by
    have := Int.dvd_sub h2' h2
    rwa [show i - (k' : ℤ) - (i - k) = k - k' by ring] at this
  have he : k = k' := by
    obtain ⟨c, hc⟩ := hd
    have : c = 0 := by
      rcases lt_trichotomy c 0 with h | h | h
      · nlinarith
      · exact h
      · nlinarith
    subst this
    omega
  subst he
  rw [h1] at h1'
  exact Option.some.inj h1'

theorem sem_unique {env : EvalEnv n dom} {ρ : IMap} {e : Ex} {s : FSt n dom} {r : Res}
    (h : Sem env ρ e s r) : ∀ r', Sem env ρ e s r' → Res.SameKind r r' → r = r' := by
  induction h with
  | pname h =>
    intro r' h' hk
    cases h' with
    | pname h' => rw [PredNamed.unique h h']
    | letname => exact hk.elim
    | iname => exact hk.elim
  | castB _ ih => intro r' h' hk; cases h' with | castB h' => exact ih _ h' hk
  | castI _ ih => intro r' h' hk; cases h' with | castI h' => exact ih _ h' hk
  | not _ ih =>
    intro r' h' hk
    cases h' with
    | not h' => have := ih _ h' trivial; simp at this; rw [this]
  | and_false _ ih =>
    intro r' h' hk
    cases h' with
    | and_false => rfl
    | and_true h1 h2 => have := ih _ h1 trivial; simp at this
  | and_true _ _ ih1 ih2 =>
    intro r' h' hk
    cases h' with
    | and_false h1 => have := ih1 _ h1 trivial; simp at this
    | and_true h1 h2 => exact ih2 _ h2 hk
  | or_true _ ih =>
    intro r' h' hk
    cases h' with
    | or_true => rfl
    | or_false h1 h2 => have := ih _ h1 trivial; simp at this
  | or_false _ _ ih1 ih2 =>
    intro r' h' hk
    cases h' with
    | or_true h1 => have := ih1 _ h1 trivial; simp at this
    | or_false h1 h2 => exact ih2 _ h2 hk
  | imp_false _ ih =>
    intro r' h' hk
    cases h' with
    | imp_false => rfl
    | imp_true h1 h2 => have := ih _ h1 trivial; simp at this
  | imp_true _ _ ih1 ih2 =>
    intro r' h' hk
    cases h' with
    | imp_false h1 => have := ih1 _ h1 trivial; simp at this
    | imp_true h1 h2 => exact ih2 _ h2 hk
  | iff _ _ ih1 ih2 =>
    intro r' h' hk
    cases h' with
    | iff h1 h2 =>
      have e1 := ih1 _ h1 trivial
      have e2 := ih2 _ h2 trivial
      simp at e1 e2
      rw [e1, e2]
  | xor _ _ ih1 ih2 =>
    intro r' h' hk
    cases h' with
    | xor h1 h2 =>
      have e1 := ih1 _ h1 trivial
      have e2 := ih2 _ h2 trivial
      simp at e1 e2
      rw [e1, e2]
  | cmp _ _ ih1 ih2 =>
    intro r' h' hk
    cases h' with
    | cmp h1 h2 =>
      have e1 := ih1 _ h1 trivial
      have e2 := ih2 _ h2 trivial
      simp at e1 e2
      subst e1; subst e2; rfl
  | @quant ρ q x r d s l b bs _ _ hq ih1 ih2 =>
    intro r' h' hk
    cases h' with
    | @quant _ _ _ _ _ _ l' b' bs' h1 h2 hq' =>
      have e1 := ih1 _ h1 trivial
      simp at e1
      subst e1
      have e2 : ∀ i, i < l.length → bs i = bs' i := by
        intro i hi
        have := ih2 i hi _ (h2 i hi) trivial
        simpa using this
      have : b = true ↔ b' = true := by
        cases q with
        | all =>
          simp only [QuantVal] at hq hq'
          rw [hq, hq']
          constructor <;> intro h i hi
          · rw [← e2 i hi]; exact h i hi
          · rw [e2 i hi]; exact h i hi
        | ex =>
          simp only [QuantVal] at hq hq'
          rw [hq, hq']
          constructor <;> rintro ⟨i, hi, h⟩
          · exact ⟨i, hi, by rw [← e2 i hi]; exact h⟩
          · exact ⟨i, hi, by rw [e2 i hi]; exact h⟩
        | uniq =>
          simp only [QuantVal] at hq hq'
          rw [hq, hq']
          constructor <;> rintro ⟨i, ⟨hi, h⟩, hu⟩
          · exact ⟨i, ⟨hi, by rw [← e2 i hi]; exact h⟩, fun j hj hb => hu j hj (by rw [e2 j hj]; exact hb)⟩
          · exact ⟨i, ⟨hi, by rw [e2 i hi]; exact h⟩, fun j hj hb => hu j hj (by rw [← e2 j hj]; exact hb)⟩
      have : b = b' := by cases b <;> cases b' <;> simp_all
      rw [this]
  | letname h0 h1 _ ih =>
    intro r' h' hk
    cases h' with
    | pname => exact hk.elim
    | letname h0' h1' h2 => rw [h1] at h1'; cases h1'; exact ih _ h2 hk
    | iname h1' => rw [h1' h0] at h1; cases h1
  | iname h0 h1 =>
    intro r' h' hk
    cases h' with
    | pname => exact hk.elim
    | letname h0' h1' => rw [h0 h0'] at h1'; cases h1'
    | iname _ h1' => rw [IntNamed.unique h1 h1']
  | num => intro r' h' hk; cases h' with | num => rfl
  | neg _ ih =>
    intro r' h' hk
    cases h' with
    | neg h' => have := ih _ h' trivial; simp at this; rw [this]
  | arith _ _ h3 ih1 ih2 =>
    intro r' h' hk
    cases h' with
    | arith h1 h2 h3' =>
      have e1 := ih1 _ h1 trivial
      have e2 := ih2 _ h2 trivial
      simp at e1 e2
      subst e1; subst e2
      congr 1
      exact forall₂_opVal_unique h3 h3'
  | natDom _ _ ih =>
    intro r' h' hk
    cases h' with
    | natDom h' _ => have := ih _ h' trivial; simp at this; rw [this]
  | iif_true _ _ ih1 ih2 =>
    intro r' h' hk
    cases h' with
    | iif_true h1 h2 => exact ih2 _ h2 hk
    | iif_false h1 h2 => have := ih1 _ h1 trivial; simp at this
  | iif_false _ _ ih1 ih2 =>
    intro r' h' hk
    cases h' with
    | iif_true h1 h2 => have := ih1 _ h1 trivial; simp at this
    | iif_false h1 h2 => exact ih2 _ h2 hk
  | aref_const hc _ hm ih =>
    intro r' h' hk
    cases h' with
    | aref_const hc' h1 hm' =>
      have := ih _ h1 trivial
      simp at this
      subst this
      rw [hc] at hc'; cases hc'
      rw [Member.unique hm hm']
    | aref_vbl hc' => rw [hc] at hc'; cases hc'
  | aref_vbl hc hv _ hm ih =>
    intro r' h' hk
    cases h' with
    | aref_const hc' => rw [hc] at hc'; cases hc'
    | aref_vbl hc' hv' h1 hm' =>
      have := ih _ h1 trivial
      simp at this
      subst this
      rw [hv] at hv'; cases hv'
      rw [Member.unique hm hm']

/-! ### Values of tables -/

/-- The numbers that the table stands for in each state. -/
def IsVals (f : IntFmla n) (V : FSt n dom → List ℤ) : Prop :=
  (f.vbls = [] ∧ f.ctx = false ∧ f.stateMap ≠ [] ∧ f.stateMap.length = f.doms.prod ∧
    ∀ s, V s = f.stateMap) ∨
  (f.vbls ≠ [] ∧ ∃ g : FSt n dom → ℤ, Denotes f g ∧ ∀ s, V s = [g s])

theorem isVals_ofInt (x : ℤ) : IsVals (dom := dom) (IntFmla.ofInt x : IntFmla n) fun _ => [x] :=
  .inl ⟨rfl, rfl, by simp [IntFmla.ofInt], by simp [IntFmla.ofInt], fun _ => rfl⟩

theorem isVals_ofVbl (v : Fin n) : IsVals (IntFmla.ofVbl dom v) fun s : FSt n dom => [((s v).val : ℤ)] :=
  .inr ⟨by simp [IntFmla.ofVbl], _, (C39_leaves v 0).1, fun _ => rfl⟩

theorem isVals_ofSet {k : ℕ} (hk : 0 < k) : IsVals (dom := dom) (IntFmla.ofSet 1 0 k : IntFmla n)
    fun _ => (List.range k).map fun i : ℕ => (i : ℤ) := by
  refine .inl ⟨rfl, rfl, ?_, by simp [IntFmla.ofSet], fun _ => by simp [IntFmla.ofSet]⟩
  intro he
  have := congrArg List.length he
  simp [IntFmla.ofSet] at this
  omega

theorem isVals_negate {f : IntFmla n} {V : FSt n dom → List ℤ} (h : IsVals f V) :
    IsVals f.negate fun s => (V s).map fun x => -x := by
  rcases h with ⟨h1, h2, h3, h4, h5⟩ | ⟨h1, g, h2, h3⟩
  · exact .inl ⟨h1, h2, by simpa [IntFmla.negate] using h3, by simpa [IntFmla.negate] using h4,
      fun s => by simp [h5, IntFmla.negate]⟩
  · exact .inr ⟨h1, _, C39_negate f g h2, fun s => by simp [h3]⟩

/-- An operand of an operation that has variables has one number per state. -/
theorem IsVals.denotes (s0 : FSt n dom) {f : IntFmla n} {V : FSt n dom → List ℤ} (h : IsVals f V)
    (hl : f.vbls.length = f.doms.length) : ∃ g : FSt n dom → ℤ, Denotes f g ∧ ∀ s, V s = [g s] := by
  rcases h with ⟨h1, h2, h3, h4, h5⟩ | ⟨h1, g, h2, h3⟩
  · rw [h1] at hl
    have hd : f.doms = [] := by simpa [eq_comm] using hl
    rw [hd, List.prod_nil] at h4
    obtain ⟨x, hx⟩ := List.length_eq_one_iff.1 h4
    refine ⟨fun _ => x, ⟨by simp [h1, h2], by simp [h1], by simp [h1, hd], by simp [hx, hd], fun s => ?_⟩,
      fun s => by rw [h5, hx]⟩
    rw [hx, h1, hd]
    simp [vproj, indexOfState]
  · exact ⟨g, h2, h3⟩

theorem initOp_lengths {a b : IntFmla n} {r} (h : initOp a b = some r) (hv : ¬ (a.vbls = [] ∧ b.vbls = [])) :
    a.vbls.length = a.doms.length ∧ b.vbls.length = b.doms.length := by
  unfold initOp at h
  rw [if_neg hv] at h
  split at h
  · cases h
  · split at h
    · cases h
    · rename_i h1
      push Not at h1
      exact h1

theorem isVals_binop (s0 : FSt n dom) {op : IntOp} {f g r : IntFmla n} {V W : FSt n dom → List ℤ}
    (hf : IsVals f V) (hg : IsVals g W) (h : f.binop op g = some r) :
    ∃ U : FSt n dom → List ℤ, IsVals r U ∧ ∀ s, List.Forall₂ (fun p z => OpVal op p.1 p.2 z)
      ((V s).flatMap fun x => (W s).map fun y => (x, y)) (U s) := by
  by_cases hv : f.vbls = [] ∧ g.vbls = []
  · rcases hf with ⟨a1, a2, a3, a4, a5⟩ | ⟨h1, -⟩
    · rcases hg with ⟨b1, b2, b3, b4, b5⟩ | ⟨h1, -⟩
      · have hs := ((C39_sets (dom := dom) op f g a1 b1 a2 b2 a3 b3).1 r h)
        have hl := hs.2.length_eq
        have hpl : ∀ l : List ℤ, (l.flatMap fun x => g.stateMap.map fun y => (x, y)).length =
            l.length * g.stateMap.length := by
          intro l
          induction l with
          | nil => simp
          | cons x la ih => rw [List.flatMap_cons, List.length_append, ih]; simp; ring
        have hr : r.ctx = false ∧ r.doms = f.doms ++ g.doms := by
          rw [binop_sets op a1 b1 a2 b2 a3 b3] at h
          obtain ⟨m, -, hm⟩ := Option.map_eq_some_iff.1 h
          rw [← hm]
          exact ⟨rfl, rfl⟩
        rw [hpl] at hl
        refine ⟨fun _ => r.stateMap, .inl ⟨hs.1, hr.1, ?_, ?_, fun _ => rfl⟩, fun s => by rw [a5, b5]; exact hs.2⟩
        · intro he
          rw [he, List.length_nil] at hl
          rcases Nat.mul_eq_zero.1 hl with h | h
          · exact a3 (List.length_eq_zero_iff.1 h)
          · exact b3 (List.length_eq_zero_iff.1 h)
        · rw [← hl, a4, b4, hr.2, List.prod_append]
      · exact absurd hv.2 h1
    · exact absurd hv.1 h1
  · have hlen : f.vbls.length = f.doms.length ∧ g.vbls.length = g.doms.length := by
      unfold IntFmla.binop at h
      cases hi : initOp f g with
      | none => simp [hi] at h
      | some r => exact initOp_lengths hi hv
    obtain ⟨p, hp, hpV⟩ := hf.denotes s0 hlen.1
    obtain ⟨q, hq, hqV⟩ := hg.denotes s0 hlen.2
    obtain ⟨h1, u, h2, h3⟩ := (binop_vbls s0 op hp hq hv).1 r h
    refine ⟨fun s => [u s], .inr ⟨h1, u, h2, fun _ => rfl⟩, fun s => ?_⟩
    rw [hpV, hqV]
    simpa using (opVal_iff _ _ _ _).1 (h3 s)

theorem isVals_cmp (s0 : FSt n dom) {lt eq gt : Bool} {f g : IntFmla n} {V W : FSt n dom → List ℤ}
    (hf : IsVals f V) (hg : IsVals g W) {pf : Finset (FSt n dom)} (h : f.cmp dom lt eq gt g = some pf) :
    ∀ s, ∃ x y, V s = [x] ∧ W s = [y] ∧ (s ∈ pf ↔
      (lt = true ∧ x < y) ∨ (eq = true ∧ x = y) ∨ (gt = true ∧ x > y)) := by
  by_cases hv : f.vbls = [] ∧ g.vbls = []
  · rcases hf with ⟨a1, a2, a3, a4, a5⟩ | ⟨h1, -⟩
    · rcases hg with ⟨b1, b2, b3, b4, b5⟩ | ⟨h1, -⟩
      · have h0 := h
        unfold IntFmla.cmp at h
        split at h
        · cases h
        · rename_i hn
          push Not at hn
          obtain ⟨l1, l2⟩ := hn a1 b1
          obtain ⟨x, hx⟩ := List.length_eq_one_iff.1 l1
          obtain ⟨y, hy⟩ := List.length_eq_one_iff.1 l2
          intro s
          refine ⟨x, y, by rw [a5, hx], by rw [b5, hy], ?_⟩
          rw [cmp_consts lt eq gt a1 b1 a2 b2 hx hy] at h0
          cases h0
          split <;> simp_all
      · exact absurd hv.2 h1
    · exact absurd hv.1 h1
  · have hlen : f.vbls.length = f.doms.length ∧ g.vbls.length = g.doms.length := by
      have h := h
      unfold IntFmla.cmp at h
      rw [if_neg (fun h => hv ⟨h.1, h.2.1⟩)] at h
      cases hi : initOp f g with
      | none => simp [hi] at h
      | some r => exact initOp_lengths hi hv
    obtain ⟨p, hp, hpV⟩ := hf.denotes s0 hlen.1
    obtain ⟨q, hq, hqV⟩ := hg.denotes s0 hlen.2
    obtain ⟨r, h1, h2⟩ := C39_cmp s0 lt eq gt f g p q hp hq
    rw [h] at h1
    cases h1
    exact fun s => ⟨p s, q s, hpV s, hqV s, h2 s⟩

theorem single_vals (s0 : FSt n dom) {f : IntFmla n} {V : FSt n dom → List ℤ} (hf : IsVals f V) {m : ℤ}
    (h : single f = some m) : ∀ s, V s = [m] := by
  have hm : f.stateMap = [m] := by
    unfold single at h
    split at h
    · rename_i x hx; rw [hx]; simpa using h
    · cases h
  intro s
  rcases hf with ⟨-, -, -, -, h5⟩ | ⟨h1, g, h2, h3⟩
  · rw [h5, hm]
  · rw [h3]
    have := h2.val s
    rw [hm] at this
    have hlt := index_proj_lt h2 s
    rw [hm] at hlt
    simp only [List.length_cons, List.length_nil, zero_add, Nat.lt_one_iff] at hlt
    rw [hlt] at this
    simpa using this.symm

theorem umodGet_member {α : Type} {l : List α} {i : ℤ} {a : α} (h : umodGet l i = some a) : Member l i a := by
  unfold umodGet at h
  have hlt := (List.getElem?_eq_some_iff.1 h).1
  have hpos : 0 < (l.length : ℤ) := by omega
  refine ⟨_, h, ?_⟩
  rw [show i.emod l.length = i % l.length from rfl, Int.toNat_of_nonneg (Int.emod_nonneg _ (by omega))]
  exact Int.dvd_self_sub_emod

/-! ### Quantifiers -/

theorem countP_eq_one_iff {α : Type} (p : α → Bool) : ∀ l : List α,
    l.countP p = 1 ↔ ∃ i, (∃ h : i < l.length, p l[i] = true) ∧
      ∀ j (h : j < l.length), p l[j] = true → j = i := by
  intro l
  induction l with
  | nil => simp
  | cons a l ih =>
    rw [List.countP_cons]
    by_cases ha : p a = true
    · simp only [ha, if_true]
      have h0 : l.countP p + 1 = 1 ↔ ∀ b ∈ l, ¬ p b = true := by
        rw [Nat.add_eq_right, List.countP_eq_zero]
      rw [h0]
      constructor
      · intro h
        refine ⟨0, ⟨by simp, by simpa using ha⟩, fun j hj hp => ?_⟩
        cases j with
        | zero => rfl
        | succ j => exact absurd hp (by simpa using h _ (List.getElem_mem (by simpa using hj)))
      · rintro ⟨i, -, hu⟩ b hb hp
        obtain ⟨j, hj, rfl⟩ := List.getElem_of_mem hb
        have e1 := hu 0 (by simp) (by simpa using ha)
        have e2 := hu (j + 1) (by simpa using hj) (by simpa using hp)
        omega
    · have ha' : p a = false := by simpa using ha
      simp only [ha', Bool.false_eq_true, if_false, add_zero, ih]
      constructor
      · rintro ⟨i, ⟨hi, h⟩, hu⟩
        refine ⟨i + 1, ⟨by simpa using hi, by simpa using h⟩, fun j hj hp => ?_⟩
        cases j with
        | zero => simp [ha'] at hp
        | succ j => rw [hu j (by simpa using hj) (by simpa using hp)]
      · rintro ⟨i, ⟨hi, h⟩, hu⟩
        cases i with
        | zero => simp [ha'] at h
        | succ i =>
          refine ⟨i, ⟨by simpa using hi, by simpa using h⟩, fun j hj hp => ?_⟩
          have := hu (j + 1) (by simpa using hj) (by simpa using hp)
          omega

/-- The combined formula after the bodies `cs`. -/
def quantFold (q : Quant) (cs : List (Finset (FSt n dom))) (st : Finset (FSt n dom) × Finset (FSt n dom)) :
    Finset (FSt n dom) × Finset (FSt n dom) :=
  cs.foldl (fun st c => quantStep q st.1 st.2 c) st

theorem mem_quantFold_all {s : FSt n dom} : ∀ (cs : List (Finset (FSt n dom))) (st),
    s ∈ (quantFold .all cs st).1 ↔ s ∈ st.1 ∧ ∀ c ∈ cs, s ∈ c := by
  intro cs
  induction cs with
  | nil => intro st; simp [quantFold]
  | cons c cs ih =>
    intro st
    have := ih (quantStep .all st.1 st.2 c)
    simp only [quantFold, List.foldl_cons] at this ⊢
    rw [this]
    simp only [quantStep, Finset.mem_inter, List.mem_cons, forall_eq_or_imp, and_assoc]

theorem mem_quantFold_ex {s : FSt n dom} : ∀ (cs : List (Finset (FSt n dom))) (st),
    s ∈ (quantFold .ex cs st).1 ↔ s ∈ st.1 ∨ ∃ c ∈ cs, s ∈ c := by
  intro cs
  induction cs with
  | nil => intro st; simp [quantFold]
  | cons c cs ih =>
    intro st
    have := ih (quantStep .ex st.1 st.2 c)
    simp only [quantFold, List.foldl_cons] at this ⊢
    rw [this]
    simp only [quantStep, Finset.mem_union, List.mem_cons, exists_eq_or_imp, or_assoc]

theorem mem_quantFold_uniq {s : FSt n dom} : ∀ (cs : List (Finset (FSt n dom))) (st) (N : ℕ),
    (s ∈ st.1 ↔ N = 1) → (s ∈ st.2 ↔ 1 ≤ N) →
    (s ∈ (quantFold .uniq cs st).1 ↔ N + cs.countP (fun c => decide (s ∈ c)) = 1) := by
  intro cs
  induction cs with
  | nil => intro st N h1 _; simpa [quantFold] using h1
  | cons c cs ih =>
    intro st N h1 h2
    have := ih (quantStep .uniq st.1 st.2 c) (N + if s ∈ c then 1 else 0) (by
        simp only [quantStep, Finset.mem_union, Finset.mem_sdiff, Finset.mem_inter, h1, h2]
        split <;> rename_i hc <;> simp [hc] <;> omega) (by
        simp only [quantStep, Finset.mem_union, h2]
        split <;> rename_i hc <;> simp [hc])
    simp only [quantFold, List.foldl_cons] at this ⊢
    rw [this, List.countP_cons]
    simp only [decide_eq_true_eq]
    constructor <;> intro h <;> omega

theorem quantFold_val (q : Quant) (cs : List (Finset (FSt n dom))) (s : FSt n dom) :
    QuantVal q cs.length (fun i => decide (s ∈ cs.getD i ∅))
      (decide (s ∈ (quantFold q cs (quantInit q, ∅)).1)) := by
  have hget : ∀ i (h : i < cs.length), cs.getD i ∅ = cs[i] := by
    intro i h
    rw [List.getD_eq_getElem?_getD, List.getElem?_eq_getElem h]
    rfl
  cases q with
  | all =>
    simp only [QuantVal, decide_eq_true_eq, mem_quantFold_all, quantInit, Finset.mem_univ, true_and]
    constructor
    · intro h i hi; rw [hget i hi]; exact h _ (List.getElem_mem hi)
    · intro h c hc
      obtain ⟨i, hi, rfl⟩ := List.getElem_of_mem hc
      rw [← hget i hi]; exact h i hi
  | ex =>
    simp only [QuantVal, decide_eq_true_eq, mem_quantFold_ex, quantInit, Finset.notMem_empty, false_or]
    constructor
    · rintro ⟨c, hc, hs⟩
      obtain ⟨i, hi, rfl⟩ := List.getElem_of_mem hc
      exact ⟨i, hi, by rw [hget i hi]; exact hs⟩
    · rintro ⟨i, hi, hs⟩
      rw [hget i hi] at hs
      exact ⟨_, List.getElem_mem hi, hs⟩
  | uniq =>
    simp only [QuantVal, decide_eq_true_eq]
    rw [mem_quantFold_uniq cs _ 0 (by simp [quantInit]) (by simp), zero_add, countP_eq_one_iff]
    constructor
    · rintro ⟨i, ⟨hi, h⟩, hu⟩
      refine ⟨i, ⟨hi, by rw [hget i hi]; simpa using h⟩, fun j hj hs => hu j hj ?_⟩
      rw [hget j hj] at hs
      simpa using hs
    · rintro ⟨i, ⟨hi, h⟩, hu⟩
      rw [hget i hi] at h
      exact ⟨i, ⟨hi, by simpa using h⟩, fun j hj hs => hu j hj (by rw [hget j hj]; simpa using hs)⟩

/-- If the body leaves the index map alone, the loop combines the bodies. -/
theorem quantLoop_spec (q : Quant) (x : String) (ev : IMap → Option (Finset (FSt n dom) × IMap))
    (ρ0 : IMap) (hev : ∀ v c ρ1, ev (Function.update ρ0 x (some v)) = some (c, ρ1) →
      ρ1 = Function.update ρ0 x (some v)) :
    ∀ (l : List ℤ) (pf pfb : Finset (FSt n dom)) (ρ : IMap),
    (∀ w, Function.update ρ x w = Function.update ρ0 x w) →
    ∀ pf' ρ', quantLoop q x ev l pf pfb ρ = some (pf', ρ') →
    (∀ w, Function.update ρ' x w = Function.update ρ0 x w) ∧
    ∃ cs, List.Forall₂ (fun v c => ev (Function.update ρ0 x (some v)) =
        some (c, Function.update ρ0 x (some v))) l cs ∧ pf' = (quantFold q cs (pf, pfb)).1 := by
  intro l
  induction l with
  | nil =>
    intro pf pfb ρ hρ pf' ρ' h
    simp only [quantLoop, Option.some.injEq, Prod.mk.injEq] at h
    obtain ⟨rfl, rfl⟩ := h
    exact ⟨hρ, [], .nil, rfl⟩
  | cons v l ih =>
    intro pf pfb ρ hρ pf' ρ' h
    rw [quantLoop, hρ] at h
    cases he : ev (Function.update ρ0 x (some v)) with
    | none => simp [he] at h
    | some r =>
      obtain ⟨c, ρ1⟩ := r
      have h1 := hev v c ρ1 he
      simp only [he] at h
      obtain ⟨h2, cs, h3, h4⟩ := ih _ _ ρ1 (by intro w; rw [h1, Function.update_idem]) _ _ h
      exact ⟨h2, c :: cs, .cons (by rw [he, h1]) h3, h4⟩

/-! ### Soundness -/

theorem lookupPfmla_named {env : EvalEnv n dom} {x : String} {pf} (h : lookupPfmla env x = some pf) :
    PredNamed env x pf := by
  unfold lookupPfmla at h
  split at h
  · rename_i hx; exact .inl ⟨hx, by simpa [eq_comm] using h⟩
  · rename_i hx
    split at h
    · rename_i hx'; exact .inr (.inl ⟨hx', by simpa [eq_comm] using h⟩)
    · rename_i hx'
      refine .inr (.inr ⟨hx, hx', ?_⟩)
      cases hp : env.preds x with
      | some p => simp only [hp] at h; exact .inl h
      | none =>
        simp only [hp] at h
        obtain ⟨pc, h1, h2⟩ := Option.bind_eq_some_iff.1 h
        exact .inr ⟨rfl, pc, h1, h2⟩

theorem lookupInt_named {env : EvalEnv n dom} {ρ : IMap} {x : String} {v} (h : lookupInt env ρ x = some v) :
    IntNamed env ρ x v := by
  unfold lookupInt at h
  cases hρ : ρ x with
  | some w => simp only [hρ] at h; exact .inl (by rw [hρ, h])
  | none =>
    simp only [hρ] at h
    refine .inr ⟨hρ, ?_⟩
    cases hc : env.consts x with
    | some membs =>
      simp only [hc] at h
      cases membs with
      | nil => simp at h
      | cons a l => simp at h; exact .inl ⟨l, by rw [h]⟩
    | none =>
      simp only [hc] at h
      obtain ⟨pc, h1, h2⟩ := Option.bind_eq_some_iff.1 h
      exact .inr ⟨rfl, pc, h1, h2⟩

/-- What the two evaluation functions guarantee about an expression. -/
def SoundP (env : EvalEnv n dom) (ρ : IMap) (e : Ex) (r : Option (Finset (FSt n dom) × IMap)) : Prop :=
  ∀ pf ρ', r = some (pf, ρ') → ρ' = ρ ∧ ∀ s, Sem env ρ e s (.bool (decide (s ∈ pf)))

def SoundI (env : EvalEnv n dom) (ρ : IMap) (e : Ex) (r : Option (IntFmla n × IMap)) : Prop :=
  ∀ f ρ', r = some (f, ρ') → ρ' = ρ ∧ ∃ V, IsVals f V ∧ ∀ s, Sem env ρ e s (.ints (V s))

theorem Sem.bool_cast {env : EvalEnv n dom} {ρ : IMap} {e : Ex} {s : FSt n dom} {b b' : Bool}
    (h : Sem env ρ e s (.bool b)) (hb : b = b') : Sem env ρ e s (.bool b') := hb ▸ h

theorem eval_sound (s0 : FSt n dom) (env : EvalEnv n dom) : ∀ (k : ℕ) (ρ : IMap) (e : Ex) (D : Set String),
    Fresh env D e → (∀ x, ρ x ≠ none → x ∈ D) → (∀ x, ρ x ≠ none → env.lets x = none) →
    SoundP env ρ e (evalP env k ρ e) ∧ SoundI env ρ e (evalI env k ρ e) := by
  intro k
  induction k with
  | zero =>
    intro ρ e D _ _ _
    exact ⟨fun _ _ h => by simp [evalP] at h, fun _ _ h => by simp [evalI] at h⟩
  | succ k ih =>
    intro ρ e D hfr hD hL
    have ihP : ∀ {e}, Fresh env D e → SoundP env ρ e (evalP env k ρ e) := fun h => (ih ρ _ D h hD hL).1
    have ihI : ∀ {e}, Fresh env D e → SoundI env ρ e (evalI env k ρ e) := fun h => (ih ρ _ D h hD hL).2
    cases hfr with
    | name hlet =>
      rename_i x
      constructor
      · intro pf ρ' h
        simp only [evalP] at h
        cases hp : lookupPfmla env x with
        | none => simp [hp] at h
        | some p =>
          simp only [hp, Option.some.injEq, Prod.mk.injEq] at h
          obtain ⟨rfl, rfl⟩ := h
          exact ⟨rfl, fun s => .pname (lookupPfmla_named hp)⟩
      · intro f ρ' h
        simp only [evalI] at h
        cases hl : env.lets x with
        | some e' =>
          simp only [hl] at h
          obtain ⟨h1, V, h2, h3⟩ := ihI (hlet e' hl) f ρ' h
          have hx : ρ x = none := by
            by_contra hc
            rw [hL x hc] at hl; cases hl
          exact ⟨h1, V, h2, fun s => .letname hx hl (h3 s)⟩
        | none =>
          simp only [hl] at h
          cases hp : lookupInt env ρ x with
          | none => simp [hp] at h
          | some v =>
            simp only [hp, Option.some.injEq, Prod.mk.injEq] at h
            obtain ⟨rfl, rfl⟩ := h
            exact ⟨rfl, _, isVals_ofInt v, fun s => .iname (fun _ => hl) (lookupInt_named hp)⟩
    | num =>
      rename_i m
      constructor
      · intro pf ρ' h; simp [evalP] at h
      · intro f ρ' h
        simp only [evalI, Option.some.injEq, Prod.mk.injEq] at h
        obtain ⟨rfl, rfl⟩ := h
        exact ⟨rfl, _, isVals_ofInt _, fun s => .num⟩
    | castB hb =>
      constructor
      · intro pf ρ' h
        simp only [evalP] at h
        obtain ⟨h1, h2⟩ := ihP hb _ _ h
        exact ⟨h1, fun s => .castB (h2 s)⟩
      · intro f ρ' h; simp [evalI] at h
    | castI hb =>
      constructor
      · intro pf ρ' h
        simp only [evalP] at h
        obtain ⟨h1, h2⟩ := ihP hb _ _ h
        exact ⟨h1, fun s => .castI (h2 s)⟩
      · intro f ρ' h
        simp only [evalI] at h
        obtain ⟨h1, V, h2, h3⟩ := ihI hb _ _ h
        exact ⟨h1, V, h2, fun s => .castI (h3 s)⟩
    | not hb =>
      rename_i b
      constructor
      · intro pf ρ' h
        simp only [evalP] at h
        cases he : evalP env k ρ b with
        | none => simp [he] at h
        | some r =>
          obtain ⟨p, ρ1⟩ := r
          simp only [he, Option.some.injEq, Prod.mk.injEq] at h
          obtain ⟨rfl, rfl⟩ := h
          obtain ⟨h1, h2⟩ := ihP hb _ _ he
          exact ⟨h1, fun s => Sem.bool_cast (.not (h2 s)) (by simp)⟩
      · intro f ρ' h; simp [evalI] at h
    | and hb hc =>
      rename_i b c
      constructor
      · intro pf ρ' h
        simp only [evalP] at h
        cases he : evalP env k ρ b with
        | none => simp [he] at h
        | some r =>
          obtain ⟨p, ρ1⟩ := r
          simp only [he] at h
          obtain ⟨rfl, h2⟩ := ihP hb _ _ he
          split at h
          · rename_i hp
            simp only [Option.some.injEq, Prod.mk.injEq] at h
            obtain ⟨rfl, rfl⟩ := h
            refine ⟨rfl, fun s => ?_⟩
            have := h2 s
            simp only [hp, Finset.notMem_empty, decide_false] at this ⊢
            exact .and_false this
          · cases he2 : evalP env k ρ1 c with
            | none => simp [he2] at h
            | some r =>
              obtain ⟨q, ρ2⟩ := r
              simp only [he2, Option.some.injEq, Prod.mk.injEq] at h
              obtain ⟨rfl, rfl⟩ := h
              obtain ⟨rfl, h4⟩ := ihP hc _ _ he2
              refine ⟨rfl, fun s => ?_⟩
              have e1 := h2 s
              by_cases hs : s ∈ p
              · simp only [hs, decide_true] at e1
                exact Sem.bool_cast (.and_true e1 (h4 s)) (by simp [hs])
              · simp only [hs, decide_false] at e1
                exact Sem.bool_cast (.and_false e1) (by simp [hs])
      · intro f ρ' h; simp [evalI] at h
    | or hb hc =>
      rename_i b c
      constructor
      · intro pf ρ' h
        simp only [evalP] at h
        cases he : evalP env k ρ b with
        | none => simp [he] at h
        | some r =>
          obtain ⟨p, ρ1⟩ := r
          simp only [he] at h
          obtain ⟨rfl, h2⟩ := ihP hb _ _ he
          split at h
          · rename_i hp
            simp only [Option.some.injEq, Prod.mk.injEq] at h
            obtain ⟨rfl, rfl⟩ := h
            refine ⟨rfl, fun s => ?_⟩
            have := h2 s
            simp only [hp, Finset.mem_univ, decide_true] at this ⊢
            exact .or_true this
          · cases he2 : evalP env k ρ1 c with
            | none => simp [he2] at h
            | some r =>
              obtain ⟨q, ρ2⟩ := r
              simp only [he2, Option.some.injEq, Prod.mk.injEq] at h
              obtain ⟨rfl, rfl⟩ := h
              obtain ⟨rfl, h4⟩ := ihP hc _ _ he2
              refine ⟨rfl, fun s => ?_⟩
              have e1 := h2 s
              by_cases hs : s ∈ p
              · simp only [hs, decide_true] at e1
                exact Sem.bool_cast (.or_true e1) (by simp [hs])
              · simp only [hs, decide_false] at e1
                exact Sem.bool_cast (.or_false e1 (h4 s)) (by simp [hs])
      · intro f ρ' h; simp [evalI] at h
    | imp hb hc =>
      rename_i b c
      constructor
      · intro pf ρ' h
        simp only [evalP] at h
        cases he : evalP env k ρ b with
        | none => simp [he] at h
        | some r =>
          obtain ⟨p, ρ1⟩ := r
          simp only [he] at h
          obtain ⟨rfl, h2⟩ := ihP hb _ _ he
          split at h
          · rename_i hp
            simp only [Option.some.injEq, Prod.mk.injEq] at h
            obtain ⟨rfl, rfl⟩ := h
            refine ⟨rfl, fun s => ?_⟩
            have := h2 s
            simp only [hp, Finset.notMem_empty, decide_false] at this
            simp only [Finset.mem_univ, decide_true]
            exact .imp_false this
          · cases he2 : evalP env k ρ1 c with
            | none => simp [he2] at h
            | some r =>
              obtain ⟨q, ρ2⟩ := r
              simp only [he2, Option.some.injEq, Prod.mk.injEq] at h
              obtain ⟨rfl, rfl⟩ := h
              obtain ⟨rfl, h4⟩ := ihP hc _ _ he2
              refine ⟨rfl, fun s => ?_⟩
              have e1 := h2 s
              by_cases hs : s ∈ p
              · simp only [hs, decide_true] at e1
                exact Sem.bool_cast (.imp_true e1 (h4 s)) (by simp [hs])
              · simp only [hs, decide_false] at e1
                exact Sem.bool_cast (.imp_false e1) (by simp [hs])
      · intro f ρ' h; simp [evalI] at h
    | iff hb hc =>
      rename_i b c
      constructor
      · intro pf ρ' h
        simp only [evalP] at h
        cases he : evalP env k ρ b with
        | none => simp [he] at h
        | some r =>
          obtain ⟨p, ρ1⟩ := r
          simp only [he] at h
          obtain ⟨rfl, h2⟩ := ihP hb _ _ he
          cases he2 : evalP env k ρ1 c with
          | none => simp [he2] at h
          | some r =>
            obtain ⟨q, ρ2⟩ := r
            simp only [he2, Option.some.injEq, Prod.mk.injEq] at h
            obtain ⟨rfl, rfl⟩ := h
            obtain ⟨rfl, h4⟩ := ihP hc _ _ he2
            refine ⟨rfl, fun s => Sem.bool_cast (.iff (h2 s) (h4 s)) ?_⟩
            by_cases h5 : s ∈ p <;> by_cases h6 : s ∈ q <;> simp [h5, h6]
      · intro f ρ' h; simp [evalI] at h
    | xor hb hc =>
      rename_i b c
      constructor
      · intro pf ρ' h
        simp only [evalP] at h
        cases he : evalP env k ρ b with
        | none => simp [he] at h
        | some r =>
          obtain ⟨p, ρ1⟩ := r
          simp only [he] at h
          obtain ⟨rfl, h2⟩ := ihP hb _ _ he
          cases he2 : evalP env k ρ1 c with
          | none => simp [he2] at h
          | some r =>
            obtain ⟨q, ρ2⟩ := r
            simp only [he2, Option.some.injEq, Prod.mk.injEq] at h
            obtain ⟨rfl, rfl⟩ := h
            obtain ⟨rfl, h4⟩ := ihP hc _ _ he2
            refine ⟨rfl, fun s => Sem.bool_cast (.xor (h2 s) (h4 s)) ?_⟩
            by_cases h5 : s ∈ p <;> by_cases h6 : s ∈ q <;> simp [h5, h6]
      · intro f ρ' h; simp [evalI] at h
    | cmp hb hc =>
      rename_i lt eq gt b c
      constructor
      · intro pf ρ' h
        simp only [evalP] at h
        cases he : evalI env k ρ b with
        | none => simp [he] at h
        | some r =>
          obtain ⟨f, ρ1⟩ := r
          simp only [he] at h
          obtain ⟨rfl, V, hV, h2⟩ := ihI hb _ _ he
          cases he2 : evalI env k ρ1 c with
          | none => simp [he2] at h
          | some r =>
            obtain ⟨g, ρ2⟩ := r
            simp only [he2] at h
            obtain ⟨rfl, W, hW, h4⟩ := ihI hc _ _ he2
            cases he3 : f.cmp dom lt eq gt g with
            | none => simp [he3] at h
            | some p =>
              simp only [he3, Option.some.injEq, Prod.mk.injEq] at h
              obtain ⟨rfl, rfl⟩ := h
              refine ⟨rfl, fun s => ?_⟩
              obtain ⟨x, y, hx, hy, hs⟩ := isVals_cmp s0 hV hW he3 s
              have e1 := h2 s
              have e2 := h4 s
              rw [hx] at e1
              rw [hy] at e2
              exact Sem.bool_cast (.cmp e1 e2) (decide_eq_decide.2 hs.symm)
      · intro f ρ' h; simp [evalI] at h
    | quant hx hlx hr hd =>
      rename_i q x r d
      constructor
      · intro pf ρ' h
        simp only [evalP] at h
        cases he : evalI env k ρ r with
        | none => simp [he] at h
        | some t =>
          obtain ⟨f, ρ1⟩ := t
          simp only [he] at h
          obtain ⟨rfl, V, hV, h2⟩ := ihI hr _ _ he
          split at h
          · rename_i hvb
            cases hlo : quantLoop q x (fun ρ' => evalP env k ρ' d) f.stateMap (quantInit q) ∅ ρ1 with
            | none => simp [hlo] at h
            | some t =>
              obtain ⟨p, ρ2⟩ := t
              simp only [hlo, Option.some.injEq, Prod.mk.injEq] at h
              obtain ⟨rfl, rfl⟩ := h
              have hρx : ρ1 x = none := by
                by_contra hc
                exact hx (hD x hc)
              have hbody : ∀ v, SoundP env (Function.update ρ1 x (some v)) d
                  (evalP env k (Function.update ρ1 x (some v)) d) := by
                intro v
                refine (ih _ d (insert x D) hd ?_ ?_).1
                · intro y hy
                  by_cases hyx : y = x
                  · exact .inl hyx
                  · rw [Function.update_of_ne hyx] at hy
                    exact .inr (hD y hy)
                · intro y hy
                  by_cases hyx : y = x
                  · rw [hyx]; exact hlx
                  · rw [Function.update_of_ne hyx] at hy
                    exact hL y hy
              obtain ⟨g1, cs, g2, g3⟩ := quantLoop_spec q x _ ρ1
                (fun v c ρ' hh => (hbody v c ρ' hh).1) f.stateMap _ _ ρ1 (fun _ => rfl) _ _ hlo
              refine ⟨?_, fun s => ?_⟩
              · rw [g1, ← hρx, Function.update_eq_self]
              · have hVs : V s = f.stateMap := by
                  rcases hV with ⟨-, -, -, -, h5⟩ | ⟨h1, -⟩
                  · exact h5 s
                  · exact absurd hvb h1
                have e1 := h2 s
                rw [hVs] at e1
                have hlen := g2.length_eq
                refine .quant (fun i => decide (s ∈ cs.getD i ∅)) e1 (fun i hi => ?_) ?_
                · have hi' : i < cs.length := by omega
                  have hf := (List.forall₂_iff_get.1 g2).2 i hi hi'
                  simp only [List.get_eq_getElem] at hf
                  have := (hbody _ _ _ hf).2 s
                  rw [List.getD_eq_getElem?_getD, List.getElem?_eq_getElem hi']
                  exact this
                · rw [hlen, g3]
                  exact quantFold_val q cs s
          · cases h
      · intro f ρ' h; simp [evalI] at h
    | neg hb =>
      rename_i b
      constructor
      · intro pf ρ' h; simp [evalP] at h
      · intro f ρ' h
        simp only [evalI] at h
        cases he : evalI env k ρ b with
        | none => simp [he] at h
        | some r =>
          obtain ⟨g, ρ1⟩ := r
          simp only [he, Option.some.injEq, Prod.mk.injEq] at h
          obtain ⟨rfl, rfl⟩ := h
          obtain ⟨h1, V, hV, h2⟩ := ihI hb _ _ he
          exact ⟨h1, _, isVals_negate hV, fun s => .neg (h2 s)⟩
    | arith hb hc =>
      rename_i op b c
      constructor
      · intro pf ρ' h; simp [evalP] at h
      · intro r ρ' h
        simp only [evalI] at h
        cases he : evalI env k ρ b with
        | none => simp [he] at h
        | some t =>
          obtain ⟨f, ρ1⟩ := t
          simp only [he] at h
          obtain ⟨rfl, V, hV, h2⟩ := ihI hb _ _ he
          cases he2 : evalI env k ρ1 c with
          | none => simp [he2] at h
          | some t =>
            obtain ⟨g, ρ2⟩ := t
            simp only [he2] at h
            obtain ⟨rfl, W, hW, h4⟩ := ihI hc _ _ he2
            cases he3 : f.binop op g with
            | none => simp [he3] at h
            | some p =>
              simp only [he3, Option.some.injEq, Prod.mk.injEq] at h
              obtain ⟨rfl, rfl⟩ := h
              obtain ⟨U, hU, hop⟩ := isVals_binop s0 hV hW he3
              exact ⟨rfl, U, hU, fun s => .arith (h2 s) (h4 s) (hop s)⟩
    | natDom hb =>
      rename_i b
      constructor
      · intro pf ρ' h; simp [evalP] at h
      · intro r ρ' h
        simp only [evalI] at h
        cases he : evalI env k ρ b with
        | none => simp [he] at h
        | some t =>
          obtain ⟨f, ρ1⟩ := t
          simp only [he] at h
          obtain ⟨rfl, V, hV, h2⟩ := ihI hb _ _ he
          cases hs : single f with
          | none => simp [hs] at h
          | some m =>
            simp only [hs] at h
            split at h
            · rename_i hm
              simp only [Option.some.injEq, Prod.mk.injEq] at h
              obtain ⟨rfl, rfl⟩ := h
              refine ⟨rfl, _, isVals_ofSet (by omega), fun s => ?_⟩
              have e1 := h2 s
              rw [single_vals s0 hV hs] at e1
              exact .natDom e1 hm
            · cases h
    | iif hb hc hd =>
      rename_i b c d
      constructor
      · intro pf ρ' h; simp [evalP] at h
      · intro r ρ' h
        simp only [evalI] at h
        cases he : evalP env k ρ b with
        | none => simp [he] at h
        | some t =>
          obtain ⟨p, ρ1⟩ := t
          simp only [he] at h
          obtain ⟨rfl, h2⟩ := ihP hb _ _ he
          split at h
          · rename_i hp
            obtain ⟨h3, V, hV, h4⟩ := ihI hc _ _ h
            refine ⟨h3, V, hV, fun s => ?_⟩
            have e1 := h2 s
            simp only [hp, Finset.mem_univ, decide_true] at e1
            exact .iif_true e1 (h4 s)
          · split at h
            · rename_i hp
              obtain ⟨h3, V, hV, h4⟩ := ihI hd _ _ h
              refine ⟨h3, V, hV, fun s => ?_⟩
              have e1 := h2 s
              simp only [hp, Finset.notMem_empty, decide_false] at e1
              exact .iif_false e1 (h4 s)
            · cases h
    | aref hi =>
      rename_i a i
      constructor
      · intro pf ρ' h; simp [evalP] at h
      · intro r ρ' h
        simp only [evalI] at h
        cases he : evalI env k ρ i with
        | none => simp [he] at h
        | some t =>
          obtain ⟨f, ρ1⟩ := t
          simp only [he] at h
          obtain ⟨rfl, V, hV, h2⟩ := ihI hi _ _ he
          cases hs : single f with
          | none => simp [hs] at h
          | some m =>
            simp only [hs] at h
            have e1 : ∀ s, Sem env ρ1 i s (.ints [m]) := by
              intro s
              have := h2 s
              rwa [single_vals s0 hV hs] at this
            cases hc : env.consts a with
            | some membs =>
              simp only [hc] at h
              cases hg : umodGet membs m with
              | none => simp [hg] at h
              | some v =>
                simp only [hg, Option.some.injEq, Prod.mk.injEq] at h
                obtain ⟨rfl, rfl⟩ := h
                exact ⟨rfl, _, isVals_ofInt v, fun s => .aref_const hc (e1 s) (umodGet_member hg)⟩
            | none =>
              simp only [hc] at h
              cases hv : env.vbls a with
              | none => simp [hv] at h
              | some membs =>
                simp only [hv] at h
                cases hg : umodGet membs m with
                | none => simp [hg] at h
                | some v =>
                  simp only [hg] at h
                  split at h
                  · simp only [Option.some.injEq, Prod.mk.injEq] at h
                    obtain ⟨rfl, rfl⟩ := h
                    exact ⟨rfl, _, isVals_ofVbl v, fun s => .aref_vbl hc hv (e1 s) (umodGet_member hg)⟩
                  · cases h

end Verif.Proofs
