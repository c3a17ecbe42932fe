import Verif.Proofs.BiSearch
import Verif.Props.Biring
import Mathlib.Data.Fintype.Perm
import Mathlib.Data.Fintype.Lattice

/-!
# Property C113: the search for invariants of bidirectional rings lists each of them once

`biSearch` is `searchit` of src/biring.cc, see Model/BiSearch; `BiInvariant` is in Spec/Biring and `SetRenamed` in
Spec/Rename.
-/

namespace Verif.Props
open Verif.Spec Verif.Model Verif.Proofs

section
variable {d : ℕ}

/-- A renaming of the values. -/
def biVal (σ : Equiv.Perm (Fin d)) (v : ℕ) : ℕ := if h : v < d then σ ⟨v, h⟩ else v

theorem biVal_lt (σ : Equiv.Perm (Fin d)) {v : ℕ} (h : v < d) : biVal σ v < d := by
  unfold biVal
  rw [dif_pos h]
  exact (σ _).2

theorem biVal_fin (σ : Equiv.Perm (Fin d)) (v : Fin d) : biVal σ v = σ v := by
  unfold biVal
  rw [dif_pos v.2]

theorem biVal_mul (σ τ : Equiv.Perm (Fin d)) (v : ℕ) : biVal (σ * τ) v = biVal σ (biVal τ v) := by
  by_cases h : v < d
  · have := biVal_fin (σ * τ) ⟨v, h⟩
    have h2 := biVal_fin τ ⟨v, h⟩
    have h3 := biVal_fin σ (τ ⟨v, h⟩)
    simp only at this h2
    rw [this, h2, h3]
    rfl
  · simp [biVal, h]

theorem biVal_inv (σ : Equiv.Perm (Fin d)) (v : ℕ) : biVal σ⁻¹ (biVal σ v) = v := by
  rw [← biVal_mul, inv_mul_cancel]
  by_cases h : v < d <;> simp [biVal, h]

theorem biVal_inv' (σ : Equiv.Perm (Fin d)) (v : ℕ) : biVal σ (biVal σ⁻¹ v) = v := by
  rw [← biVal_mul, mul_inv_cancel]
  by_cases h : v < d <;> simp [biVal, h]

theorem biVal_inj (σ : Equiv.Perm (Fin d)) {v w : ℕ} : biVal σ v = biVal σ w ↔ v = w :=
  ⟨fun h => by rw [← biVal_inv σ v, h, biVal_inv], fun h => by rw [h]⟩

/-- A renaming of a configuration. -/
def biConf (σ : Equiv.Perm (Fin d)) (c : ℕ × ℕ × ℕ) : ℕ × ℕ × ℕ := (biVal σ c.1, biVal σ c.2.1, biVal σ c.2.2)

/-- A renaming of its number. -/
def biRen (σ : Equiv.Perm (Fin d)) (i : ℕ) : ℕ := enumIdxOfPcConfig (biConf σ (pcConfigOfEnumIdx i d)) d

theorem biRen_lt (σ : Equiv.Perm (Fin d)) {i : ℕ} (hi : i < d * d * d) :
    biRen σ i < d * d * d ∧ pcConfigOfEnumIdx (biRen σ i) d = biConf σ (pcConfigOfEnumIdx i d) := by
  obtain ⟨-, h1, h2, h3⟩ := (biCoded d).dec i hi
  have := (biCoded d).enc _ _ _ (biVal_lt σ h1) (biVal_lt σ h2) (biVal_lt σ h3)
  exact ⟨this.2, this.1⟩

theorem biConf_mul (σ τ : Equiv.Perm (Fin d)) (c : ℕ × ℕ × ℕ) : biConf (σ * τ) c = biConf σ (biConf τ c) := by
  simp [biConf, biVal_mul]

theorem biConf_inv (σ : Equiv.Perm (Fin d)) (c : ℕ × ℕ × ℕ) : biConf σ⁻¹ (biConf σ c) = c := by
  simp [biConf, biVal_inv]

theorem biConf_inv' (σ : Equiv.Perm (Fin d)) (c : ℕ × ℕ × ℕ) : biConf σ (biConf σ⁻¹ c) = c := by
  simp [biConf, biVal_inv']

theorem biRen_mul (σ τ : Equiv.Perm (Fin d)) {i : ℕ} (hi : i < d * d * d) : biRen (σ * τ) i = biRen σ (biRen τ i) := by
  rw [biRen, biRen, (biRen_lt τ hi).2, biConf_mul]

theorem biRen_inv (σ : Equiv.Perm (Fin d)) {i : ℕ} (hi : i < d * d * d) : biRen σ⁻¹ (biRen σ i) = i := by
  rw [biRen, (biRen_lt σ hi).2, biConf_inv]
  exact ((biCoded d).dec i hi).1

theorem biRen_inv' (σ : Equiv.Perm (Fin d)) {i : ℕ} (hi : i < d * d * d) : biRen σ (biRen σ⁻¹ i) = i := by
  rw [biRen, (biRen_lt σ⁻¹ hi).2, biConf_inv']
  exact ((biCoded d).dec i hi).1

theorem mem_biRen (σ : Equiv.Perm (Fin d)) {T : Finset ℕ} (hT : ∀ i ∈ T, i < d * d * d) {i : ℕ} (hi : i < d * d * d) :
    i ∈ T.image (biRen σ) ↔ biRen σ⁻¹ i ∈ T := by
  rw [Finset.mem_image]
  constructor
  · rintro ⟨j, hj, rfl⟩
    rw [biRen_inv σ (hT j hj)]
    exact hj
  · exact fun h => ⟨_, h, biRen_inv' σ hi⟩

theorem biRen_image_lt (σ : Equiv.Perm (Fin d)) {T : Finset ℕ} (hT : ∀ i ∈ T, i < d * d * d) :
    ∀ i ∈ T.image (biRen σ), i < d * d * d := by
  intro i hi
  obtain ⟨j, hj, rfl⟩ := Finset.mem_image.mp hi
  exact (biRen_lt σ (hT j hj)).1

theorem biBits_get {S : Finset ℕ} {i : ℕ} (hi : i < d * d * d) : (biBits d S)[i]? = some (decide (i ∈ S)) := by
  unfold biBits
  rw [List.getElem?_map, List.getElem?_range hi]
  rfl

theorem biBits_length (S : Finset ℕ) : (biBits d S).length = d * d * d := by
  unfold biBits
  simp

theorem biRen_index (σ : Equiv.Perm (Fin d)) (a b c : Fin d) :
    biRen σ (((a : ℕ) * d + b) * d + c) = ((σ a : ℕ) * d + σ b) * d + σ c := by
  have e : ∀ a b c : ℕ, enumIdxOfPcConfig (b, a, c) d = (a * d + b) * d + c := fun a b c => by
    simp [enumIdxOfPcConfig, index3]
  rw [← e, biRen, ((biCoded d).enc _ _ _ b.2 a.2 c.2).1, ← e]
  simp [biConf, biVal_fin]

theorem renamed_iff (σ : Equiv.Perm (Fin d)) {A B : Finset ℕ} (hA : ∀ i ∈ A, i < d * d * d)
    (hB : ∀ i ∈ B, i < d * d * d) : SetRenamed σ (biBits d A) (biBits d B) ↔ B = A.image (biRen σ) := by
  have hlt : ∀ a b c : Fin d, ((a : ℕ) * d + b) * d + c < d * d * d := fun a b c => index3_lt a.2 b.2 c.2
  have key : SetRenamed σ (biBits d A) (biBits d B) ↔
      ∀ a b c : Fin d, biRen σ (((a : ℕ) * d + b) * d + c) ∈ B ↔ ((a : ℕ) * d + b) * d + c ∈ A := by
    unfold SetRenamed
    refine forall_congr' fun a => forall_congr' fun b => forall_congr' fun c => ?_
    rw [biBits_get (hlt a b c), biBits_get (hlt _ _ _), biRen_index, Option.some.injEq, decide_eq_decide]
  rw [key]
  constructor
  · intro h
    ext i
    constructor
    · intro hi
      have hi' := hB i hi
      rw [mem_biRen σ hA hi']
      obtain ⟨a, b, c, e⟩ := index3_cases (d := d) (biRen_lt σ⁻¹ hi').1
      rw [e, ← h, ← e, biRen_inv' σ hi']
      exact hi
    · intro hi
      obtain ⟨j, hj, rfl⟩ := Finset.mem_image.mp hi
      obtain ⟨a, b, c, rfl⟩ := index3_cases (d := d) (hA j hj)
      exact (h a b c).mpr hj
  · rintro rfl a b c
    rw [mem_biRen σ hA (biRen_lt σ (hlt a b c)).1, biRen_inv σ (hlt a b c)]

/-! ### Renamed invariants -/

theorem biRingAt_ren (σ : Equiv.Perm (Fin d)) {legit legit' : ℕ × ℕ × ℕ → Prop}
    (h : ∀ a b c, a < d → b < d → c < d → legit (a, b, c) → legit' (biConf σ (a, b, c))) {n : ℕ} {c : ℕ × ℕ × ℕ}
    (hr : BiRingAt d legit n c) : BiRingAt d legit' n (biConf σ c) := by
  obtain ⟨hn, x, h1, h2, h3, h4⟩ := hr
  refine ⟨hn, fun i => biVal σ (x i), fun i => by simp only [h1], fun i => biVal_lt σ (h2 i),
    fun i => h _ _ _ (h2 _) (h2 _) (h2 _) (h3 i), ?_⟩
  rw [← h4]
  rfl

theorem invariant_bound {dec : ℕ → ℕ × ℕ × ℕ} {enc : ℕ × ℕ × ℕ → ℕ} {pair trivial : Bool} {minsz : ℕ} {T : Finset ℕ}
    (h : BiInvariant dec enc d pair trivial minsz T) : ∀ i ∈ T, i < d * d * d := by
  obtain ⟨legit, -, -, h⟩ := h.legit
  exact fun i hi => ((h i).mp hi).1

theorem invariant_ren (σ : Equiv.Perm (Fin d)) {pair trivial : Bool} {minsz : ℕ} {T : Finset ℕ}
    (h : BiInvariant (fun i => pcConfigOfEnumIdx i d) (fun c => enumIdxOfPcConfig c d) d pair trivial minsz T) :
    BiInvariant (fun i => pcConfigOfEnumIdx i d) (fun c => enumIdxOfPcConfig c d) d pair trivial minsz
      (T.image (biRen σ)) := by
  have hT := invariant_bound h
  obtain ⟨⟨legit, l1, l2, l3⟩, s1, s2⟩ := h
  have hsz : ∀ n, BiRing d (fun c => enumIdxOfPcConfig c d ∈ T) n →
      BiRing d (fun c => enumIdxOfPcConfig c d ∈ T.image (biRen σ)) n := by
    rintro n ⟨c, hc⟩
    refine ⟨_, biRingAt_ren σ (fun a b c ha hb hc hm => ?_) hc⟩
    refine Finset.mem_image.mpr ⟨_, hm, ?_⟩
    rw [biRen, ((biCoded d).enc a b c ha hb hc).1]
  refine ⟨⟨fun c => legit (biConf σ⁻¹ c), ?_, ?_, ?_⟩, fun h0 n hn => hsz n (s1 h0 n hn), fun h0 => ?_⟩
  · rintro ht a b c hl ⟨rfl, hor⟩
    refine l1 ht _ _ _ hl ⟨rfl, ?_⟩
    rcases hor with h | rfl
    · exact Or.inl h
    · exact Or.inr rfl
  · intro hp a b c c' hc hc' hl
    exact l2 hp _ _ _ _ (biVal_lt σ⁻¹ hc) (biVal_lt σ⁻¹ hc') hl
  · intro i
    constructor
    · intro hi
      obtain ⟨j, hj, rfl⟩ := Finset.mem_image.mp hi
      obtain ⟨hj', n, hr⟩ := (l3 j).mp hj
      refine ⟨(biRen_lt σ hj').1, n, ?_⟩
      rw [(biRen_lt σ hj').2]
      exact biRingAt_ren σ (fun a b c _ _ _ hl => by rw [biConf_inv]; exact hl) hr
    · rintro ⟨hi, n, hr⟩
      rw [mem_biRen σ hT hi, l3]
      refine ⟨(biRen_lt σ⁻¹ hi).1, n, ?_⟩
      rw [(biRen_lt σ⁻¹ hi).2]
      exact biRingAt_ren σ⁻¹ (fun a b c _ _ _ hl => hl) hr
  · obtain ⟨m, hm⟩ := s2 h0
    exact ⟨m, fun n hn => hsz n (hm n hn)⟩

/-! ### What the search uses -/

/-- Configurations that are removed together. -/
def biSame (d : ℕ) (pair : Bool) (i j : ℕ) : Prop := if pair then i / d = j / d else i = j

theorem enum_div {a b c : ℕ} (hc : c < d) : enumIdxOfPcConfig (a, b, c) d / d = b * d + a := by
  have e : enumIdxOfPcConfig (a, b, c) d = (b * d + a) * d + c := by simp [enumIdxOfPcConfig, index3]
  rw [e, Nat.mul_comm, Nat.mul_add_div (by omega), Nat.div_eq_of_lt hc, Nat.add_zero]

theorem div_iff {i j : ℕ} (hi : i < d * d * d) (hj : j < d * d * d) : i / d = j / d ↔
    (pcConfigOfEnumIdx i d).1 = (pcConfigOfEnumIdx j d).1 ∧ (pcConfigOfEnumIdx i d).2.1 = (pcConfigOfEnumIdx j d).2.1 := by
  obtain ⟨e1, a1, b1, c1⟩ := (biCoded d).dec i hi
  obtain ⟨e2, a2, b2, c2⟩ := (biCoded d).dec j hj
  have h1 := enum_div (a := (pcConfigOfEnumIdx i d).1) (b := (pcConfigOfEnumIdx i d).2.1) c1
  have h2 := enum_div (a := (pcConfigOfEnumIdx j d).1) (b := (pcConfigOfEnumIdx j d).2.1) c2
  rw [Prod.mk.eta, e1] at h1
  rw [Prod.mk.eta, e2] at h2
  rw [h1, h2]
  constructor
  · intro h
    have hm := congrArg (· % d) h
    have hd := congrArg (· / d) h
    simp only [Nat.mul_add_mod_self_right, Nat.mod_eq_of_lt a1, Nat.mod_eq_of_lt a2] at hm
    refine ⟨hm, ?_⟩
    rw [Nat.mul_comm, Nat.mul_add_div (by omega), Nat.div_eq_of_lt a1, Nat.mul_comm _ d, Nat.mul_add_div (by omega),
      Nat.div_eq_of_lt a2] at hd
    omega
  · rintro ⟨h3, h4⟩
    rw [h3, h4]

theorem mem_biInit {pair trivial : Bool} {i : ℕ} : i ∈ biInit d pair trivial ↔ i < d * d * d ∧
    (trivial = false → ¬ ((pcConfigOfEnumIdx i d).1 = (pcConfigOfEnumIdx i d).2.1 ∧
      (pair = true ∨ (pcConfigOfEnumIdx i d).2.1 = (pcConfigOfEnumIdx i d).2.2))) := by
  unfold biInit
  cases trivial with
  | true => simp
  | false =>
    simp only [Bool.false_eq_true, if_false, Finset.mem_sdiff, Finset.mem_range, Finset.mem_biUnion, forall_const]
    refine and_congr_right fun hi => not_congr ?_
    obtain ⟨e, h1, h2, h3⟩ := (biCoded d).dec i hi
    cases pair with
    | true =>
      simp only [if_true, Finset.mem_image, Finset.mem_range, true_or, and_true]
      constructor
      · rintro ⟨v, hv, k, hk, rfl⟩
        rw [((biCoded d).enc v v k hv hv hk).1]
      · intro h
        refine ⟨_, h1, _, h3, ?_⟩
        conv_rhs => rw [← e]
        congr 1
        rw [Prod.ext_iff, Prod.ext_iff]
        exact ⟨rfl, h, rfl⟩
    | false =>
      simp only [Bool.false_eq_true, if_false, Finset.mem_singleton, false_or]
      constructor
      · rintro ⟨v, hv, rfl⟩
        rw [((biCoded d).enc v v v hv hv hv).1]
        exact ⟨rfl, rfl⟩
      · rintro ⟨h4, h5⟩
        refine ⟨_, h1, ?_⟩
        conv_lhs => rw [← e]
        congr 1
        rw [Prod.ext_iff, Prod.ext_iff]
        exact ⟨rfl, h4.symm, (h4.trans h5).symm⟩

theorem mem_biDrop {pair : Bool} {S : Finset ℕ} (hS : ∀ i ∈ S, i < d * d * d) {q : ℕ} (hq : q ∈ S) (j : ℕ) :
    j ∈ biDrop d pair S q ↔ j ∈ S ∧ ¬ biSame d pair q j := by
  unfold biDrop biSame
  cases pair with
  | false =>
    simp only [Bool.false_eq_true, if_false, Finset.mem_erase]
    exact ⟨fun h => ⟨h.2, fun e => h.1 e.symm⟩, fun h => ⟨fun e => h.2 e.symm, h.1⟩⟩
  | true =>
    simp only [if_true, Finset.mem_sdiff, Finset.mem_erase, Finset.mem_image, Finset.mem_range]
    obtain ⟨e, h1, h2, h3⟩ := (biCoded d).dec q (hS q hq)
    constructor
    · rintro ⟨⟨h4, h5⟩, h6⟩
      refine ⟨h5, fun h => h6 ?_⟩
      obtain ⟨e', -, -, h3'⟩ := (biCoded d).dec j (hS j h5)
      obtain ⟨g1, g2⟩ := (div_iff (hS q hq) (hS j h5)).mp h
      refine ⟨_, h3', ?_⟩
      rw [g1, g2]
      exact e'
    · rintro ⟨h5, h6⟩
      refine ⟨⟨fun h => h6 (by rw [h]), h5⟩, ?_⟩
      rintro ⟨k, hk, rfl⟩
      refine h6 ((div_iff (hS q hq) (hS _ h5)).mpr ?_)
      rw [((biCoded d).enc _ _ k h1 h2 hk).1]
      exact ⟨rfl, rfl⟩

/-- The configurations on cycles. -/
noncomputable def biCyc (d : ℕ) (S : Finset ℕ) : Finset ℕ :=
  @Finset.filter ℕ (fun i => Relation.TransGen (fun x y => y ∈ biConts d S x) i i) (Classical.decPred _) S

theorem mem_biCyc {S : Finset ℕ} {i : ℕ} : i ∈ biCyc d S ↔
    i ∈ S ∧ Relation.TransGen (fun x y => y ∈ biConts d S x) i i := by
  unfold biCyc
  rw [@Finset.mem_filter _ _ (Classical.decPred _)]

theorem iter_set_mono {S S' : Finset ℕ} (h : S ⊆ S') {n e : ℕ} (he : e ∈ (biImg d S)^[n] {e}) :
    e ∈ (biImg d S')^[n] {e} := by
  obtain ⟨w, h1, h2, h3⟩ := (iter_walk e n e).mp he
  exact (iter_walk e n e).mpr ⟨w, h1, h2, fun i hi => Finset.mem_inter.mpr
    ⟨(Finset.mem_inter.mp (h3 i hi)).1, h (Finset.mem_inter.mp (h3 i hi)).2⟩⟩

theorem biFacts (gt : List Bool → List Bool → Bool) (hgt : StrictTotal (d * d * d) gt) (pair trivial : Bool) (minsz : ℕ) :
    BiFacts gt d pair minsz (biInit d pair trivial) (biSame d pair) (biCyc d) (fun S => (biSat d S minsz).getD false)
      (fun S => (canonicalSet gt (biBits d S) d).getD []) (Equiv.Perm (Fin d)) biRen := by
  have hinit : ∀ S, S ⊆ biInit d pair trivial → ∀ i ∈ S, i < d * d * d := fun S hS i hi => (mem_biInit.mp (hS hi)).1
  refine ⟨fun S q hS hq => mem_biDrop (hinit S hS) hq, ?_, ?_, ?_, ?_, ?_, ?_, ?_, ?_, ?_, ?_, ?_, ?_⟩
  · intro i; unfold biSame; split <;> rfl
  · intro i j; unfold biSame; split <;> exact Eq.symm
  · intro i j k; unfold biSame; split <;> exact Eq.trans
  · intro i j i' j' hlt
    unfold biSame
    cases pair with
    | false =>
      simp only [Bool.false_eq_true, if_false]
      omega
    | true =>
      simp only [if_true]
      intro h1 h2 h3
      by_contra hn
      have g1 := Nat.div_le_div_right (c := d) hlt.le
      have g2 := Nat.div_le_div_right (c := d) (Nat.le_of_not_lt hn)
      omega
  · intro S hS
    obtain ⟨T, h1, h2⟩ := biFix_mem d (hinit S hS)
    rw [h1]
    congr 1
    ext i
    rw [h2, mem_biCyc]
  · exact fun S i hi => (mem_biCyc.mp hi).1
  · intro S S' h i hi
    obtain ⟨h1, h2⟩ := mem_biCyc.mp hi
    refine mem_biCyc.mpr ⟨h h1, Relation.TransGen.mono (fun x y (hy : y ∈ biConts d S x) => ?_) _ _ h2⟩
    exact Finset.mem_inter.mpr ⟨(Finset.mem_inter.mp hy).1, h (Finset.mem_inter.mp hy).2⟩
  · intro S
    ext i
    rw [mem_biCyc, cycle_in (S := S) (fun i hi => (mem_biCyc.mp hi).1) (fun i hi ht => mem_biCyc.mpr ⟨hi, ht⟩), mem_biCyc]
    tauto
  · intro S hS
    obtain ⟨b, h1, -⟩ := biSat_spec d (hinit S hS) minsz
    rw [h1]
    rfl
  · intro S S' h hS' hs
    obtain ⟨b, h1, h2⟩ := biSat_spec d (hinit S (h.trans hS')) minsz
    obtain ⟨b', h1', h2'⟩ := biSat_spec d (hinit S' hS') minsz
    simp only [h1, h1', Option.getD_some] at hs ⊢
    rw [h2']
    obtain ⟨⟨m, q1⟩, q2⟩ := h2.mp hs
    refine ⟨⟨m, fun n hn hp => ?_⟩, fun h0 n hn => ?_⟩
    · obtain ⟨e, he, hm⟩ := q1 n hn hp
      exact ⟨e, h he, iter_set_mono h hm⟩
    · obtain ⟨e, he, hm⟩ := q2 h0 n hn
      exact ⟨e, h he, iter_set_mono h hm⟩
  · intro S _
    obtain ⟨⟨C, hC, -⟩, -⟩ := C35_canonical_set gt d hgt _ _ (biBits_length S) (biBits_length S)
    rw [hC]
    rfl
  · intro A B hA hB h
    obtain ⟨⟨C, hC, -⟩, -⟩ := C35_canonical_set gt d hgt _ _ (biBits_length A) (biBits_length A)
    obtain ⟨⟨D, hD, -⟩, h2⟩ := C35_canonical_set gt d hgt _ _ (biBits_length B) (biBits_length A)
    simp only [hC, hD, Option.getD_some] at h
    rw [hC, hD, h] at h2
    obtain ⟨σ, hσ⟩ := h2.mp rfl
    exact ⟨σ, (renamed_iff σ (hinit B hB) (hinit A hA)).mp hσ⟩

/-- The invariants, as the search sees them. -/
theorem invariant_iff {pair trivial : Bool} {minsz : ℕ} {T : Finset ℕ} :
    BiInvariant (fun i => pcConfigOfEnumIdx i d) (fun c => enumIdxOfPcConfig c d) d pair trivial minsz T ↔
      BiBlocks (biInit d pair trivial) (biSame d pair) (biCyc d) T ∧ (biSat d T minsz).getD false = true := by
  have hsat : (∀ i ∈ T, i < d * d * d) → (((biSat d T minsz).getD false = true) ↔
      ((0 < minsz → ∀ n ≥ minsz, BiRing d (fun c => enumIdxOfPcConfig c d ∈ T) n) ∧
        (minsz = 0 → ∃ m, ∀ n ≥ m, BiRing d (fun c => enumIdxOfPcConfig c d ∈ T) n))) := by
    intro hT
    obtain ⟨b, h1, h2, h3⟩ := C112_sat d hT minsz
    rw [h1, Option.getD_some]
    rcases Nat.eq_zero_or_pos minsz with h0 | h0
    · exact ⟨fun h => ⟨fun h' => by omega, fun _ => (h3 h0).mp h⟩, fun h => (h3 h0).mpr (h.2 h0)⟩
    · exact ⟨fun h => ⟨fun _ => (h2 h0).mp h, fun h' => by omega⟩, fun h => (h2 h0).mpr (h.1 h0)⟩
  have hcyc : ∀ U : Finset ℕ, (∀ i ∈ U, i < d * d * d) → ∀ i, i ∈ biCyc d U ↔ i ∈ U ∧
      ∃ n, BiRingAt d (fun c => enumIdxOfPcConfig c d ∈ U) n (pcConfigOfEnumIdx i d) := by
    intro U hU i
    rw [mem_biCyc, trans_iter]
    exact and_congr_right fun hi => exists_congr fun n => ring_iff (biCoded d) hU hi
  constructor
  · intro h
    have hT := invariant_bound h
    refine ⟨?_, (hsat hT).mpr h.sizes⟩
    obtain ⟨legit, l1, l2, l3⟩ := h.legit
    classical
    refine ⟨(biInit d pair trivial).filter fun i => legit (pcConfigOfEnumIdx i d), Finset.filter_subset _ _, ?_, ?_⟩
    · intro i hi j hj hij
      obtain ⟨h1, h2⟩ := Finset.mem_filter.mp hi
      refine Finset.mem_filter.mpr ⟨hj, ?_⟩
      unfold biSame at hij
      cases pair with
      | false => simp only [Bool.false_eq_true, if_false] at hij; rw [← hij]; exact h2
      | true =>
        simp only [if_true] at hij
        obtain ⟨g1, g2⟩ := (div_iff (mem_biInit.mp h1).1 (mem_biInit.mp hj).1).mp hij
        have := l2 rfl (pcConfigOfEnumIdx i d).1 (pcConfigOfEnumIdx i d).2.1 _ _ ((biCoded d).dec i (mem_biInit.mp h1).1).2.2.2
          ((biCoded d).dec j (mem_biInit.mp hj).1).2.2.2 h2
        rw [g1, g2] at this
        exact this
    · ext i
      rw [l3, hcyc _ (fun i hi => (mem_biInit.mp (Finset.mem_filter.mp hi).1).1)]
      have hin : ∀ a b c, a < d → b < d → c < d → legit (a, b, c) → enumIdxOfPcConfig (a, b, c) d ∈
          (biInit d pair trivial).filter fun i => legit (pcConfigOfEnumIdx i d) := by
        intro a b c ha hb hc hl
        obtain ⟨e1, e2⟩ := (biCoded d).enc a b c ha hb hc
        refine Finset.mem_filter.mpr ⟨mem_biInit.mpr ⟨e2, ?_⟩, by rw [e1]; exact hl⟩
        rw [e1]
        exact fun ht => l1 ht a b c hl
      constructor
      · rintro ⟨hi, n, hn, x, h1, h2, h3, h4⟩
        refine ⟨?_, n, hn, x, h1, h2, fun k => hin _ _ _ (h2 _) (h2 _) (h2 _) (h3 k), h4⟩
        have := hin _ _ _ (h2 0) (h2 1) (h2 2) (h3 0)
        rw [h4, ((biCoded d).dec i hi).1] at this
        exact this
      · rintro ⟨hi, n, hn, x, h1, h2, h3, h4⟩
        refine ⟨(mem_biInit.mp (Finset.mem_filter.mp hi).1).1, n, hn, x, h1, h2, fun k => ?_, h4⟩
        have := (Finset.mem_filter.mp (h3 k)).2
        rw [((biCoded d).enc _ _ _ (h2 _) (h2 _) (h2 _)).1] at this
        exact this
  · rintro ⟨⟨U, u1, u2, rfl⟩, hs⟩
    have hU : ∀ i ∈ U, i < d * d * d := fun i hi => (mem_biInit.mp (u1 hi)).1
    have hT : ∀ i ∈ biCyc d U, i < d * d * d := fun i hi => hU i (mem_biCyc.mp hi).1
    refine ⟨⟨fun c => c.1 < d ∧ c.2.1 < d ∧ c.2.2 < d ∧ enumIdxOfPcConfig c d ∈ U, ?_, ?_, ?_⟩, (hsat hT).mp hs⟩
    · rintro ht a b c ⟨ha, hb, hc, hm⟩
      have := (mem_biInit.mp (u1 hm)).2 ht
      rw [((biCoded d).enc a b c ha hb hc).1] at this
      exact this
    · rintro hp a b c c' - hc' ⟨ha, hb, hc, hm⟩
      refine ⟨ha, hb, hc', u2 _ hm _ ?_ ?_⟩
      · have := (mem_biInit.mp (u1 hm)).2
        rw [((biCoded d).enc a b c ha hb hc).1] at this
        refine mem_biInit.mpr ⟨((biCoded d).enc a b c' ha hb hc').2, fun ht => ?_⟩
        rw [((biCoded d).enc a b c' ha hb hc').1]
        exact fun h => this ht ⟨h.1, Or.inl hp⟩
      · unfold biSame
        rw [if_pos hp, enum_div hc, enum_div hc']
    · intro i
      rw [hcyc U hU]
      constructor
      · rintro ⟨hi, n, hn, x, h1, h2, h3, h4⟩
        exact ⟨hU i hi, n, hn, x, h1, h2, fun k => ⟨h2 _, h2 _, h2 _, h3 k⟩, h4⟩
      · rintro ⟨hi, n, hn, x, h1, h2, h3, h4⟩
        refine ⟨?_, n, hn, x, h1, h2, fun k => (h3 k).2.2.2, h4⟩
        have := (h3 0).2.2.2
        rw [h4, ((biCoded d).dec i hi).1] at this
        exact this

/-- **C113.**  The search ends.  Every line that it writes is an invariant (its bits), and for every invariant there is
exactly one line, written once, that is a renaming of it. -/
theorem C113_search (gt : List Bool → List Bool → Bool) (hgt : StrictTotal (d * d * d) gt) (pair trivial : Bool)
    (minsz : ℕ) : ∃ out, biSearch gt d pair trivial minsz = some out ∧ out.Nodup ∧
      (∀ c ∈ out, ∃ T, c = biBits d T ∧
        BiInvariant (fun i => pcConfigOfEnumIdx i d) (fun c => enumIdxOfPcConfig c d) d pair trivial minsz T) ∧
      ∀ T, BiInvariant (fun i => pcConfigOfEnumIdx i d) (fun c => enumIdxOfPcConfig c d) d pair trivial minsz T →
        ∃! c, c ∈ out ∧ ∃ σ : Equiv.Perm (Fin d), SetRenamed σ (biBits d T) c := by
  have hf := biFacts (d := d) gt hgt pair trivial minsz
  obtain ⟨out, h1, h2, h3, h4⟩ := biRecurse_spec hf (d * d * d + 1) (biInit d pair trivial) (d * d * d) [] [] (by omega)
    subset_rfl ⟨_, subset_rfl, fun _ _ j hj _ => hj, rfl⟩ (by simp) (by simp) List.nodup_nil
  rw [List.nil_append] at h1 h2 h4
  have hsrc : ∀ c ∈ out, ∃ S, BiInvariant (fun i => pcConfigOfEnumIdx i d) (fun c => enumIdxOfPcConfig c d) d pair trivial
      minsz S ∧ canonicalSet gt (biBits d S) d = some c := by
    intro c hc
    obtain ⟨S, s1, s2, s3, s4⟩ := h3 c hc
    refine ⟨S, invariant_iff.mpr ⟨s2, s3⟩, ?_⟩
    rw [hf.canonOf S s1, ← s4]
  refine ⟨out, h1, h2, fun c hc => ?_, fun T hT => ?_⟩
  · obtain ⟨S, hS, he⟩ := hsrc c hc
    obtain ⟨⟨C, hC, hl, σ, hσ⟩, -⟩ := C35_canonical_set gt d hgt _ _ (biBits_length S) (biBits_length S)
    rw [he] at hC
    cases hC
    have hb := invariant_bound hS
    refine ⟨S.image (biRen σ), ?_, invariant_ren σ hS⟩
    refine List.ext_getElem? fun k => ?_
    by_cases hk : k < d * d * d
    · obtain ⟨a, b, e, he'⟩ := index3_cases (d := d) (biRen_lt σ⁻¹ hk).1
      have hr := hσ a b e
      rw [← biRen_index, ← he', biRen_inv' σ hk] at hr
      rw [hr, biBits_get (biRen_lt σ⁻¹ hk).1, biBits_get hk, Option.some.injEq, decide_eq_decide, mem_biRen σ hb hk]
    · rw [List.getElem?_eq_none (by omega), List.getElem?_eq_none (by rw [biBits_length]; omega)]
  · have hTb := invariant_bound hT
    obtain ⟨σ, hmax⟩ := Finite.exists_max fun σ : Equiv.Perm (Fin d) =>
      biKey (biInit d pair trivial) (biSame d pair) (T.image (biRen σ))
    have hT' := invariant_ren σ hT
    obtain ⟨b1, b2⟩ := invariant_iff.mp hT'
    have hin : T.image (biRen σ) ⊆ biInit d pair trivial := by
      obtain ⟨U, u1, -, u3⟩ := b1
      rw [u3]
      exact (hf.cycSub U).trans u1
    have hmem := h4 _ b1 b2 (fun g => by
      have : (T.image (biRen σ)).image (biRen g) = T.image (biRen (g * σ)) := by
        rw [Finset.image_image]
        refine Finset.image_congr fun i hi => ?_
        rw [biRen_mul g σ (hTb i hi)]
        rfl
      rw [this]
      exact hmax (g * σ)) ⟨hin, fun a ha => absurd ha (by simp), fun i hi _ => (mem_biInit.mp (hf.cycSub _ hi)).1⟩
    obtain ⟨⟨C, hC, hl, τ, hτ⟩, -⟩ := C35_canonical_set gt d hgt _ _ (biBits_length T) (biBits_length T)
    have heq := ((C35_canonical_set gt d hgt _ _ (biBits_length T) (biBits_length (T.image (biRen σ)))).2).mpr
      ⟨σ, (renamed_iff σ hTb (biRen_image_lt σ hTb)).mpr rfl⟩
    simp only [← heq, hC, Option.getD_some] at hmem
    refine ⟨C, ⟨hmem, τ, hτ⟩, ?_⟩
    rintro c ⟨hc, ρ, hρ⟩
    obtain ⟨S, hS, he⟩ := hsrc c hc
    obtain ⟨⟨C', hC', hl', τ', hτ'⟩, -⟩ := C35_canonical_set gt d hgt _ _ (biBits_length S) (biBits_length S)
    rw [he] at hC'
    cases hC'
    have g1 := ((C35_canonical_set gt d hgt _ _ (biBits_length S) hl').2).mpr ⟨τ', hτ'⟩
    have g2 := ((C35_canonical_set gt d hgt _ _ (biBits_length T) hl').2).mpr ⟨ρ, hρ⟩
    rw [hC, ← g1, he] at g2
    exact (Option.some.inj g2).symm

/-- A case of C113: for two values, without the trivial configurations, there are two invariants for rings of at least
three processes. -/
example : StrictTotal (2 * 2 * 2) sampleGt ∧ (biSearch sampleGt 2 false false 3).map List.length = some 2 :=
  ⟨sampleGt_total _, by decide +kernel⟩

end
end Verif.Props
