import Verif.Model.Inst
import Mathlib.Algebra.Group.Nat.Even
import Mathlib.Tactic.Ring
import Mathlib.Tactic.Linarith
import Mathlib.Tactic.IntervalCases

/-!
C120: the built-in problem instances are the problems they are named after.
-/

namespace Verif.Props

open Verif.Model

theorem inst_left {n i : ℕ} (hi : i < n) : instIndex ((i : ℤ) - 1) n = (i + n - 1) % n := by
  have h : ((i : ℤ) - 1) % n = (((i + n - 1) % n : ℕ) : ℤ) := by
    rw [Int.natCast_emod, ← Int.add_emod_right]
    congr 1
    omega
  rw [instIndex, h, Int.toNat_natCast]

theorem inst_self {n i : ℕ} (hi : i < n) : instIndex (i : ℤ) n = i := by
  rw [instIndex, ← Int.natCast_emod, Int.toNat_natCast, Nat.mod_eq_of_lt hi]

theorem inst_right (n i : ℕ) : instIndex ((i : ℤ) + 1) n = (i + 1) % n := by
  rw [instIndex, show ((i : ℤ) + 1) = ((i + 1 : ℕ) : ℤ) by push_cast; rfl, ← Int.natCast_emod, Int.toNat_natCast]

theorem uniRing_eq {n : ℕ} {sym dist : Bool} (hn : 0 < n) (h : dist = true → sym = true) :
    uniRing n sym dist = some ((List.range n).map fun i => ⟨[(i + n - 1) % n, i], [i]⟩) := by
  have key : ∀ k ≤ n, ((List.range k).map fun i : ℕ => ringPc n i) = (List.range k).map fun i => ⟨[(i + n - 1) % n, i], [i]⟩ := by
    intro k hk
    refine List.map_congr_left fun i hi => ?_
    have hi : i < n := lt_of_lt_of_le (List.mem_range.1 hi) hk
    simp only [ringPc]
    rw [inst_left hi, inst_self hi]
  cases dist with
  | false => simp [uniRing, key n le_rfl]
  | true =>
    obtain ⟨m, rfl⟩ : ∃ m, n = m + 1 := ⟨n - 1, by omega⟩
    have e1 : (((m + 1 : ℕ) : ℤ) - 2) = (m : ℤ) - 1 := by push_cast; ring
    have e2 : (((m + 1 : ℕ) : ℤ) - 1) = (m : ℤ) := by push_cast; ring
    simp only [uniRing, h rfl, Bool.true_or, Bool.not_true, Bool.false_eq_true, if_false, Bool.true_and, decide_eq_true_eq,
      if_true, e1, e2, Nat.add_sub_cancel]
    rw [if_neg (by omega), key m (by omega), inst_left (by omega), inst_self (by omega), List.range_succ, List.map_append]
    rfl

theorem biRing_eq {n : ℕ} {sym : Bool} (hn : 0 < n) :
    biRing n sym = some ((List.range n).map fun i => ⟨[(i + n - 1) % n, i, (i + 1) % n], [i]⟩) := by
  rw [biRing, uniRing_eq hn (by simp), Option.map_some]
  congr 1
  apply List.ext_getElem
  · simp
  · intro i h1 h2
    simp [inst_right]

/-- **C120**, rings: in each of the rings, symmetric or not, with a distinguished process or not, process `i` writes
variable `i` and reads it and that of its predecessor, and in bidirectional rings also that of its successor. -/
theorem C120_ring {n : ℕ} (hn : 0 < n) (sym dist : Bool) :
    ((∃ pcs, uniRing n sym dist = some pcs) ↔ (dist = true → sym = true)) ∧
    (∀ pcs, uniRing n sym dist = some pcs → pcs.length = n ∧
      ∀ i < n, pcs[i]? = some ⟨[(i + n - 1) % n, i], [i]⟩) ∧
    ∃ pcs, biRing n sym = some pcs ∧ pcs.length = n ∧
      ∀ i < n, pcs[i]? = some ⟨[(i + n - 1) % n, i, (i + 1) % n], [i]⟩ := by
  have hd : (∃ pcs, uniRing n sym dist = some pcs) → (dist = true → sym = true) := by
    rintro ⟨pcs, h⟩ rfl
    cases sym with
    | true => rfl
    | false => simp [uniRing] at h
  refine ⟨⟨hd, fun h => ⟨_, uniRing_eq hn h⟩⟩, fun pcs h => ?_, _, biRing_eq hn, by simp, fun i hi => ?_⟩
  · rw [uniRing_eq hn (hd ⟨_, h⟩)] at h
    obtain rfl := Option.some.inj h
    refine ⟨by simp, fun i hi => ?_⟩
    simp [hi]
  · simp [hi]

theorem inst_foldl_and {α : Type} (f : α → Bool) : ∀ (l : List α) (b : Bool),
    (l.foldl (fun inv a => inv && f a) b = true ↔ b = true ∧ ∀ a ∈ l, f a = true)
  | [], b => by simp
  | a :: l, b => by
    rw [List.foldl_cons, inst_foldl_and f l]
    simp [and_assoc]

/-- A relation between all neighbours of a ring can be said of predecessors or of successors. -/
theorem ring_shift {n : ℕ} (P : ℕ → ℕ → Prop) : (∀ i < n, P ((i + n - 1) % n) i) ↔ ∀ i < n, P i ((i + 1) % n) := by
  constructor
  · intro h i hi
    have e : ((i + 1) % n + n - 1) % n = i := by
      rcases Nat.lt_or_ge (i + 1) n with h1 | h1
      · rw [Nat.mod_eq_of_lt h1, show i + 1 + n - 1 = i + n by omega, Nat.add_mod_right, Nat.mod_eq_of_lt hi]
      · obtain rfl : n = i + 1 := by omega
        rw [Nat.mod_self, Nat.mod_eq_of_lt (by omega)]
        omega
    have := h ((i + 1) % n) (Nat.mod_lt _ (by omega))
    rwa [e] at this
  · intro h i hi
    have e : ((i + n - 1) % n + 1) % n = i := by
      rw [Nat.mod_add_mod, show i + n - 1 + 1 = i + n by omega, Nat.add_mod_right, Nat.mod_eq_of_lt hi]
    have := h ((i + n - 1) % n) (Nat.mod_lt _ (by omega))
    rwa [e] at this

theorem biInv {n : ℕ} (hn : 0 < n) (sym : Bool) (f : InstPc → Bool) :
    (biRing n sym).map (invLoop f) = some true ↔
      ∀ i < n, f ⟨[(i + n - 1) % n, i, (i + 1) % n], [i]⟩ = true := by
  rw [biRing_eq hn, Option.map_some, Option.some.injEq, invLoop, inst_foldl_and]
  simp

theorem uniInv {n : ℕ} (hn : 0 < n) (sym : Bool) (f : InstPc → Bool) :
    (uniRing n sym false).map (invLoop f) = some true ↔ ∀ i < n, f ⟨[(i + n - 1) % n, i], [i]⟩ = true := by
  rw [uniRing_eq hn (by simp), Option.map_some, Option.some.injEq, invLoop, inst_foldl_and]
  simp

/-- **C120**, colouring with three colours: the legitimate states are those in which neighbours differ; there is one
exactly if the ring does not consist of one process. -/
theorem C120_three_coloring {n : ℕ} (hn : 0 < n) :
    (∀ x, instThreeColoring n x = some true ↔ ∀ i < n, x i ≠ x ((i + 1) % n)) ∧
    ((∃ x : ℕ → ℕ, (∀ i, x i < 3) ∧ instThreeColoring n x = some true) ↔ n ≠ 1) := by
  have key : ∀ x, instThreeColoring n x = some true ↔ ∀ i < n, x i ≠ x ((i + 1) % n) := by
    intro x
    rw [instThreeColoring, biInv hn]
    simp only [InstPc.val, Bool.and_eq_true, bne_iff_ne]
    constructor
    · exact fun h i hi => (h i hi).2
    · exact fun h i hi => ⟨(ring_shift fun a b => x a ≠ x b).2 h i hi, h i hi⟩
  refine ⟨key, ?_⟩
  simp only [key]
  constructor
  · rintro ⟨x, -, h⟩ rfl
    exact h 0 (by omega) rfl
  · intro h1
    refine ⟨fun i => if i + 1 = n then 2 else i % 2, fun i => by dsimp only; split_ifs <;> omega, fun i hi => ?_⟩
    rcases Nat.lt_or_ge (i + 1) n with h | h
    · rw [Nat.mod_eq_of_lt h]
      dsimp only
      rw [if_neg (by omega)]
      split_ifs <;> omega
    · obtain rfl : n = i + 1 := by omega
      rw [Nat.mod_self]
      dsimp only
      rw [if_pos rfl, if_neg (by omega)]
      omega

/-- **C120**, colouring with two colours: the legitimate states are those in which neighbours differ; there is one
exactly if the number of processes is even. -/
theorem C120_two_coloring {n : ℕ} (hn : 0 < n) :
    (∀ x, instTwoColoring n x = some true ↔ ∀ i < n, x i ≠ x ((i + 1) % n)) ∧
    ((∃ x : ℕ → ℕ, (∀ i, x i < 2) ∧ instTwoColoring n x = some true) ↔ n % 2 = 0) := by
  have key : ∀ x, instTwoColoring n x = some true ↔ ∀ i < n, x i ≠ x ((i + 1) % n) := by
    intro x
    rw [instTwoColoring, uniRing_eq hn (by simp), Option.map_some, Option.some.injEq, inst_foldl_and,
      ← ring_shift fun a b => x a ≠ x b]
    simp only [true_and, List.mem_range, bne_iff_ne]
    refine forall₂_congr fun i hi => ?_
    have e : decmod1 i n = (i + n - 1) % n := by
      rw [decmod1]
      split_ifs with h
      · rw [Nat.mod_eq_of_lt (by omega)]
        omega
      · rw [show i + n - 1 = i - 1 + n by omega, Nat.add_mod_right, Nat.mod_eq_of_lt (by omega)]
    rw [e]
  refine ⟨key, ?_⟩
  simp only [key]
  constructor
  · rintro ⟨x, hx, h⟩
    have hp : ∀ i < n, (x i + x 0) % 2 = i % 2 := by
      intro i
      induction i with
      | zero => intro _; omega
      | succ i ih =>
        intro hi
        have h1 := ih (by omega)
        have h2 := h i (by omega)
        rw [Nat.mod_eq_of_lt hi] at h2
        have := hx i
        have := hx (i + 1)
        omega
    have h1 := hp (n - 1) (by omega)
    have h2 := h (n - 1) (by omega)
    rw [show n - 1 + 1 = n by omega, Nat.mod_self] at h2
    have := hx (n - 1)
    have := hx 0
    omega
  · intro h2
    refine ⟨fun i => i % 2, fun i => by dsimp only; omega, fun i hi => ?_⟩
    rcases Nat.lt_or_ge (i + 1) n with h | h
    · rw [Nat.mod_eq_of_lt h]
      dsimp only
      omega
    · obtain rfl : n = i + 1 := by omega
      rw [Nat.mod_self]
      dsimp only
      omega

/-- **C120**, matching (0 self, 1 left, 2 right): the legitimate states are the maximal matchings, that is, a process
points right exactly if its right neighbour points left, and no two neighbours both point to themselves; there is one
exactly if the ring does not consist of one process. -/
theorem C120_matching {n : ℕ} (hn : 0 < n) (sym : Bool) :
    (∀ x : ℕ → ℕ, (∀ i, x i < 3) → (instMatching n sym x = some true ↔
      ∀ i < n, (x i = 2 ↔ x ((i + 1) % n) = 1) ∧ ¬(x i = 0 ∧ x ((i + 1) % n) = 0))) ∧
    ((∃ x : ℕ → ℕ, (∀ i, x i < 3) ∧ instMatching n sym x = some true) ↔ n ≠ 1) := by
  have key : ∀ x : ℕ → ℕ, (∀ i, x i < 3) → (instMatching n sym x = some true ↔
      ∀ i < n, (x i = 2 ↔ x ((i + 1) % n) = 1) ∧ ¬(x i = 0 ∧ x ((i + 1) % n) = 0)) := by
    intro x hx
    rw [instMatching, biInv hn]
    simp only [InstPc.val, Bool.and_eq_true, Bool.or_eq_true, beq_iff_eq, List.getD_cons_zero, List.getD_cons_succ]
    constructor
    · intro h
      have hl := (ring_shift fun a b => (x b = 0 → x a = 1) ∧ (x b = 1 → x a = 2)).1 fun i hi => by
        have := h i hi
        omega
      intro i hi
      have h1 := h i hi
      have h2 := hl i hi
      omega
    · intro h i hi
      have h1 := h i hi
      have h2 := (ring_shift fun a b => (x a = 2 ↔ x b = 1) ∧ ¬(x a = 0 ∧ x b = 0)).2 h i hi
      have := hx i
      have := hx ((i + 1) % n)
      have := hx ((i + n - 1) % n)
      omega
  refine ⟨key, ?_⟩
  constructor
  · rintro ⟨x, hx, h⟩ rfl
    have := ((key x hx).1 h) 0 (by omega)
    have := hx 0
    simp only [Nat.zero_add, Nat.mod_self] at *
    omega
  · intro h1
    refine ⟨fun i => if n % 2 = 0 then (if i % 2 = 0 then 2 else 1)
      else if i = 0 then 0 else if i % 2 = 1 then 2 else 1, fun i => by dsimp only; split_ifs <;> omega, ?_⟩
    rw [key _ fun i => by split_ifs <;> omega]
    intro i hi
    rcases Nat.lt_or_ge (i + 1) n with h | h
    · rw [Nat.mod_eq_of_lt h]
      split_ifs <;> simp <;> omega
    · obtain rfl : n = i + 1 := by omega
      rw [Nat.mod_self]
      split_ifs <;> simp <;> omega

/-- **C120**, sum-not: the legitimate states are those in which the values of no two neighbours have the sum `target`. -/
theorem C120_sum_not {n : ℕ} (hn : 0 < n) (target : ℕ) (x : ℕ → ℕ) :
    instSumNot n target x = some true ↔ ∀ i < n, x i + x ((i + 1) % n) ≠ target := by
  rw [instSumNot, uniInv hn, ← ring_shift fun a b => x a + x b ≠ target]
  simp [InstPc.val]

/-- **C120**, agreement: the legitimate states are those in which the values increase around the ring by the same
amount, modulo the number of processes. -/
theorem C120_agreement {n : ℕ} (hn : 0 < n) (x : ℕ → ℕ) :
    instAgreement n x = some true ↔ ∃ k : ℤ, ∀ i < n, (x i : ℤ) ≡ x 0 + i * k [ZMOD n] := by
  have e : instAgreement n x = some true ↔
      ∀ i < n, (x i : ℤ) - x ((i + n - 1) % n) ≡ x ((i + 1) % n) - x i [ZMOD n] := by
    rw [instAgreement, biInv hn]
    simp [InstPc.val, Int.ModEq]
  rw [e]
  constructor
  · intro h
    refine ⟨(x (1 % n) : ℤ) - x 0, ?_⟩
    have hd : ∀ i, i < n → (x ((i + 1) % n) : ℤ) - x i ≡ (x (1 % n) : ℤ) - x 0 [ZMOD n] := by
      intro i
      induction i with
      | zero => intro _; exact Int.ModEq.refl _
      | succ i ih =>
        intro hi
        have h1 := h (i + 1) hi
        rw [show i + 1 + n - 1 = i + n by omega, Nat.add_mod_right, Nat.mod_eq_of_lt (show i < n by omega)] at h1
        have h2 := ih (by omega)
        rw [Nat.mod_eq_of_lt hi] at h2
        exact h1.symm.trans h2
    intro i
    induction i with
    | zero => intro _; simp
    | succ i ih =>
      intro hi
      have h1 := hd i (by omega)
      rw [Nat.mod_eq_of_lt hi] at h1
      have h2 := (ih (by omega)).add h1
      have e1 : (x i : ℤ) + ((x (i + 1) : ℤ) - x i) = x (i + 1) := by ring
      rw [e1] at h2
      refine h2.trans ?_
      push_cast
      rw [show (x 0 : ℤ) + i * ((x (1 % n) : ℤ) - x 0) + ((x (1 % n) : ℤ) - x 0) =
        x 0 + (i + 1) * ((x (1 % n) : ℤ) - x 0) by ring]
  · rintro ⟨k, h⟩ i hi
    have hk : ∀ j, (x (j % n) : ℤ) ≡ x 0 + j * k [ZMOD n] := by
      intro j
      refine (h (j % n) (Nat.mod_lt _ hn)).trans ?_
      refine Int.ModEq.add_left _ (Int.ModEq.mul_right _ ?_)
      rw [Int.natCast_emod]
      exact Int.mod_modEq _ _
    have h1 := h i hi
    have h2 := hk (i + n - 1)
    have h3 := hk (i + 1)
    have h4 := h1.sub h2
    have h5 := h3.sub h1
    refine h4.trans (Int.ModEq.trans ?_ h5.symm)
    have ec : ((i + n - 1 : ℕ) : ℤ) = i + n - 1 := by omega
    rw [ec]
    push_cast
    rw [show (x 0 : ℤ) + i * k - (x 0 + (i + n - 1) * k) = k - n * k by ring,
      show (x 0 : ℤ) + (i + 1) * k - (x 0 + i * k) = k by ring]
    exact (Int.modEq_iff_dvd.2 ⟨k, by ring⟩)

theorem token_tab : ∀ (l : List (Bool × ℕ)) (tab : List Bool) (j : ℕ),
    (l.foldl (fun tab e => tab.zipIdx.map fun b => if b.2 = e.2 then b.1 && e.1 else b.1 && !e.1) tab)[j]? =
      (tab[j]?).map fun b => b && l.all fun e => if j = e.2 then e.1 else !e.1
  | [], tab, j => by simp
  | e :: l, tab, j => by
    rw [List.foldl_cons, token_tab l]
    simp only [List.getElem?_map, List.getElem?_zipIdx, Nat.zero_add, Option.map_map, List.all_cons]
    congr 1
    funext b
    simp only [Function.comp]
    split_ifs <;> simp [Bool.and_assoc]

theorem inst_foldl_or : ∀ (l : List Bool) (b : Bool), (l.foldl (fun pf b => pf || b) b = true ↔ b = true ∨ true ∈ l)
  | [], b => by simp
  | a :: l, b => by
    rw [List.foldl_cons, inst_foldl_or l]
    cases a <;> cases b <;> simp

/-- **C120**, tokens: the formula holds exactly in the states in which exactly one of the given formulas holds. -/
theorem C120_single_token (tokens : List Bool) : singleToken tokens = true ↔ ∃! i : ℕ, tokens[i]? = some true := by
  simp only [singleToken, inst_foldl_or, Bool.false_eq_true, false_or, List.mem_iff_getElem?, token_tab]
  have hz : ∀ j, (tokens.zipIdx.all fun e => if j = e.2 then e.1 else !e.1) = true ↔
      ∀ i b, tokens[i]? = some b → (b = true ↔ i = j) := by
    intro j
    simp only [List.all_eq_true, Prod.forall, List.mk_mem_zipIdx_iff_getElem?]
    constructor
    · intro h i b hb
      have := h b i hb
      split_ifs at this with hij
      · simp [this, hij]
      · simp at this
        simp [this, Ne.symm hij]
    · intro h b i hb
      have := h i b hb
      split_ifs with hij
      · exact this.2 hij.symm
      · cases b with
        | false => rfl
        | true => exact absurd (this.1 rfl).symm hij
  constructor
  · rintro ⟨j, hj⟩
    rw [Option.map_eq_some_iff] at hj
    obtain ⟨b, hb, hb'⟩ := hj
    rw [Bool.and_eq_true, hz] at hb'
    have hlt : j < tokens.length := by
      by_contra hge
      rw [List.getElem?_replicate, if_neg hge] at hb
      exact absurd hb (by simp)
    refine ⟨j, ?_, fun i hi => (hb'.2 i true hi).1 rfl⟩
    dsimp only
    rw [List.getElem?_eq_getElem hlt, Option.some.injEq]
    exact (hb'.2 j _ (List.getElem?_eq_getElem hlt)).2 rfl
  · rintro ⟨j, hj, hu⟩
    have hlt : j < tokens.length := (List.getElem?_eq_some_iff.1 hj).1
    refine ⟨j, ?_⟩
    rw [List.getElem?_replicate, if_pos hlt, Option.map_some, Option.some.injEq, Bool.true_and, hz]
    intro i b hb
    constructor
    · rintro rfl
      exact hu i hb
    · rintro rfl
      exact Option.some.inj (hb.symm.trans hj)

/-- A ring of three with a distinguished process, and legitimate states of the problems. -/
example : uniRing 3 true true = some [⟨[2, 0], [0]⟩, ⟨[0, 1], [1]⟩, ⟨[1, 2], [2]⟩] ∧
    instThreeColoring 3 (fun i => i) = some true ∧ instThreeColoring 3 (fun i => i % 2) = some false ∧
    instTwoColoring 4 (fun i => i % 2) = some true ∧ instMatching 3 true (fun i => [0, 2, 1].getD i 0) = some true ∧
    instSumNot 3 2 (fun _ => 0) = some true ∧ instSumNot 3 2 (fun _ => 1) = some false ∧
    instAgreement 3 (fun i => [1, 0, 2].getD i 0) = some true ∧ instAgreement 3 (fun i => [0, 0, 1].getD i 0) = some false ∧
    singleToken [false, true, false] = true ∧ singleToken [true, true] = false := by decide

end Verif.Props
