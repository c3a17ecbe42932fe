import Verif.Model.B64
import Verif.Proofs.Loop
import Verif.Proofs.Ppg
import Mathlib.Tactic.Ring

/-! Lemmas about the base-64 notation. -/

namespace Verif.Proofs
open Verif.Model

theorem natBits_length (n x : ℕ) : (natBits n x).length = n := by
  induction n generalizing x with
  | zero => rfl
  | succ n ih => simp [natBits, ih]

theorem ofBits_natBits (n x : ℕ) : ofBits (natBits n x) = x % 2 ^ n := by
  induction n generalizing x with
  | zero => simp [natBits, ofBits, Nat.mod_one]
  | succ n ih =>
    rw [natBits, ofBits, ih, Nat.pow_succ', Nat.mod_mul]
    rcases Nat.mod_two_eq_zero_or_one x with h | h <;> simp [h]

theorem natBits_ofBits (l : List Bool) : natBits l.length (ofBits l) = l := by
  induction l with
  | nil => rfl
  | cons b l ih =>
    rw [List.length_cons, natBits, ofBits]
    have h1 : (b.toNat + 2 * ofBits l) / 2 = ofBits l := by cases b <;> simp <;> omega
    have h2 : ((b.toNat + 2 * ofBits l) % 2 == 1) = b := by cases b <;> simp <;> omega
    rw [h1, h2, ih]

theorem ofBits_lt (l : List Bool) : ofBits l < 2 ^ l.length := by
  induction l with
  | nil => simp [ofBits]
  | cons b l ih =>
    rw [ofBits, List.length_cons, Nat.pow_succ']
    cases b <;> simp <;> omega

theorem ofBits_ones (n : ℕ) : ofBits (List.replicate n true) + 1 = 2 ^ n := by
  induction n with
  | zero => rfl
  | succ n ih =>
    rw [List.replicate_succ, ofBits, Nat.pow_succ', ← ih]
    simp; omega

/-- The bits of `x` in the order of the table. -/
def ordBits (msb : Bool) (n x : ℕ) : List Bool :=
  if msb then (natBits n x).reverse else natBits n x

/-- The number with the given bits in the order of the table. -/
def ordVal (msb : Bool) (l : List Bool) : ℕ := ofBits (if msb then l.reverse else l)

theorem ordBits_length (msb : Bool) (n x : ℕ) : (ordBits msb n x).length = n := by
  unfold ordBits; split <;> simp [natBits_length]

theorem ordVal_ordBits (msb : Bool) (n x : ℕ) : ordVal msb (ordBits msb n x) = x % 2 ^ n := by
  unfold ordVal ordBits
  cases msb <;> simp [ofBits_natBits]

theorem ordBits_ordVal (msb : Bool) (l : List Bool) : ordBits msb l.length (ordVal msb l) = l := by
  unfold ordVal ordBits
  cases msb
  · simpa using natBits_ofBits l
  · have := natBits_ofBits l.reverse
    rw [List.length_reverse] at this
    simp [this]

theorem ordVal_ones (msb : Bool) (n : ℕ) : ordVal msb (List.replicate n true) + 1 = 2 ^ n := by
  unfold ordVal
  cases msb <;> simp [ofBits_ones]

theorem ordVal_lt (msb : Bool) (l : List Bool) : ordVal msb l < 2 ^ l.length := by
  unfold ordVal
  cases msb
  · simpa using ofBits_lt l
  · simpa using ofBits_lt l.reverse

theorem btSet_spec {msb strict : Bool} {bt : List Bool} {i n x : ℕ}
    (h : strict = false ∨ i + n ≤ bt.length) :
    ∃ bt', btSet msb strict bt i n x = some bt' ∧ bt'.length = bt.length ∧
      ∀ k < bt.length, bt'.getD k false =
        if i ≤ k ∧ k < i + n then (ordBits msb n x).getD (k - i) false else bt.getD k false := by
  unfold btSet
  rw [if_neg (by
    rintro ⟨h1, h2⟩
    rcases h with h | h
    · rw [h] at h1; cases h1
    · omega)]
  refine ⟨_, rfl, by simp, fun k hk => ?_⟩
  rw [List.getD_eq_getElem?_getD, List.getElem?_map, List.getElem?_range hk]
  rfl

theorem btGet_spec {msb : Bool} {bt : List Bool} {i n : ℕ} (h : i + n ≤ bt.length) :
    btGet msb bt i n = some (ordVal msb ((List.range n).map fun k => bt.getD (i + k) false)) := by
  unfold btGet
  rw [if_pos h]
  rfl

theorem elgsz_pos (d : ℕ) : 1 ≤ elgsz d := by unfold elgsz; omega

theorem lt_elgsz (d : ℕ) : d < 2 ^ elgsz d := by
  unfold elgsz
  rw [Nat.add_comm]
  exact Nat.lt_log2_self

theorem elgsz_mono {a b : ℕ} (h : a ≤ b) : elgsz a ≤ elgsz b := by
  unfold elgsz
  rcases Nat.eq_zero_or_pos a with rfl | ha
  · simp
  · have : a.log2 ≤ b.log2 := by
      rw [Nat.le_log2 (by omega)]
      exact le_trans (Nat.log2_self_le (by omega)) h
    omega

theorem two_le_elgsz {d : ℕ} (h : 2 ≤ d) : 2 ≤ elgsz d :=
  le_trans (by decide : 2 ≤ elgsz 2) (elgsz_mono h)

theorem b64size_gap {a b : ℕ} (ha : 1 ≤ a) (h : a < b) :
    a * a * elgsz a + 6 ≤ b * b * elgsz b := by
  have h1 : elgsz a ≤ elgsz b := elgsz_mono h.le
  have h2 : 2 ≤ elgsz b := two_le_elgsz (by omega)
  obtain ⟨c, rfl⟩ : ∃ c, b = a + 1 + c := ⟨b - a - 1, by omega⟩
  have h3 : a * a * elgsz a ≤ a * a * elgsz (a + 1 + c) := Nat.mul_le_mul_left _ h1
  have h4 : (a * a + 3) * elgsz (a + 1 + c) ≤ (a + 1 + c) * (a + 1 + c) * elgsz (a + 1 + c) := by
    apply Nat.mul_le_mul_right
    nlinarith
  have h5 : (a * a + 3) * elgsz (a + 1 + c) = a * a * elgsz (a + 1 + c) + 3 * elgsz (a + 1 + c) := by
    ring
  omega

/-- The loop finds the domain size from the length. -/
theorem b64Domsz_spec {d fuel : ℕ} (hd : 1 ≤ d) (hf : d ≤ fuel) :
    loopFuel (b64DomszBody ((d * d * elgsz d + 5) / 6)) fuel 1 = some d := by
  obtain ⟨b, h1, h2⟩ := loopFuel_total (body := b64DomszBody ((d * d * elgsz d + 5) / 6))
    (fun x => 1 ≤ x ∧ x ≤ d) (fun x => x = d) (fun x => d - x)
    (fun a b ⟨ha, ha'⟩ hb => by
      unfold b64DomszBody at hb
      split at hb
      · cases hb
      · rename_i hc
        simp only [Sum.inl.injEq] at hb
        subst hb
        by_contra hne
        have := b64size_gap ha (show a < d by omega)
        omega)
    (fun a a' ⟨ha, ha'⟩ hb => by
      unfold b64DomszBody at hb
      split at hb
      · rename_i hc
        simp only [Sum.inr.injEq] at hb
        subst hb
        have : a ≠ d := by
          rintro rfl
          omega
        omega
      · cases hb) fuel 1 ⟨le_rfl, hd⟩ (by omega)
  rw [h1, h2]

theorem b64Val_char : ∀ w < 64, b64Val (b64Char w) = w := by decide

theorem b64Fill_cons {msb strict : Bool} {d i c : ℕ} {l : List ℕ} {bt : List Bool} :
    b64Fill msb strict d i (c :: l) bt =
    if c < d then
      (btSet msb strict bt (i * elgsz d) (elgsz d) c).bind (b64Fill msb strict d (i + 1) l)
    else b64Fill msb strict d (i + 1) l bt := rfl

/-- The bit at position `p` of the notation of `ppg`. -/
def ppgBit (msb : Bool) (d : ℕ) (ppg : List ℕ) (p : ℕ) : Bool :=
  if ppg.getD (p / elgsz d) d < d then
    (ordBits msb (elgsz d) (ppg.getD (p / elgsz d) d)).getD (p % elgsz d) false
  else true

theorem b64Fill_spec {msb strict : Bool} {d : ℕ} (ppg : List ℕ) (hp : ppg.length ≤ d * d) :
    ∀ (l : List ℕ) (i : ℕ) (bt : List Bool), ppg.drop i = l →
      bt.length = d * d * elgsz d + 5 →
      (∀ p < bt.length, bt.getD p false =
        if p < i * elgsz d then ppgBit msb d ppg p else true) →
      ∃ bt', b64Fill msb strict d i l bt = some bt' ∧ bt'.length = d * d * elgsz d + 5 ∧
        ∀ p < bt'.length, bt'.getD p false = ppgBit msb d ppg p := by
  intro l
  have he := elgsz_pos d
  induction l with
  | nil =>
    intro i bt hl hbt hI
    refine ⟨bt, rfl, hbt, fun p hp' => ?_⟩
    rw [hI p hp']
    split
    · rfl
    · rename_i hpi
      have hi : ppg.length ≤ i := by simpa using hl
      have : ppg.length ≤ p / elgsz d := by
        rw [Nat.le_div_iff_mul_le (by omega)]
        exact le_trans (Nat.mul_le_mul_right _ hi) (by omega)
      unfold ppgBit
      rw [List.getD_eq_getElem?_getD, List.getElem?_eq_none this]
      simp
  | cons c l ih =>
    intro i bt hl hbt hI
    have hi : i < ppg.length := by
      by_contra h
      rw [List.drop_eq_nil_of_le (by omega)] at hl; cases hl
    have hdrop : ppg.drop (i + 1) = l := by
      rw [← List.drop_drop, hl]; rfl
    have hget : ppg.getD i d = c := by
      have : ppg[i]? = some c := by
        have := congrArg List.head? hl
        rwa [List.head?_drop] at this
      rw [List.getD_eq_getElem?_getD, this]; rfl
    have hsize : i * elgsz d + elgsz d ≤ d * d * elgsz d := by
      calc i * elgsz d + elgsz d = (i + 1) * elgsz d := by ring
        _ ≤ _ := Nat.mul_le_mul_right _ (by omega)
    have hsucc : (i + 1) * elgsz d = i * elgsz d + elgsz d := by ring
    have hdiv : ∀ p, i * elgsz d ≤ p → p < i * elgsz d + elgsz d →
        p / elgsz d = i ∧ p % elgsz d = p - i * elgsz d := by
      intro p h1 h2
      have h3 : p / elgsz d = i := by
        exact Nat.div_eq_of_lt_le h1 (by rw [hsucc]; exact h2)
      refine ⟨h3, ?_⟩
      rw [Nat.mod_eq_sub_mul_div, h3, Nat.mul_comm]
    rw [b64Fill_cons]
    split
    · rename_i hc
      obtain ⟨bt', h1, h2, h3⟩ := btSet_spec (msb := msb) (strict := strict) (bt := bt)
        (i := i * elgsz d) (n := elgsz d) (x := c) (.inr (by omega))
      rw [h1, Option.bind_some]
      refine ih (i + 1) bt' hdrop (by omega) fun p hp' => ?_
      rw [h3 p (by omega), hsucc]
      by_cases hin : i * elgsz d ≤ p ∧ p < i * elgsz d + elgsz d
      · obtain ⟨d1, d2⟩ := hdiv p hin.1 hin.2
        rw [if_pos hin, if_pos (by omega)]
        unfold ppgBit
        rw [d1, d2, hget, if_pos hc]
      · rw [if_neg hin, hI p (by omega)]
        by_cases hlt : p < i * elgsz d
        · rw [if_pos hlt, if_pos (by omega)]
        · rw [if_neg hlt, if_neg (by omega)]
    · rename_i hc
      refine ih (i + 1) bt hdrop hbt fun p hp' => ?_
      rw [hI p hp', hsucc]
      by_cases hlt : p < i * elgsz d
      · rw [if_pos hlt, if_pos (by omega)]
      · rw [if_neg hlt]
        split
        · obtain ⟨d1, d2⟩ := hdiv p (by omega) (by omega)
          unfold ppgBit
          rw [d1, hget, if_neg hc]
        · rfl

theorem b64Load_cons {msb strict : Bool} {i : ℕ} {c : Char} {l : List Char} {bt : List Bool} :
    b64Load msb strict i (c :: l) bt = if 64 ≤ b64Val c then some none
    else (btSet msb strict bt (6 * i) 6 (b64Val c)).bind (b64Load msb strict (i + 1) l) := rfl

theorem b64Load_spec {msb strict : Bool} {F : ℕ → Bool} {sz : ℕ} :
    ∀ (n i : ℕ) (s : List Char) (bt : List Bool), s.length = n →
      (∀ j < n, s[j]? = some (b64Char (ordVal msb ((List.range 6).map fun k => F (6 * (i + j) + k))))) →
      bt.length = sz → (strict = false ∨ 6 * (i + n) ≤ sz) →
      (∀ p < sz, p < 6 * i → bt.getD p false = F p) →
      ∃ bt', b64Load msb strict i s bt = some (some bt') ∧ bt'.length = sz ∧
        ∀ p < sz, p < 6 * (i + n) → bt'.getD p false = F p := by
  intro n
  induction n with
  | zero =>
    intro i s bt hs hc hbt hst hI
    rw [List.length_eq_zero_iff] at hs
    subst hs
    exact ⟨bt, rfl, hbt, fun p h1 h2 => hI p h1 (by omega)⟩
  | succ n ih =>
    intro i s bt hs hc hbt hst hI
    cases s with
    | nil => simp at hs
    | cons c s =>
      have h0 := hc 0 (by omega)
      simp only [List.getElem?_cons_zero, Option.some.injEq, Nat.add_zero] at h0
      have hlt := ordVal_lt msb ((List.range 6).map fun k => F (6 * i + k))
      simp only [List.length_map, List.length_range] at hlt
      have hv : b64Val c = ordVal msb ((List.range 6).map fun k => F (6 * i + k)) := by
        rw [h0, b64Val_char _ (by simpa using hlt)]
      rw [b64Load_cons, if_neg (by rw [hv]; omega)]
      obtain ⟨bt', h1, h2, h3⟩ := btSet_spec (msb := msb) (strict := strict) (bt := bt)
        (i := 6 * i) (n := 6) (x := b64Val c) (hst.imp id fun h => by omega)
      rw [h1, Option.bind_some]
      obtain ⟨bt2, g1, g2, g3⟩ := ih (i + 1) s bt' (by simpa using hs)
        (fun j hj => by
          have := hc (j + 1) (by omega)
          rw [List.getElem?_cons_succ] at this
          rw [this, show i + (j + 1) = i + 1 + j by omega])
        (by omega) (hst.imp id fun h => by omega)
        (fun p hp hp2 => by
          rw [h3 p (by omega)]
          by_cases hin : 6 * i ≤ p ∧ p < 6 * i + 6
          · rw [if_pos hin, hv]
            have := ordBits_ordVal msb ((List.range 6).map fun k => F (6 * i + k))
            simp only [List.length_map, List.length_range] at this
            rw [this, List.getD_eq_getElem?_getD, List.getElem?_map,
              List.getElem?_range (by omega)]
            simp only [Option.map_some, Option.getD_some]
            congr 1; omega
          · rw [if_neg hin]
            exact hI p hp (by omega))
      exact ⟨bt2, g1, g2, fun p hp hp2 => g3 p hp (by omega)⟩

/-- Reading one entry back. -/
theorem ordVal_ppgBit {msb : Bool} {d i : ℕ} (hd : 1 ≤ d) (ppg : List ℕ) :
    let v := ordVal msb ((List.range (elgsz d)).map fun k => ppgBit msb d ppg (elgsz d * i + k))
    (ppg.getD i d < d → v = ppg.getD i d) ∧ (¬ ppg.getD i d < d → d ≤ v) ∧ v < 2 ^ elgsz d := by
  have he := elgsz_pos d
  have hlist : ((List.range (elgsz d)).map fun k => ppgBit msb d ppg (elgsz d * i + k)) =
      if ppg.getD i d < d then ordBits msb (elgsz d) (ppg.getD i d)
      else List.replicate (elgsz d) true := by
    apply List.ext_getElem?
    intro k
    by_cases hk : k < elgsz d
    · rw [List.getElem?_map, List.getElem?_range hk]
      have h1 : (elgsz d * i + k) / elgsz d = i := by
        rw [Nat.mul_add_div (by omega), Nat.div_eq_of_lt hk, Nat.add_zero]
      have h2 : (elgsz d * i + k) % elgsz d = k := by
        rw [Nat.mul_add_mod, Nat.mod_eq_of_lt hk]
      simp only [Option.map_some, ppgBit, h1, h2]
      split
      · have : k < (ordBits msb (elgsz d) (ppg.getD i d)).length := by rwa [ordBits_length]
        rw [List.getD_eq_getElem?_getD, List.getElem?_eq_getElem this]; rfl
      · simp [hk]
    · rw [List.getElem?_eq_none (by simpa using hk)]
      symm
      rw [List.getElem?_eq_none]
      split
      · rw [ordBits_length]; omega
      · simpa using hk
  intro v
  have hv : v = ordVal msb (if ppg.getD i d < d then ordBits msb (elgsz d) (ppg.getD i d)
      else List.replicate (elgsz d) true) := by rw [← hlist]
  have hlt := lt_elgsz d
  refine ⟨fun h => ?_, fun h => ?_, ?_⟩
  · rw [hv, if_pos h, ordVal_ordBits, Nat.mod_eq_of_lt (by omega)]
  · rw [hv, if_neg h]
    have := ordVal_ones msb (elgsz d)
    omega
  · have := ordVal_lt msb ((List.range (elgsz d)).map fun k => ppgBit msb d ppg (elgsz d * i + k))
    simpa using this

theorem elgsz_le_eight {d : ℕ} (h : d ≤ 255) : elgsz d ≤ 8 :=
  le_trans (elgsz_mono h) (by decide)

end Verif.Proofs
