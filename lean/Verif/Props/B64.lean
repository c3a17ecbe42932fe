import Verif.Proofs.B64
import Verif.Props.Ppg

/-!
C26: the base-64 notation of a propagation function determines it.
-/

namespace Verif.Props
open Verif.Model Verif.Proofs

theorem mapM_range {α : Type} {f : ℕ → Option α} {g : ℕ → α} {n : ℕ} (h : ∀ i < n, f i = some (g i)) :
    (List.range n).mapM f = some ((List.range n).map g) :=
  mapM_some fun i hi => h i (List.mem_range.1 hi)

/-- Writing succeeds, whatever the bit order; the string has `⌈d²·e/6⌉` characters, each of which is
the notation of six consecutive bits. -/
theorem oputB64_spec {msb strict : Bool} {d : ℕ} (hd : 1 ≤ d) (ppg : List ℕ)
    (hp : ppg.length ≤ d * d) :
    oputB64 msb strict ppg d = some ((List.range ((d * d * elgsz d + 5) / 6)).map fun j =>
      b64Char (ordVal msb ((List.range 6).map fun k => ppgBit msb d ppg (6 * j + k)))) := by
  unfold oputB64
  simp only [if_neg (show d ≠ 0 by omega)]
  obtain ⟨bt, h1, h2, h3⟩ := b64Fill_spec (msb := msb) (strict := strict) ppg hp ppg 0
    (List.replicate (d * d * elgsz d + 5) true) rfl (by simp) (fun p hp' => by
      rw [Nat.zero_mul, if_neg (Nat.not_lt_zero _)]
      simp only [List.length_replicate] at hp'
      simp [hp'])
  rw [h1, Option.bind_some]
  apply mapM_range
  intro j hj
  rw [btGet_spec (by omega), Option.map_some]
  congr 3
  apply List.map_congr_left
  intro k hk
  rw [List.mem_range] at hk
  exact h3 _ (by omega)

/-- Printing a propagation function with `d` values and reading the string gives the same domain size
and the same function, for both bit orders.  The table of the reader has no room for the padding of
the last character: this needs either a table that ignores bits beyond its end or a size divisible
by six.  Missing: what the library does with the bits beyond the end is not known. -/
theorem C26_round_trip_partial {msb strict : Bool} {d : ℕ} (hd : 1 ≤ d) (hd' : d ≤ 255) {ppg : List ℕ}
    (hlen : ppg.length = d * d) (hval : ∀ v ∈ ppg, v ≤ d)
    (hpad : strict = false ∨ 6 ∣ d * d * elgsz d) :
    ∃ s, oputB64 msb false ppg d = some s ∧
      ∀ (old : List ℕ) (fuel : ℕ), d ≤ fuel → xgetB64 msb strict fuel s old = some (d, ppg) := by
  refine ⟨_, oputB64_spec hd ppg hlen.le, fun old fuel hf => ?_⟩
  have hn : ((List.range ((d * d * elgsz d + 5) / 6)).map fun j =>
      b64Char (ordVal msb ((List.range 6).map fun k => ppgBit msb d ppg (6 * j + k)))).length =
      (d * d * elgsz d + 5) / 6 := by simp
  unfold xgetB64
  rw [hn, b64Domsz_spec hd hf, Option.bind_some, if_neg (by simp)]
  obtain ⟨bt, h1, h2, h3⟩ := b64Load_spec (msb := msb) (strict := strict) (F := ppgBit msb d ppg)
    (sz := d * d * elgsz d) ((d * d * elgsz d + 5) / 6) 0 _
    (List.replicate (d * d * elgsz d) false) hn
    (fun j hj => by
      rw [List.getElem?_map, List.getElem?_range hj, Nat.zero_add]; rfl)
    (by simp) (hpad.imp id fun h => by omega) (fun p _ h => by omega)
  rw [h1, Option.bind_some]
  simp only
  have he := elgsz_pos d
  have he8 := elgsz_le_eight hd'
  rw [mapM_range (g := fun i => ppg.getD i d)]
  · rw [Option.map_some]
    have h4 : toByte d = d := Nat.mod_eq_of_lt (by omega)
    rw [h4]
    congr 2
    apply List.ext_getElem?
    intro i
    by_cases hi : i < d * d
    · rw [List.getElem?_map, List.getElem?_range hi, Option.map_some,
        List.getD_eq_getElem?_getD, List.getElem?_eq_getElem (by omega)]
      rfl
    · rw [List.getElem?_eq_none (by simpa using hi), List.getElem?_eq_none (by omega)]
  · intro i hi
    have hb : elgsz d * i + elgsz d ≤ d * d * elgsz d := by
      calc elgsz d * i + elgsz d = (i + 1) * elgsz d := by ring
        _ ≤ _ := Nat.mul_le_mul_right _ (by omega)
    rw [btGet_spec (by omega), Option.map_some]
    have hcong : ((List.range (elgsz d)).map fun k => bt.getD (elgsz d * i + k) false) =
        (List.range (elgsz d)).map fun k => ppgBit msb d ppg (elgsz d * i + k) := by
      apply List.map_congr_left
      intro k hk
      rw [List.mem_range] at hk
      exact h3 _ (by omega) (by omega)
    rw [hcong]
    obtain ⟨v1, v2, v3⟩ := ordVal_ppgBit (msb := msb) (i := i) hd ppg
    have hpow : 2 ^ elgsz d ≤ 2 ^ 8 := Nat.pow_le_pow_right (by omega) he8
    generalize ordVal msb ((List.range (elgsz d)).map fun k => ppgBit msb d ppg (elgsz d * i + k)) = v
      at v1 v2 v3
    have h5 : toByte v = v := Nat.mod_eq_of_lt (by norm_num at hpow; omega)
    rw [h5]
    congr 1
    have hle : ppg.getD i d ≤ d := by
      rw [List.getD_eq_getElem?_getD, List.getElem?_eq_getElem (by omega)]
      exact hval _ (List.getElem_mem _)
    by_cases hc : ppg.getD i d < d
    · rw [v1 hc, if_pos hc]
      exact Nat.mod_eq_of_lt (by omega)
    · have := v2 hc
      rw [if_neg (by omega), show ppg.getD i d = d by omega]
      exact Nat.mod_eq_of_lt (by omega)

/-- The domain size may be left to the printer. -/
theorem C26_inferred_size {msb : Bool} {d : ℕ} (hd : 1 ≤ d) (hd' : d ≤ 255) {ppg : List ℕ}
    (hlen : ppg.length = d * d) :
    oputB64 msb false ppg 0 = oputB64 msb false ppg d := by
  have : domszOfPpg ppg.length = d := by
    have : rootLoop 2 (d * d) (d * d + 1) 0 = d :=
      rootLoop_spec 2 _ (by omega) d (by ring) _ _ (by omega) (by nlinarith)
    have hdb : toByte d = d := Nat.mod_eq_of_lt (by omega)
    rw [hlen]
    simp only [domszOfPpg, this, hdb]
    rw [if_neg]; simp [pow_two]
  unfold oputB64
  simp only [this, if_true, if_neg (show d ≠ 0 by omega)]

/-- Different functions have different strings. -/
theorem C26_injective {msb : Bool} {d d' : ℕ} (hd : 1 ≤ d) (hd' : d ≤ 255) (he : 1 ≤ d') (he' : d' ≤ 255)
    {f g : List ℕ} (hf : f.length = d * d) (hg : g.length = d' * d') (hfv : ∀ v ∈ f, v ≤ d)
    (hgv : ∀ v ∈ g, v ≤ d') (h : oputB64 msb false f d = oputB64 msb false g d') : d = d' ∧ f = g := by
  obtain ⟨s, s1, s2⟩ := C26_round_trip_partial (msb := msb) (strict := false) hd hd' hf hfv (.inl rfl)
  obtain ⟨t, t1, t2⟩ := C26_round_trip_partial (msb := msb) (strict := false) he he' hg hgv (.inl rfl)
  rw [s1, t1, Option.some.injEq] at h
  have h1 := s2 [] (d + d') (by omega)
  have h2 := t2 [] (d + d') (by omega)
  rw [h, h2] at h1
  simp only [Option.some.injEq, Prod.mk.injEq] at h1
  exact ⟨h1.1.symm, h1.2.symm⟩

theorem b64Load_total {msb : Bool} : ∀ (s : List Char) (i : ℕ) (bt : List Bool),
    (∃ r, b64Load msb false i s bt = some r ∧ ∀ bt', r = some bt' → bt'.length = bt.length) ∧
    ((∃ c ∈ s, 64 ≤ b64Val c) → b64Load msb false i s bt = some none) := by
  intro s
  induction s with
  | nil => intro i bt; exact ⟨⟨some bt, rfl, by rintro _ ⟨⟩; rfl⟩, by rintro ⟨c, h, _⟩; cases h⟩
  | cons c s ih =>
    intro i bt
    rw [b64Load_cons]
    split
    · exact ⟨⟨none, rfl, by rintro _ ⟨⟩⟩, fun _ => rfl⟩
    · rename_i hc
      obtain ⟨bt', h1, h2, -⟩ := btSet_spec (msb := msb) (strict := false) (bt := bt)
        (i := 6 * i) (n := 6) (x := b64Val c) (.inl rfl)
      rw [h1, Option.bind_some]
      obtain ⟨⟨r, r1, r2⟩, r3⟩ := ih (i + 1) bt'
      refine ⟨⟨r, r1, fun b hb => by rw [r2 b hb, h2]⟩, ?_⟩
      rintro ⟨x, hx, hx'⟩
      rw [List.mem_cons] at hx
      rcases hx with rfl | hx
      · omega
      · exact r3 ⟨x, hx, hx'⟩

/-- On every string the reader stops, either rejecting it (result 0, the table unchanged) or with a
well-formed propagation function; a character outside the alphabet is rejected, as is a length
that is not the length of a printed function. -/
theorem C26_reader {msb : Bool} (s : List Char) (hs : 6 * s.length ≤ 255 * 255 * 8 + 5) (old : List ℕ)
    (fuel : ℕ) (hf : s.length + 1 ≤ fuel) :
    ∃ d tab, xgetB64 msb false fuel s old = some (d, tab) ∧
      ((d = 0 ∧ tab = old) ∨
        (1 ≤ d ∧ d ≤ 255 ∧ s.length = (d * d * elgsz d + 5) / 6 ∧ (∀ c ∈ s, b64Val c < 64) ∧
          tab.length = d * d ∧ ∀ v ∈ tab, v ≤ d)) := by
  obtain ⟨d, h1, h2, h3⟩ := loopFuel_total (body := b64DomszBody s.length)
    (fun x => 1 ≤ x ∧ x ≤ 255 ∧ (x ≤ s.length ∨ x = 1)) (fun x => 1 ≤ x ∧ x ≤ 255) (fun x => s.length - x)
    (fun a b ⟨ha, ha', _⟩ hb => by
      unfold b64DomszBody at hb
      split at hb
      · cases hb
      · simp only [Sum.inl.injEq] at hb
        subst hb
        exact ⟨ha, ha'⟩)
    (fun a a' ⟨ha, ha', _⟩ hb => by
      unfold b64DomszBody at hb
      split at hb
      · rename_i hc
        simp only [Sum.inr.injEq] at hb
        subst hb
        have h255 : a ≠ 255 := by
          rintro rfl
          have : elgsz 255 = 8 := by decide
          rw [this] at hc
          omega
        have hlt : a < s.length := by
          by_contra hge
          have h6 : 6 * a ≤ a * a * elgsz a + 5 := by
            rcases Nat.lt_or_ge a 3 with h | h
            · have : a = 1 ∨ a = 2 := by omega
              rcases this with rfl | rfl <;> decide
            · have h2 := two_le_elgsz (d := a) (by omega)
              have : a * a * 2 ≤ a * a * elgsz a := Nat.mul_le_mul_left _ h2
              nlinarith
          omega
        exact ⟨⟨by omega, by omega, by omega⟩, by omega⟩
      · cases hb) fuel 1 ⟨le_rfl, by omega, .inr rfl⟩ (by omega)
  unfold xgetB64
  rw [h1, Option.bind_some]
  split
  · exact ⟨0, old, rfl, .inl ⟨rfl, rfl⟩⟩
  · rename_i hn
    push Not at hn
    obtain ⟨⟨r, r1, r2⟩, r3⟩ := b64Load_total (msb := msb) s 0
      (List.replicate (d * d * elgsz d) false)
    rw [r1, Option.bind_some]
    cases r with
    | none => exact ⟨0, old, rfl, .inl ⟨rfl, rfl⟩⟩
    | some bt =>
      have hbt := r2 bt rfl
      rw [List.length_replicate] at hbt
      simp only
      have hgood : ∀ c ∈ s, b64Val c < 64 := by
        intro c hc
        by_contra hlt
        rw [r3 ⟨c, hc, by omega⟩] at r1
        cases r1
      have he := elgsz_pos d
      rw [mapM_range (g := fun i =>
        let c := toByte (ordVal msb ((List.range (elgsz d)).map fun k => bt.getD (elgsz d * i + k) false))
        toByte (if c < d then c else d))]
      · refine ⟨_, _, rfl, .inr ?_⟩
        have h4 : toByte d = d := Nat.mod_eq_of_lt (by omega)
        rw [h4]
        refine ⟨h2, h3, hn.symm, hgood, by simp, ?_⟩
        intro v hv
        rw [List.mem_map] at hv
        obtain ⟨i, -, rfl⟩ := hv
        simp only
        refine le_trans (Nat.mod_le _ _) ?_
        split <;> omega
      · intro i hi
        have hb : elgsz d * i + elgsz d ≤ d * d * elgsz d := by
          calc elgsz d * i + elgsz d = (i + 1) * elgsz d := by ring
            _ ≤ _ := Nat.mul_le_mul_right _ (by omega)
        rw [btGet_spec (by omega), Option.map_some]

/-- The three-value protocol `1 0 -> 2`, `2 1 -> 0`. -/
example : oputB64 false false [3, 3, 3, 2, 3, 3, 3, 0, 3] 3 = some "_-z".toList := by decide +kernel

example : xgetB64 false false 4 "_-z".toList [] = some (3, [3, 3, 3, 2, 3, 3, 3, 0, 3]) := by
  decide +kernel

/-- With a table that checks its bounds the printed string of a two-value function cannot be read: the
reader allocates 8 bits but stores two groups of 6 (src/uni/unifile.cc:207,221). -/
theorem C26_padding_limit :
    oputB64 false true [2, 0, 1, 2] 2 = some "T_".toList ∧
      xgetB64 false true 3 "T_".toList [] = none ∧
      xgetB64 false false 3 "T_".toList [] = some (2, [2, 0, 1, 2]) := by decide +kernel

end Verif.Props
