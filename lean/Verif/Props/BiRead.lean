import Verif.Model.BiRead

/-!
C122: the filter of bidirectional rings reads the sets that are written.
-/

namespace Verif.Props

open Verif.Model

theorem readBits_spec (n : ℕ) : ∀ (k : ℕ) (l : List Char) (s : Finset ℕ), k ≤ n → k ≤ l.length →
    ∃ t, readBits n k l s = .set t ∧ ∀ i, i ∈ t ↔ i ∈ s ∨ ∃ j < k, i = n - k + j ∧ l[j]? = some '1'
  | 0, l, s, _, _ => ⟨s, by simp [readBits], by simp⟩
  | k + 1, [], s, _, h => by simp at h
  | k + 1, c :: l, s, hn, h => by
    obtain ⟨t, h1, h2⟩ := readBits_spec n k l (if c = '1' then insert (n - (k + 1)) s else s) (by omega) (by simpa using h)
    refine ⟨t, h1, fun i => ?_⟩
    rw [h2]
    have e : (i ∈ if c = '1' then insert (n - (k + 1)) s else s) ↔ i ∈ s ∨ (i = n - (k + 1) ∧ c = '1') := by
      split_ifs with hc <;> simp [hc, or_comm]
    rw [e]
    constructor
    · rintro ((hi | ⟨rfl, rfl⟩) | ⟨j, hj, rfl, hl⟩)
      · exact .inl hi
      · exact .inr ⟨0, by omega, by omega, by simp⟩
      · exact .inr ⟨j + 1, by omega, by omega, by simpa using hl⟩
    · rintro (hi | ⟨j, hj, rfl, hl⟩)
      · exact .inl (.inl hi)
      · cases j with
        | zero => exact .inl (.inr ⟨by omega, by simpa using hl⟩)
        | succ j => exact .inr ⟨j, by omega, by omega, by simpa using hl⟩

theorem readBits_short (n : ℕ) : ∀ (k : ℕ) (l : List Char) (s : Finset ℕ), k ≤ n → l.length < k → (k < n ∨ l ≠ []) →
    readBits n k l s = .fail
  | 0, _, _, _, h, _ => by simp at h
  | k + 1, [], s, hn, h, h0 => by
    rw [readBits]
    have : ¬n - (k + 1) = 0 := by
      rcases h0 with h0 | h0
      · omega
      · exact absurd rfl h0
    simp [this]
  | k + 1, c :: l, s, hn, h, _ => by
    rw [readBits]
    exact readBits_short n k l _ (by omega) (by simpa using h) (.inl (by omega))

theorem dropWhile_nil (p : Char → Bool) : ∀ l : List Char, l.dropWhile p = [] ↔ ∀ c ∈ l, p c = true
  | [] => by simp
  | c :: l => by
    rw [List.dropWhile_cons]
    split_ifs with h
    · rw [dropWhile_nil p l]
      simp [h]
    · simp [h]

/-- **C122**, lines: after white space, a line gives the set of places of the digit 1 if it has a character for each
place, whatever follows; it ends the reading if it has none, and the program if it has some. -/
theorem C122_line {n : ℕ} (hn : 0 < n) (line : List Char) :
    (n ≤ (line.dropWhile isWhite).length → ∃ s, xgetBits n line = .set s ∧
      ∀ i, i ∈ s ↔ i < n ∧ (line.dropWhile isWhite)[i]? = some '1') ∧
    (xgetBits n line = .stop ↔ ∀ c ∈ line, isWhite c = true) ∧
    (xgetBits n line = .fail ↔ (∃ c ∈ line, isWhite c = false) ∧ (line.dropWhile isWhite).length < n) := by
  have hnil : line.dropWhile isWhite = [] ↔ ∀ c ∈ line, isWhite c = true := dropWhile_nil isWhite line
  have hset : n ≤ (line.dropWhile isWhite).length → ∃ s, xgetBits n line = .set s ∧
      ∀ i, i ∈ s ↔ i < n ∧ (line.dropWhile isWhite)[i]? = some '1' := by
    intro h
    obtain ⟨t, h1, h2⟩ := readBits_spec n n (line.dropWhile isWhite) ∅ le_rfl h
    refine ⟨t, h1, fun i => ?_⟩
    rw [h2]
    simp
  have hstop : line.dropWhile isWhite = [] → xgetBits n line = .stop := by
    intro h
    obtain ⟨k, rfl⟩ : ∃ k, n = k + 1 := ⟨n - 1, by omega⟩
    simp [xgetBits, h, readBits]
  have hfail : line.dropWhile isWhite ≠ [] → (line.dropWhile isWhite).length < n → xgetBits n line = .fail :=
    fun h1 h2 => readBits_short n n _ _ le_rfl h2 (.inr h1)
  have hex : (∃ c ∈ line, isWhite c = false) ↔ line.dropWhile isWhite ≠ [] := by
    rw [Ne, hnil]
    push Not
    simp
  refine ⟨hset, ?_, ?_⟩
  · rw [← hnil]
    refine ⟨fun h => ?_, hstop⟩
    by_contra hne
    rcases Nat.lt_or_ge (line.dropWhile isWhite).length n with h1 | h1
    · rw [hfail hne h1] at h
      exact absurd h (by simp)
    · obtain ⟨s, h2, -⟩ := hset h1
      rw [h2] at h
      exact absurd h (by simp)
  · rw [hex]
    refine ⟨fun h => ?_, fun h => hfail h.1 h.2⟩
    constructor
    · intro h0
      rw [hstop h0] at h
      exact absurd h (by simp)
    · by_contra h1
      obtain ⟨s, h2, -⟩ := hset (Nat.le_of_not_lt h1)
      rw [h2] at h
      exact absurd h (by simp)

theorem bitText_read {n : ℕ} {s : Finset ℕ} (hs : ∀ i ∈ s, i < n) (hn : 0 < n) (rest : List Char) :
    xgetBits n (bitText n s ++ rest) = .set s := by
  have hd : (bitText n s ++ rest).dropWhile isWhite = bitText n s ++ rest := by
    obtain ⟨k, rfl⟩ : ∃ k, n = k + 1 := ⟨n - 1, by omega⟩
    rw [bitText, List.range_succ_eq_map, List.map_cons, List.cons_append, List.dropWhile_cons]
    have : isWhite (if 0 ∈ s then '1' else '0') = false := by split_ifs <;> decide
    simp [this]
  obtain ⟨t, h1, h2⟩ := (C122_line hn (bitText n s ++ rest)).1 (by rw [hd]; simp [bitText])
  rw [h1]
  congr 1
  ext i
  rw [h2, hd]
  constructor
  · rintro ⟨hi, hl⟩
    by_contra hns
    rw [List.getElem?_append_left (by simpa [bitText] using hi)] at hl
    simp [bitText, hi, hns] at hl
  · intro hi
    refine ⟨hs i hi, ?_⟩
    rw [List.getElem?_append_left (by simpa [bitText] using hs i hi)]
    simp [bitText, hs i hi, hi]

/-- **C122**, sets: if sets are written one in each line, with or without answers after them, the filter reads exactly
these sets in their order, and ends without an error. -/
theorem C122_sets {n : ℕ} (hn : 0 < n) (o : BiFilterOpt) : ∀ (sets : List (Finset ℕ × List Char)),
    (∀ e ∈ sets, ∀ i ∈ e.1, i < n) →
    filterStdin n o (sets.map fun e => bitText n e.1 ++ e.2) = (sets.map fun e => (e.1, biAnswers o), false)
  | [], _ => rfl
  | e :: sets, h => by
    have ih := C122_sets hn o sets fun x hx => h x (List.mem_cons_of_mem _ hx)
    rw [List.map_cons, filterStdin, bitText_read (h e List.mem_cons_self) hn, ih]
    rfl

/-- **C122**, end: a line that is too short ends the filter, whatever follows, after the sets before it; with an error
exactly if it is not only white space. -/
theorem C122_end {n : ℕ} (hn : 0 < n) (o : BiFilterOpt) (line : List Char) (rest : List (List Char))
    (hl : (line.dropWhile isWhite).length < n) : ∀ (sets : List (Finset ℕ × List Char)), (∀ e ∈ sets, ∀ i ∈ e.1, i < n) →
    filterStdin n o ((sets.map fun e => bitText n e.1 ++ e.2) ++ line :: rest) =
      (sets.map fun e => (e.1, biAnswers o), line.any fun c => !isWhite c)
  | [], _ => by
    obtain ⟨-, h2, h3⟩ := C122_line hn line
    by_cases hw : ∀ c ∈ line, isWhite c = true
    · rw [List.map_nil, List.nil_append, filterStdin, h2.2 hw]
      have : (line.any fun c => !isWhite c) = false := by
        rw [List.any_eq_false]
        exact fun c hc => by simp [hw c hc]
      simp [this]
    · have hex : ∃ c ∈ line, isWhite c = false := by
        push Not at hw
        simpa using hw
      rw [List.map_nil, List.nil_append, filterStdin, h3.2 ⟨hex, hl⟩]
      have : (line.any fun c => !isWhite c) = true := by
        rw [List.any_eq_true]
        obtain ⟨c, hc, h⟩ := hex
        exact ⟨c, hc, by simp [h]⟩
      simp [this]
  | e :: sets, h => by
    have ih := C122_end hn o line rest hl sets fun x hx => h x (List.mem_cons_of_mem _ hx)
    rw [List.map_cons, List.cons_append, filterStdin, bitText_read (h e List.mem_cons_self) hn, ih]
    rfl

/-- **C122**, answers: with `-echo` or `-echo-subsets` each answer is written exactly if its option is given.  The full
statement, without this condition, is false (`C122_no_echo`). -/
theorem C122_answers_partial (o : BiFilterOpt) (h : o.echoBits = true) :
    (biAnswers o).Nodup ∧ .bits ∈ biAnswers o ∧ (.count ∈ biAnswers o ↔ o.countOnes = true) ∧
    (.known ∈ biAnswers o ↔ o.subckKnown = true) ∧ (.isMatch ∈ biAnswers o ↔ o.subckMatch = true) ∧
    (.ppg ∈ biAnswers o ↔ o.ppgck = true) ∧ (.subsets ∈ biAnswers o ↔ o.echoSubsets = true) ∧
    (.invariant ∈ biAnswers o ↔ o.xlate = true) ∧ (.spec ∈ biAnswers o ↔ o.spec = true) ∧
    (.graphviz ∈ biAnswers o ↔ o.graphviz = true) := by
  obtain ⟨a, b, c, d, e, f, g, i, j⟩ := o
  simp only at h
  subst h
  revert b c d e f g i j
  decide

/-- **C122** fails without `-echo`: the filter reads the sets and answers none of the questions `-count-ones`,
`-subck-known`, `-subck-match` and `-ppgck`. -/
theorem C122_no_echo (o : BiFilterOpt) (h : o.echoBits = false) :
    .count ∉ biAnswers o ∧ .known ∉ biAnswers o ∧ .isMatch ∉ biAnswers o ∧ .ppg ∉ biAnswers o := by
  obtain ⟨a, b, c, d, e, f, g, i, j⟩ := o
  simp only at h
  subst h
  revert b c d e f g i j
  decide

/-- Reading of lines for two places, and an example of the condition of `C122_no_echo`. -/
example : xgetBits 2 " 01 ppg:Y".toList = .set {1} ∧ xgetBits 2 "  ".toList = .stop ∧ xgetBits 2 "1".toList = .fail ∧
    bitText 3 {0, 2} = "101".toList ∧ biAnswers ⟨false, true, false, false, true, false, false, false, false⟩ = [] := by decide

end Verif.Props
