import Verif.Proofs.Cycle

/-!
# Properties C01–C06: reachability, closure and cycle checks of `src/pfmla.cc`
-/

set_option linter.unusedSectionVars false

namespace Verif.Props
open Verif.Spec Verif.Model

universe u
variable {σ : Type u} [Fintype σ] [DecidableEq σ]

/-- **C01.** Backward reachability terminates (within `card σ + 1` rounds) and returns exactly
the states from which the target set can be reached. -/
theorem C01_pre_reach_exact (xn : Finset (σ × σ)) (p : Finset σ) (fuel : ℕ)
    (hf : Fintype.card σ < fuel) :
    ∃ r, preReach fuel xn p = some r ∧ ∀ s, s ∈ r ↔ ∃ t ∈ p, Reach xn s t :=
  preReach_total xn p fuel hf

/-- A graph with a cycle, a tail and an isolated state: `0 → 1 → 2 → 1`, `3`. -/
example : preReach 5 ({(0, 1), (1, 2), (2, 1)} : Finset (Fin 4 × Fin 4)) {2} = some {0, 1, 2} := by
  decide

/-- **C02.** Forward reachability terminates and is exact. -/
theorem C02_img_reach_exact (xn : Finset (σ × σ)) (p : Finset σ) (fuel : ℕ)
    (hf : Fintype.card σ < fuel) :
    ∃ r, imgReach fuel xn p = some r ∧ ∀ t, t ∈ r ↔ ∃ s ∈ p, Reach xn s t :=
  imgReach_total xn p fuel hf

/-- **C02.** Forward reachability is backward reachability of the reversed relation. -/
theorem C02_img_reach_mirror (xn : Finset (σ × σ)) (p : Finset σ) (fuel : ℕ) :
    imgReach fuel xn p = preReach fuel (xn.image Prod.swap) p :=
  imgReach_eq_preReach_rev fuel xn p

example : imgReach 5 ({(0, 1), (1, 2), (2, 1)} : Finset (Fin 4 × Fin 4)) {1} = some {1, 2} := by
  decide

/-- **C03.** `closure_within` returns the largest subset of `p` that no transition leaves. -/
theorem C03_closure_within_greatest (xn : Finset (σ × σ)) (p : Finset σ) (fuel : ℕ)
    (hf : Fintype.card σ < fuel) :
    ∃ r, closureWithin fuel xn p = some r ∧ r ⊆ p ∧ Closed xn r ∧
      (∀ q, q ⊆ p → Closed xn q → q ⊆ r) ∧
      ∀ s, s ∈ r ↔ ∀ t, Reach xn s t → t ∈ p := by
  obtain ⟨r, hr, h⟩ := closureWithin_total xn p fuel hf
  refine ⟨r, hr, ?_, ?_, ?_, h⟩
  · intro s hs; exact (h s).1 hs s Relation.ReflTransGen.refl
  · intro s hs t hst
    rw [h] at hs ⊢
    intro u htu
    exact hs u (Relation.ReflTransGen.head hst htu)
  · intro q hqp hq s hs
    rw [h]
    intro t hst
    apply hqp
    induction hst with
    | refl => exact hs
    | tail _ h ih => exact hq _ ih _ h

example : closureWithin 5 ({(0, 1), (1, 2), (2, 1), (3, 0)} : Finset (Fin 4 × Fin 4)) {1, 2, 3}
    = some {1, 2} := by decide

/-- **C04.** On a closed set the cycle check terminates, its verdict is exact, and the reported
set is exactly the set of states lying on a path from a cycle to a cycle. -/
theorem C04_cycle_ck_exact (xn : Finset (σ × σ)) (A : Finset σ) (hA : Closed xn A)
    (inv : Option (Finset σ)) (fuel : ℕ) (hf : Fintype.card σ < fuel) :
    ∃ r scc, cycleCk fuel xn none inv (some A) = some r ∧ r.scc = some scc ∧
      (r.ret = true ↔ ∃ s ∈ A, OnCycle xn s) ∧
      (∀ s ∈ A, OnCycle xn s → s ∈ scc) ∧
      ∀ s, s ∈ scc ↔ (∃ c ∈ A, OnCycle xn c ∧ Reach xn c s) ∧ ∃ c, OnCycle xn c ∧ Reach xn s c := by
  obtain ⟨r, hr, hp⟩ := cycleCk_total inv none (some A) (N := 0) (imgN_anti hA 0) fuel (by omega)
  rcases hp with ⟨m, hm, _⟩ | ⟨k, G, hk, _, h1, h2, h3, _⟩
  · cases hm
  · simp only [Option.getD_some] at *
    have hclA : ∀ x y, x ∈ A → Reach xn x y → y ∈ A := by
      intro x y hx hxy
      induction hxy with
      | refl => exact hx
      | tail _ h ih => exact hA _ ih _ h
    have hFA : ∀ s ∈ imgN xn A k, s ∈ A := by
      intro s hs
      obtain ⟨a, ha, h⟩ := fix_cycle_from hs
      exact hclA a s ha h
    have hchar : ∀ s, s ∈ G ↔
        (∃ c ∈ A, OnCycle xn c ∧ Reach xn c s) ∧ ∃ c, OnCycle xn c ∧ Reach xn s c := by
      intro s
      rw [h3]
      constructor
      · rintro ⟨hs, hc⟩
        obtain ⟨c, hc1, hc2, hc3⟩ := fix_from_cycle hk hs
        exact ⟨⟨c, hFA c hc1, hc2, hc3⟩, hc⟩
      · rintro ⟨⟨c, hc1, hc2, hc3⟩, hc⟩
        exact ⟨mem_imgN_of_cycle hA hc1 hc2 hc3 k, hc⟩
    have hcyc : ∀ s ∈ A, OnCycle xn s → s ∈ G := by
      intro s hs hc
      exact (hchar s).2 ⟨⟨s, hs, hc, Relation.ReflTransGen.refl⟩, s, hc, Relation.ReflTransGen.refl⟩
    refine ⟨r, G, hr, h1, ?_, hcyc, hchar⟩
    rw [h2, decide_eq_true_iff]
    constructor
    · rintro ⟨s, hs⟩
      obtain ⟨⟨c, hc1, hc2, _⟩, _⟩ := (hchar s).1 hs
      exact ⟨c, hc1, hc2⟩
    · rintro ⟨s, hs, hc⟩
      exact ⟨s, hcyc s hs hc⟩

/-- `0 → 1 → 2 → 1`, `2 → 3`, `4 → 4`: the closed set `{0,1,2,3}` has a cycle, and the state
`3` (after the cycle) and `0` (before it) are not reported. -/
example : Closed ({(0, 1), (1, 2), (2, 1), (2, 3), (4, 4)} : Finset (Fin 5 × Fin 5)) {0, 1, 2, 3} ∧
    cycleCk 6 ({(0, 1), (1, 2), (2, 1), (2, 3), (4, 4)} : Finset (Fin 5 × Fin 5)) none none
      (some {0, 1, 2, 3}) = some ⟨true, some {1, 2}, 0⟩ := by
  unfold Closed Step; decide

/-- **C05 is false.** The cycle check does not terminate for every assumed set: with the two
transitions `0 → 1 → 0` and the assumed set `{0}` the first loop runs forever. -/
theorem C05_cycle_ck_diverges (fuel : ℕ) :
    cycleCk fuel ({(false, true), (true, false)} : Finset (Bool × Bool)) none none
      (some {false}) = none := by
  unfold cycleCk
  have : loopFuel (cycleBody1 ({(false, true), (true, false)} : Finset (Bool × Bool)) none) fuel
      { span0 := {false}, nlayers := 1, ptr := false, out := 0 } = none := by
    apply loopFuel_diverges
      (fun st => st.ptr = false ∧ (st.span0 = {false} ∨ st.span0 = {true}))
    · have e1 : img ({(false, true), (true, false)} : Finset (Bool × Bool)) {false} = {true} := by
        decide
      have e2 : img ({(false, true), (true, false)} : Finset (Bool × Bool)) {true} = {false} := by
        decide
      rintro ⟨s, n, p, o⟩ ⟨h1, h2⟩
      simp only at h1 h2
      subst h1
      rcases h2 with rfl | rfl
      · exact ⟨⟨{true}, n, false, o⟩, by simp [cycleBody1, e1], rfl, Or.inr rfl⟩
      · exact ⟨⟨{false}, n, false, o⟩, by simp [cycleBody1, e2], rfl, Or.inl rfl⟩
    · exact ⟨rfl, Or.inl rfl⟩
  simp [this]

/-- **C05, proved part.**  Full statement: for every assumed set the check terminates and its
verdict says whether a cycle can be reached from that set.  The verdict half holds for every
assumed set: whatever is returned is right.  Termination (false in general, see
`C05_cycle_ck_diverges`) is proved when each transition leaving the set leads to a state from
which no cycle can be reached. -/
theorem C05_cycle_ck_partial (xn : Finset (σ × σ)) (A : Finset σ) :
    (∀ inv fuel r, cycleCk fuel xn none inv (some A) = some r →
      (r.ret = true ↔ ∃ a ∈ A, ∃ c, Reach xn a c ∧ OnCycle xn c)) ∧
    ((∀ s ∈ A, ∀ t, Step xn s t → t ∉ A → ∀ c, Reach xn t c → ¬ OnCycle xn c) →
      ∀ inv fuel, 2 * Fintype.card σ < fuel →
        ∃ r, cycleCk fuel xn none inv (some A) = some r) := by
  constructor
  · intro inv fuel r hr
    rcases cycleCk_partial inv none (some A) fuel r hr with ⟨m, hm, _⟩ | ⟨k, G, hk, _, h1, h2, h3, _⟩
    · cases hm
    · simp only [Option.getD_some] at *
      rw [h2, decide_eq_true_iff]
      constructor
      · rintro ⟨s, hs⟩
        obtain ⟨hs1, hs2⟩ := (h3 s).1 hs
        obtain ⟨c, hc1, hc2, hc3⟩ := fix_from_cycle hk hs1
        obtain ⟨a, ha, hac⟩ := fix_cycle_from hc1
        exact ⟨a, ha, c, hac, hc2⟩
      · rintro ⟨a, ha, c, hac, hc⟩
        obtain ⟨x, hx⟩ := imgN_nonempty_of_cycle ha hac hc k
        obtain ⟨d, hd1, hd2, hd3⟩ := fix_from_cycle hk hx
        exact ⟨d, (h3 d).2 ⟨hd1, d, hd2, Relation.ReflTransGen.refl⟩⟩
  · intro hesc inv fuel hf
    obtain ⟨r, hr, _⟩ := cycleCk_total (xn := xn) inv none (some A) (N := Fintype.card σ)
      (by simpa using imgN_anti_of_escape hesc) fuel (by omega)
    exact ⟨r, hr⟩

/-- `0 → 1 → 0`, `1 → 2`: the set `{0, 1}` is not closed but its only exit leads to a state
without cycles, so the check terminates; and it reports the cycle. -/
example : (∀ s ∈ ({0, 1} : Finset (Fin 3)), ∀ t,
      Step ({(0, 1), (1, 0), (1, 2)} : Finset (Fin 3 × Fin 3)) s t → t ∉ ({0, 1} : Finset (Fin 3)) →
      ∀ c, Reach ({(0, 1), (1, 0), (1, 2)} : Finset (Fin 3 × Fin 3)) t c →
        ¬ OnCycle ({(0, 1), (1, 0), (1, 2)} : Finset (Fin 3 × Fin 3)) c) ∧
    cycleCk 7 ({(0, 1), (1, 0), (1, 2)} : Finset (Fin 3 × Fin 3)) none none (some {0, 1})
      = some ⟨true, some {0, 1}, 0⟩ := by
  constructor
  · intro s _ t _ ht c htc hc
    have h2 : t = 2 := (by decide : ∀ t : Fin 3, t ∉ ({0, 1} : Finset (Fin 3)) → t = 2) t ht
    subst h2
    have dead : ∀ u : Fin 3, ¬ Step ({(0, 1), (1, 0), (1, 2)} : Finset (Fin 3 × Fin 3)) 2 u := by
      unfold Step; decide
    rcases Relation.ReflTransGen.cases_head htc with rfl | ⟨u, hu, _⟩
    · obtain ⟨d, hd, _⟩ := onCycle_succ hc
      exact dead d hd
    · exact dead u hu
  · decide

/-- **C06.** With an invariant `I` that is closed and contains all cycles of the closed set `A`,
the layer count (minus one) is the exact worst-case number of steps to enter `I`: the least `n`
such that every execution of `n` steps from `A` ends in `I`.  With limit `m` (`0`: none) the
check gives up, reporting `m + 1`, exactly when `n + 1` exceeds `m`. -/
theorem C06_layers_exact (xn : Finset (σ × σ)) (A I : Finset σ) (hA : Closed xn A)
    (hI : Closed xn I) (hcyc : ∀ s ∈ A, OnCycle xn s → s ∈ I) (m : ℕ) (fuel : ℕ)
    (hf : Fintype.card σ < fuel) :
    ∃ r n, cycleCk fuel xn (some m) (some I) (some A) = some r ∧
      (∀ s ∈ A, ∀ t, StepN xn n s t → t ∈ I) ∧
      (∀ j < n, ∃ s ∈ A, ∃ t, StepN xn j s t ∧ t ∉ I) ∧
      ((m = 0 ∨ n + 1 ≤ m) → r.nlayers = n + 1 ∧ r.scc.isSome = true) ∧
      (¬ (m = 0 ∨ n + 1 ≤ m) → r = ⟨false, none, m + 1⟩) := by
  have hfixI : ∀ k, imgN xn A k = imgN xn A (k + 1) → imgN xn A k ⊆ I := by
    intro k hk s hs
    obtain ⟨c, hc1, hc2, hc3⟩ := fix_from_cycle hk hs
    obtain ⟨a, ha, hac⟩ := fix_cycle_from hc1
    have hcA : c ∈ A := by
      clear hc1 hc2 hc3
      induction hac with
      | refl => exact ha
      | tail _ h ih => exact hA _ ih _ h
    have hcI := hcyc c hcA hc2
    clear hc1 hs hac
    induction hc3 with
    | refl => exact hcI
    | tail _ h ih => exact hI _ ih _ h
  have hstop : ∀ j, Stop xn (some I) A j ↔ imgN xn A j ⊆ I := by
    intro j
    constructor
    · rintro (h | ⟨J, hJ, h⟩)
      · exact hfixI j h
      · cases hJ; exact h
    · intro h; exact Or.inr ⟨I, rfl, h⟩
  have hsub : ∀ j, imgN xn A j ⊆ I ↔ ∀ s ∈ A, ∀ t, StepN xn j s t → t ∈ I := by
    intro j
    constructor
    · intro h s hs t hst; exact h (mem_imgN.2 ⟨s, hs, hst⟩)
    · intro h t ht
      obtain ⟨s, hs, hst⟩ := mem_imgN.1 ht
      exact h s hs t hst
  -- the least stopping round, obtained from a run without limit
  obtain ⟨n, hn1, hn2⟩ : ∃ n, imgN xn A n ⊆ I ∧ ∀ j < n, ¬ imgN xn A j ⊆ I := by
    obtain ⟨r0, _, hp0⟩ := cycleCk_total (xn := xn) (some I) (some 0) (some A) (N := 0)
      (imgN_anti hA 0) fuel (by omega)
    rcases hp0 with ⟨m', hm', h0, _⟩ | ⟨k, G, _, _, _, _, _, h4⟩
    · cases hm'; omega
    · obtain ⟨k0, _, h5, h6, _⟩ := h4 0 rfl
      exact ⟨k0, (hstop k0).1 h5, fun j hj h => h6 j hj ((hstop j).2 h)⟩
  obtain ⟨r, hr, hp⟩ := cycleCk_total (xn := xn) (some I) (some m) (some A) (N := 0)
    (imgN_anti hA 0) fuel (by omega)
  refine ⟨r, n, hr, (hsub n).1 hn1, ?_, ?_, ?_⟩
  · intro j hj
    have := hn2 j hj
    rw [hsub] at this
    push Not at this
    exact this
  · intro hm
    rcases hp with ⟨m', hm', h0, _, h2⟩ | ⟨k, G, _, _, hs, _, _, h4⟩
    · cases hm'
      exfalso
      rcases hm with hm | hm
      · omega
      · exact h2 n (by omega) ((hstop n).2 hn1)
    · obtain ⟨k0, _, h5, h6, h7, _⟩ := h4 m rfl
      have : k0 = n := by
        rcases Nat.lt_trichotomy k0 n with h | h | h
        · exact absurd ((hstop k0).1 h5) (hn2 k0 h)
        · exact h
        · exact absurd ((hstop n).2 hn1) (h6 n h)
      subst this
      exact ⟨h7, by simp [hs]⟩
  · intro hm
    rcases hp with ⟨m', hm', h0, h1, h2⟩ | ⟨k, G, _, _, _, _, _, h4⟩
    · cases hm'; exact h1
    · obtain ⟨k0, _, h5, h6, h7, h8⟩ := h4 m rfl
      exfalso; apply hm
      have : k0 = n := by
        rcases Nat.lt_trichotomy k0 n with h | h | h
        · exact absurd ((hstop k0).1 h5) (hn2 k0 h)
        · exact h
        · exact absurd ((hstop n).2 hn1) (h6 n h)
      subst this
      exact h8

/-- `3 → 2 → 1 → 0 → 0`, invariant `{0, 1}`: two steps in the worst case; a limit of 2 layers
gives up with 3. -/
example : Closed ({(3, 2), (2, 1), (1, 0), (0, 0)} : Finset (Fin 4 × Fin 4)) {0, 1} ∧
    (cycleCk 5 ({(3, 2), (2, 1), (1, 0), (0, 0)} : Finset (Fin 4 × Fin 4)) (some 0) (some {0, 1})
      none).map (·.nlayers) = some 3 ∧
    cycleCk 5 ({(3, 2), (2, 1), (1, 0), (0, 0)} : Finset (Fin 4 × Fin 4)) (some 2) (some {0, 1})
      none = some ⟨false, none, 3⟩ := by
  unfold Closed Step; decide

end Verif.Props
