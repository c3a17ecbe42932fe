import Verif.Model.Msat
import Verif.Spec.Msat
import Verif.Proofs.Verify
import Verif.Props.Stab
import Mathlib.Data.Finset.Powerset

/-!
Proofs about the synthesis with a satisfiability solver.
-/

set_option linter.unusedSectionVars false

namespace Verif.Proofs
open Verif.Spec Verif.Model Verif.Props

theorem pairs_sat {coexist : ℕ → ℕ → Bool} (T : Finset ℕ) : ∀ l : List ℕ,
    (∀ c ∈ msatPairs coexist l, ClauseSat T c) ↔ (l.filter fun a => a ∈ T).Pairwise fun a b => coexist a b = true := by
  intro l
  induction l with
  | nil => simp [msatPairs]
  | cons a l ih =>
    have hsplit : (∀ c ∈ msatPairs coexist (a :: l), ClauseSat T c) ↔
        (∀ b ∈ l, coexist a b = false → a ∈ T → b ∉ T) ∧ ∀ c ∈ msatPairs coexist l, ClauseSat T c := by
      rw [msatPairs]
      simp only [List.mem_append, or_imp, forall_and, List.forall_mem_map, List.mem_filter, Bool.not_eq_true']
      refine and_congr_left fun _ => ?_
      constructor
      · intro h b hb hc ha
        obtain ⟨x, hx, he⟩ := h b ⟨hb, hc⟩
        simp only [List.mem_cons, List.not_mem_nil, or_false] at hx
        rcases hx with rfl | rfl
        · simp [ha] at he
        · simpa using he
      · rintro h b ⟨hb, hc⟩
        by_cases ha : a ∈ T
        · exact ⟨(b, false), by simp, by simpa using h b hb hc ha⟩
        · exact ⟨(a, false), by simp, by simpa using ha⟩
    rw [hsplit, ih]
    by_cases ha : a ∈ T
    · rw [List.filter_cons_of_pos (by simpa using ha), List.pairwise_cons]
      refine and_congr_left fun _ => ?_
      constructor
      · intro h b hb
        obtain ⟨hb, hbT⟩ := List.mem_filter.mp hb
        by_contra hc
        exact h b hb (by simpa using hc) ha (by simpa using hbT)
      · intro h b hb hc _ hbT
        have := h b (List.mem_filter.mpr ⟨hb, by simpa using hbT⟩)
        rw [hc] at this
        exact absurd this (by simp)
    · rw [List.filter_cons_of_neg (by simpa using ha)]
      exact and_iff_right fun b _ _ h => absurd h ha

theorem clauses_sat {coexist : ℕ → ℕ → Bool} {cands dels rejs : List ℕ} (T : Finset ℕ) :
    (∀ c ∈ msatClauses coexist cands dels rejs, ClauseSat T c) ↔
      (∀ a ∈ rejs, a ∉ T) ∧ (∀ a ∈ dels, a ∉ T) ∧
        (cands.filter fun a => a ∈ T).Pairwise fun a b => coexist a b = true := by
  unfold msatClauses
  simp only [List.mem_append, or_imp, forall_and, List.forall_mem_map, and_assoc]
  rw [pairs_sat]
  simp [ClauseSat]

/-- The assignments that make all clauses true. -/
noncomputable def satSets (n : ℕ) (cls : List (List (ℕ × Bool))) : Finset (Finset ℕ) := by
  classical exact (Finset.range n).powerset.filter fun T => ∀ c ∈ cls, ClauseSat T c

theorem satSets_lt {n : ℕ} {cls : List (List (ℕ × Bool))} {T : Finset ℕ} {c : List (ℕ × Bool)}
    (hT : T ⊆ Finset.range n) (h : ∀ c ∈ cls, ClauseSat T c) (hc : ¬ ClauseSat T c) :
    (satSets n (cls ++ [c])).card < (satSets n cls).card := by
  classical
  apply Finset.card_lt_card
  refine Finset.ssubset_iff_subset_ne.mpr ⟨?_, ?_⟩
  · intro S hS
    unfold satSets at hS ⊢
    obtain ⟨h1, h2⟩ := Finset.mem_filter.mp hS
    exact Finset.mem_filter.mpr ⟨h1, fun c hc => h2 c (List.mem_append_left _ hc)⟩
  · intro he
    have hin : T ∈ satSets n cls := by
      unfold satSets
      exact Finset.mem_filter.mpr ⟨Finset.mem_powerset.mpr hT, h⟩
    rw [← he] at hin
    unfold satSets at hin
    exact hc ((Finset.mem_filter.mp hin).2 c (by simp))

theorem satSets_card (n : ℕ) (cls : List (List (ℕ × Bool))) : (satSets n cls).card ≤ 2 ^ n := by
  classical
  unfold satSets
  calc _ ≤ (Finset.range n).powerset.card := Finset.card_filter_le _ _
    _ = 2 ^ n := by rw [Finset.card_powerset, Finset.card_range]

section
variable {σ τ : Type} [Fintype σ] [DecidableEq σ] [DecidableEq τ]

theorem vaccepts_goal {f : VFile σ τ} {opt : StabOpt} {fuel : ℕ} (h : VFileOk f opt fuel)
    (hd : f.sys.shadowPuppet = false) (hs : f.sys.scope ≠ .future) (hl : opt.maxNlayers = 0) :
    VAccepts f opt false false fuel ↔ MsGoal f.sys (f.actions.toFinset.biUnion f.act) := by
  have hr : f.rel false false = f.actions.toFinset.biUnion f.act := rfl
  have := C12_direct_accept_iff f.sys h.ident h.plain hd hs opt h.general hl (f.rel false false)
    (f.parts false false) fuel h.fuel
  unfold VAccepts
  rw [← hr]
  constructor
  · rintro ⟨⟨I, m⟩, hr⟩
    obtain ⟨h1, h2, h3, h4, h5⟩ := this.mp ⟨I, m, hr⟩
    exact ⟨h1, h2, h3, h4, h5⟩
  · rintro ⟨h1, h2, h3, h4, h5⟩
    obtain ⟨I, m, hr⟩ := this.mpr ⟨h1, h2, h3, h4, h5⟩
    exact ⟨(I, m), hr⟩

/-- What is known of the clauses: no solution is excluded. -/
def Spares (sys : Sys σ τ) (act : ℕ → Finset (σ × σ)) (coexist : ℕ → ℕ → Bool) (cands : List ℕ)
    (cls : List (List (ℕ × Bool))) : Prop :=
  ∀ T : Finset ℕ, (∀ a ∈ T, a ∈ cands) → ((cands.filter fun a => a ∈ T).Pairwise fun a b => coexist a b = true) →
    MsGoal sys (T.biUnion act) → ∀ c ∈ cls, ClauseSat T c

theorem msatLoop_spec {n : ℕ} {f : VFile σ τ} {fuel : ℕ} {opt : StabOpt} {coexist : ℕ → ℕ → Bool}
    {cands dels rejs : List ℕ} {solve : List (List (ℕ × Bool)) → Option (Finset ℕ)}
    {okay : List (List (ℕ × Bool)) → Bool} (hsat : SatSolver n solve okay) (hok : VFileOk f opt fuel)
    (hd : f.sys.shadowPuppet = false) (hs : f.sys.scope ≠ .future) (hl : opt.maxNlayers = 0)
    (hcn : ∀ a ∈ cands, a < n)
    (hrest : ∀ a < n, a ∉ cands → a ∉ dels → a ∉ rejs → f.act a = ∅) :
    ∀ (k : ℕ) (cls : List (List (ℕ × Bool))), (satSets n cls).card < k →
      (∀ c ∈ msatClauses coexist cands dels rejs, c ∈ cls) → Spares f.sys f.act coexist cands cls →
      ∃ r, msatLoop n f fuel opt cands solve okay k cls = some r ∧
        (∀ l, r = some l → l.Nodup ∧ (∀ a ∈ l, a ∈ cands ∨ f.act a = ∅) ∧ (∀ a ∈ l, a < n ∧ a ∉ dels ∧ a ∉ rejs) ∧
          ((cands.filter fun a => a ∈ l).Pairwise fun a b => coexist a b = true) ∧
          MsGoal f.sys (l.toFinset.biUnion f.act)) ∧
        (r = none → ∀ T : Finset ℕ, (∀ a ∈ T, a ∈ cands) →
          ((cands.filter fun a => a ∈ T).Pairwise fun a b => coexist a b = true) → ¬ MsGoal f.sys (T.biUnion f.act)) := by
  intro k
  induction k with
  | zero => intro cls h; omega
  | succ k ih =>
    intro cls hcard hinit hsp
    have hin : ∀ T : Finset ℕ, (∀ a ∈ T, a ∈ cands) → T ⊆ Finset.range n := fun T hT a ha =>
      Finset.mem_range.mpr (hcn a (hT a ha))
    unfold msatLoop
    cases hsv : solve cls with
    | none =>
      refine ⟨none, rfl, by simp, fun _ T hT hco hg => ?_⟩
      exact hsat.complete cls hsv T (hin T hT) (hsp T hT hco hg)
    | some T =>
      simp only
      obtain ⟨hTn, hTs⟩ := hsat.sound cls T hsv
      obtain ⟨hrej, hdel, hpair⟩ := (clauses_sat (coexist := coexist) (cands := cands) (dels := dels) (rejs := rejs) T).mp
        fun c hc => hTs c (hinit c hc)
      set acts := (List.range n).filter fun a => a ∈ T with hacts
      have hmem : ∀ a, a ∈ acts ↔ a ∈ T := by
        intro a
        rw [hacts, List.mem_filter, List.mem_range]
        simp only [decide_eq_true_eq]
        exact ⟨fun h => h.2, fun h => ⟨Finset.mem_range.mp (hTn h), h⟩⟩
      have htf : acts.toFinset = T := by ext a; rw [List.mem_toFinset, hmem]
      have hok' : VFileOk { f with actions := acts } opt fuel := ⟨hok.1, hok.2, hok.3, hok.4, hok.5⟩
      obtain ⟨b, c, hv, hb, hc, -⟩ := verifyFile_spec hok' false false
      have hgoal := vaccepts_goal hok' hd hs hl
      rw [hv]
      have hempty : ∀ a ∈ T, a ∈ cands ∨ f.act a = ∅ := by
        intro a ha
        by_cases hca : a ∈ cands
        · exact Or.inl hca
        · exact Or.inr (hrest a (Finset.mem_range.mp (hTn ha)) hca (fun h => hdel a h ha) (fun h => hrej a h ha))
      cases b with
      | true =>
        simp only
        refine ⟨some acts, rfl, ?_, by simp⟩
        rintro l hl
        cases hl
        refine ⟨List.nodup_range.filter _, ?_, ?_, ?_, hgoal.mp (hb.mp rfl)⟩
        · intro a ha; exact hempty a ((hmem a).mp ha)
        · intro a ha
          have ha := (hmem a).mp ha
          exact ⟨Finset.mem_range.mp (hTn ha), fun h => hdel a h ha, fun h => hrej a h ha⟩
        · simpa only [hmem] using hpair
      | false =>
        simp only
        have hnot : ¬ MsGoal f.sys (T.biUnion f.act) := by
          intro hg
          rw [← htf] at hg
          exact absurd (hb.mpr (hgoal.mpr hg)) (by simp)
        have hfalse : ¬ ClauseSat T (msatClause n cands T c) := by
          rintro ⟨⟨a, v⟩, hx, he⟩
          cases c with
          | none =>
            obtain ⟨b, hb, h1⟩ := List.mem_map.mp hx
            cases h1
            simp only [decide_eq_true_eq] at he
            tauto
          | some R =>
            obtain ⟨b, hb, h1⟩ := List.mem_map.mp hx
            cases h1
            have hbR : a ∈ R := by simpa using (List.mem_filter.mp hb).2
            have hR := (hc R rfl).2.1
            have : a ∈ T := by rw [← htf]; exact hR hbR
            simp [this] at he
        have hspare : Spares f.sys f.act coexist cands (cls ++ [msatClause n cands T c]) := by
          intro S hS hco hg x hx
          rcases List.mem_append.mp hx with hx | hx
          · exact hsp S hS hco hg x hx
          rw [List.mem_singleton.mp hx]
          cases c with
          | some R =>
            obtain ⟨-, hR, hex⟩ := hc R rfl
            have : ¬ R ⊆ S := fun hRS => hex rfl S hRS _ Finset.inter_subset_left hg.stab
            obtain ⟨a, haR, haS⟩ := Finset.not_subset.mp this
            have haT : a ∈ T := by rw [← htf]; exact hR haR
            refine ⟨(a, false), ?_, by simpa using haS⟩
            refine List.mem_map.mpr ⟨a, List.mem_filter.mpr ⟨List.mem_range.mpr (Finset.mem_range.mp (hTn haT)), ?_⟩, rfl⟩
            simpa using haR
          | none =>
            by_contra hcl
            apply hnot
            have hagree : ∀ a ∈ cands, (a ∈ S ↔ a ∈ T) := by
              intro a ha
              by_contra hne
              refine hcl ⟨(a, decide (a ∉ T)), List.mem_map.mpr ⟨a, ha, rfl⟩, ?_⟩
              simp only [decide_eq_true_eq]
              tauto
            have : T.biUnion f.act = S.biUnion f.act := by
              ext e
              simp only [Finset.mem_biUnion]
              constructor
              · rintro ⟨a, ha, he⟩
                rcases hempty a ha with hca | h0
                · exact ⟨a, (hagree a hca).mpr ha, he⟩
                · rw [h0] at he; exact absurd he (Finset.notMem_empty _)
              · rintro ⟨a, ha, he⟩
                exact ⟨a, (hagree a (hS a ha)).mp ha, he⟩
            rw [this]
            exact hg
        split
        · exact ih _ (lt_of_lt_of_le (satSets_lt hTn hTs hfalse) (Nat.lt_succ_iff.mp hcard))
            (fun x hx => List.mem_append_left _ (hinit x hx)) hspare
        · rename_i hno
          refine ⟨none, rfl, by simp, fun _ S hS hco hg => ?_⟩
          exact hsat.okay _ (by simpa using hno) S (hin S hS) (hspare S hS hco hg)

end

end Verif.Proofs
