import Verif.Proofs.Cand
import Verif.Props.PickSyn

/-!
# Properties C83, C84: candidate actions

`candidateActions` is the model of `candidate_actions`, src/xnsys.cc:1055-1265; `synthesizeSys` is the
synthesizer of C79 on the candidates that it returns.
-/

set_option linter.unusedSectionVars false

namespace Verif.Props
open Verif.Spec Verif.Model Verif.Proofs

section
variable {S T : Type} [Fintype S] [DecidableEq S]

/-- The actions are sorted out in a loop. -/
theorem cand_loop {c : CandSys S T} (hl : (demandOf c.sys).legit.Nonempty)
    (hn : c.sys.invariant = Finset.univ → c.sys.shadowPuppet = true) :
    (candidateActions c).cands = (List.range c.nActs).filter (fun a => candKind c a = .cand) ∧
    (candidateActions c).dels = (List.range c.nActs).filter (fun a => candKind c a = .del) ∧
    (candidateActions c).rejs = (List.range c.nActs).filter (fun a => candKind c a = .rej) ∧
    ((candidateActions c).ok = true ↔ (candidateActions c).cands ≠ []) := by
  have h1 : c.sys.invariant ≠ ∅ := by
    rintro h
    obtain ⟨s, hs⟩ := hl
    simp [demandOf, h] at hs
  have h2 : c.sys.invariant ∩ c.sys.closedAssume ≠ ∅ := Finset.nonempty_iff_ne_empty.1 hl
  have h3 : ¬ (c.sys.invariant = Finset.univ ∧ c.sys.shadowPuppet = false) := by
    rintro ⟨h3, h4⟩
    rw [hn h3] at h4
    cases h4
  unfold candidateActions
  rw [if_neg h1, if_neg h2, if_neg h3]
  simp

/-- **C83.** Without shadow variables `candidate_actions` sorts the actions exactly: it rejects those that can
be in no solution, drops those that can never move, and every other one is a candidate.  Each list is in
ascending order without repetitions. -/
theorem C83_candidates_exact {c : CandSys S T} (hd : DirectCand c) (hl : (demandOf c.sys).legit.Nonempty)
    (hn : c.sys.invariant ≠ Finset.univ) :
    (∀ a, a ∈ (candidateActions c).cands ↔ Possible c a ∧
      ¬ (offerOf c a).Improper (demandOf c.sys) (prescribedOf c) ∧ (offerOf c a).Moves (demandOf c.sys)) ∧
    (∀ a, a ∈ (candidateActions c).dels ↔ Possible c a ∧
      ¬ (offerOf c a).Improper (demandOf c.sys) (prescribedOf c) ∧ ¬ (offerOf c a).Moves (demandOf c.sys)) ∧
    (∀ a, a ∈ (candidateActions c).rejs ↔ Possible c a ∧
      (offerOf c a).Improper (demandOf c.sys) (prescribedOf c)) ∧
    (candidateActions c).cands.Pairwise (· < ·) ∧ (candidateActions c).dels.Pairwise (· < ·) ∧
    (candidateActions c).rejs.Pairwise (· < ·) ∧
    ((candidateActions c).ok = true ↔ (candidateActions c).cands ≠ []) := by
  classical
  obtain ⟨h1, h2, h3, h4⟩ := cand_loop hl fun h => absurd h hn
  refine ⟨fun a => ?_, fun a => ?_, fun a => ?_, ?_, ?_, ?_, h4⟩
  · rw [h1, List.mem_filter, List.mem_range, decide_eq_true_eq]
    constructor
    · rintro ⟨ha, h⟩
      rw [candKind_direct hd hl ha] at h
      split_ifs at h with q1 q2 q3
      exact ⟨q1, q2, q3⟩
    · rintro ⟨q1, q2, q3⟩
      refine ⟨q1.1, ?_⟩
      rw [candKind_direct hd hl q1.1, if_neg (not_not.2 q1), if_neg q2, if_pos q3]
  · rw [h2, List.mem_filter, List.mem_range, decide_eq_true_eq]
    constructor
    · rintro ⟨ha, h⟩
      rw [candKind_direct hd hl ha] at h
      split_ifs at h with q1 q2 q3
      exact ⟨q1, q2, q3⟩
    · rintro ⟨q1, q2, q3⟩
      refine ⟨q1.1, ?_⟩
      rw [candKind_direct hd hl q1.1, if_neg (not_not.2 q1), if_neg q2, if_neg q3]
  · rw [h3, List.mem_filter, List.mem_range, decide_eq_true_eq]
    constructor
    · rintro ⟨ha, h⟩
      rw [candKind_direct hd hl ha] at h
      split_ifs at h with q1 q2 q3
      exact ⟨q1, q2⟩
    · rintro ⟨q1, q2⟩
      refine ⟨q1.1, ?_⟩
      rw [candKind_direct hd hl q1.1, if_neg (not_not.2 q1), if_pos q2]
  · rw [h1]; exact List.pairwise_lt_range.filter _
  · rw [h2]; exact List.pairwise_lt_range.filter _
  · rw [h3]; exact List.pairwise_lt_range.filter _

/-- The end of the body keeps only actions that respect the legitimate states. -/
theorem candTail_cand {c : CandSys S T} {a : ℕ} (h : candTail c a = .cand) :
    (c.sys.scope = .direct → img (c.xn a) (c.sys.invariant ∩ c.sys.closedAssume) ⊆ c.sys.invariant ∧
      (c.sys.style ≠ .closed →
        restr (c.xn a) (c.sys.invariant ∩ c.sys.closedAssume) ⊆ c.sys.shadowXn ∪ c.shadowSelf)) := by
  intro hs
  unfold candTail at h
  simp only [hs, true_and] at h
  split_ifs at h with h1 h2
  refine ⟨h1, fun h3 => ?_⟩
  by_contra h4
  exact h2 ⟨h3, h4⟩

theorem candShadow_cand {c : CandSys S T} {a : ℕ} {f : LoopSt S} {b : Bool} (h : candShadow c a f b = .cand) :
    candTail c a = .cand := by
  unfold candShadow at h
  simp only at h
  split_ifs at h <;> exact h

/-- **C83, in general.** With shadow variables too, a candidate is not refused by the user, can move in some
considered state and never leaves those; if the legitimate states are given directly then it does not break
them. -/
theorem C83_candidates_sound {c : CandSys S T} {a : ℕ} (ha : a ∈ (candidateActions c).cands) :
    Possible c a ∧ ¬ (offerOf c a).Refused ∧ (offerOf c a).Moves (demandOf c.sys) ∧
    Closed (c.xn a) c.sys.closedAssume ∧
    (c.sys.scope = .direct → ¬ (offerOf c a).Breaks (demandOf c.sys) (prescribedOf c)) := by
  unfold candidateActions at ha
  split_ifs at ha with g1 g2 g3
  · simp at ha
  · simp at ha
  · simp at ha
  · simp only [List.mem_filter, List.mem_range, decide_eq_true_eq] at ha
    obtain ⟨hlt, h⟩ := ha
    unfold candKind at h
    simp only at h
    split_ifs at h with h1 h2 h3 h4 h5 h6 h7 h8 h9
    have ht := candTail_cand (candShadow_cand h)
    rw [img_sub] at h7
    refine ⟨⟨hlt, by simpa using h1, by simpa using h2, Finset.nonempty_iff_ne_empty.2 h3⟩, ?_,
      not_not.1 fun h => h8 (overlap_dom.2 h), fun s hs t hst => h7 s t hst hs, ?_⟩
    · rintro (h | h)
      · exact h4 h
      · exact h5 h
    · rintro hs ⟨s, t, p1, p2⟩
      obtain ⟨t1, t2⟩ := ht hs
      rw [img_sub] at t1
      rcases p2 with ⟨p2, p3⟩ | ⟨p2, p3⟩ | ⟨p2, x, p3, p4⟩
      · exact p3 (h7 s t p1 p2)
      · exact p3 (Finset.mem_inter.2 ⟨t1 s t p1 p2, h7 s t p1 (Finset.mem_inter.1 p2).2⟩)
      · unfold prescribedOf at p3
        split at p3
        · simp at p3
        · rename_i q1
          obtain rfl := Option.some.inj p3
          exact p4 (t2 q1 (mem_restr.2 ⟨p1, p2⟩))

/-- **C83, the other cases.** No candidate is computed if there is no legitimate state (and the result is
false), nor if every state is legitimate and there are no shadow variables (and the result is true). -/
theorem C83_trivial (c : CandSys S T) :
    (¬ (demandOf c.sys).legit.Nonempty → candidateActions c = ⟨false, [], [], []⟩) ∧
    ((demandOf c.sys).legit.Nonempty → c.sys.invariant = Finset.univ → c.sys.shadowPuppet = false →
      candidateActions c = ⟨true, [], [], []⟩) := by
  constructor
  · intro h
    unfold candidateActions
    rw [Finset.not_nonempty_iff_eq_empty] at h
    split_ifs with h1 h2 h3
    · rfl
    · rfl
    · exact absurd h h2
    · exact absurd h h2
  · intro h h1 h2
    unfold candidateActions
    obtain ⟨s, hs⟩ := h
    have hs' : s ∈ c.sys.invariant ∩ c.sys.closedAssume := hs
    rw [if_neg (by rw [h1]; exact Finset.nonempty_iff_ne_empty.1 ⟨s, Finset.mem_univ s⟩),
      if_neg (Finset.nonempty_iff_ne_empty.1 ⟨s, hs'⟩), if_pos ⟨h1, h2⟩]

end

variable {σ τ : ℕ → Type} [∀ i, Fintype (σ i)] [∀ i, DecidableEq (σ i)] [∀ i, DecidableEq (τ i)] {ρ : Type}

/-- The problem posed by the systems, with no mention of candidates. -/
def problemOf (cfg : SynCfg σ τ ρ) (cs : ∀ i, CandSys (σ i) (τ i)) (n : ℕ) : Problem σ where
  n := n
  demand i := demandOf (cs i).sys
  offer i := offerOf (cs i)
  known i a := a < (cs i).nActs ∧ ((cs i).act a).rep = true ∧ (cs i).hasPc a = true
  given := cfg.given.toFinset
  banned B := ∃ i < n, ∃ l ∈ cfg.declared i, B = l.toFinset

/-- A system with something to do, or one that always is as it should be. -/
def Sensible {S T : Type} [Fintype S] [DecidableEq S] (c : CandSys S T) : Prop :=
  (c.sys.invariant ≠ Finset.univ ∧ ∃ s, (demandOf c.sys).Must s) ∨
  (c.sys.invariant = Finset.univ ∧ c.sys.closedAssume = Finset.univ ∧ c.sys.shadowXn = ∅ ∧
    ∀ a, ¬ (offerOf c a).Refused)

/-- The hypotheses of the completeness theorem.  Those on the data say that actions have no self-loops (they
disable themselves) and that an action that only repeats what it reads has no transitions. -/
structure CandSetting (cfg : SynCfg σ τ ρ) (cs : ∀ i, CandSys (σ i) (τ i)) (n : ℕ) : Prop where
  plain : Plain (withCands cfg cs) n
  msgs : Honest (withCands cfg cs) n
  quiet : ∀ r, (cfg.tick r).2.2 = false
  pick : PicksCand (withCands cfg cs)
  verify : cfg.verifyFound = true
  depth : cfg.maxDepth = 0
  height : cfg.maxHeight = 0
  declared : ∀ i < n, ∀ l ∈ cfg.declared i, l ≠ []
  given : ∀ a ∈ cfg.given, Harmless (withCands cfg cs) n a
  direct : ∀ i < n, DirectCand (cs i)
  sensible : ∀ i < n, Sensible (cs i)
  noSelf : ∀ i < n, ∀ a s, (s, s) ∉ (cs i).xn a
  repeats : ∀ i < n, ∀ a, (offerOf (cs i) a).repeats → (cs i).xn a = ∅
  same : ∀ i < n, ∀ j < n, ∀ a, (problemOf cfg cs n).known i a → (problemOf cfg cs n).known j a

theorem CandSetting.legit {cfg : SynCfg σ τ ρ} {cs : ∀ i, CandSys (σ i) (τ i)} {n : ℕ} (hS : CandSetting cfg cs n)
    {i : ℕ} (hi : i < n) : (demandOf (cs i).sys).legit.Nonempty := (hS.plain.sys i hi).legit

/-- Candidates that no system rejects are harmless. -/
theorem CandSetting.setting {cfg : SynCfg σ τ ρ} {cs : ∀ i, CandSys (σ i) (τ i)} {n : ℕ}
    (hS : CandSetting cfg cs n) : Setting (withCands cfg cs) n where
  plain := hS.plain
  msgs := hS.msgs
  quiet := hS.quiet
  pick := hS.pick
  verify := hS.verify
  depth := hS.depth
  height := hS.height
  nodup i hi := by
    rcases hS.sensible i hi with ⟨h, _⟩ | ⟨h, _⟩
    · exact (C83_candidates_exact (hS.direct i hi) (hS.legit hi) h).2.2.2.1.imp (fun h => by omega)
    · change (candidateActions (cs i)).cands.Nodup
      rw [(C83_trivial (cs i)).2 (hS.legit hi) h (hS.direct i hi).direct]
      exact List.nodup_nil
  declared := hS.declared
  given := hS.given
  cand i hi a ha hrej j hj := by
    refine ⟨?_, fun s _ => hS.noSelf j hj a s⟩
    have hP := (C83_candidates_sound (c := cs i) ha).1
    have hk : (problemOf cfg cs n).known j a := hS.same i hi j hj a ⟨hP.1, hP.2.1, hP.2.2.1⟩
    rcases hS.sensible j hj with ⟨h, _⟩ | ⟨_, h, _⟩
    · intro s hs t hst
      by_contra ht
      exact hrej j hj (((C83_candidates_exact (hS.direct j hj) (hS.legit hj) h).2.2.1 a).2
        ⟨⟨hk.1, hk.2.1, hk.2.2, ⟨(s, t), hst⟩⟩, .inr (.inr ⟨s, t, hst, .inl ⟨hs, ht⟩⟩)⟩)
    · intro s _ t _
      change t ∈ (cs j).sys.closedAssume
      rw [h]
      exact Finset.mem_univ t

/-- An action of an answer is not rejected. -/
theorem answer_proper {cfg : SynCfg σ τ ρ} {cs : ∀ i, CandSys (σ i) (τ i)} {n : ℕ}
    (hS : CandSetting cfg cs n) {A : Finset ℕ} (hA : Answers (problemOf cfg cs n) A) {i : ℕ} (hi : i < n) {a : ℕ}
    (ha : a ∈ A) (hP : Possible (cs i) a) :
    ¬ (offerOf (cs i) a).Improper (demandOf (cs i).sys) (prescribedOf (cs i)) := by
  have hm := hA.meets i hi
  have hsub : ∀ {s t}, Step ((cs i).xn a) s t → Step (A.biUnion fun a => ((problemOf cfg cs n).offer i a).steps) s t :=
    fun {s t} h => Finset.mem_biUnion.2 ⟨a, ha, h⟩
  rintro (h | h | ⟨s, t, h1, h2⟩)
  · exact hA.wanted i hi a ha ⟨hP.1, hP.2.1, hP.2.2.1⟩ hP.2.2.2 h
  · have := hS.repeats i hi a h
    obtain ⟨_, _, _, ⟨e, he⟩⟩ := hP
    rw [this] at he
    simp at he
  · rcases h2 with ⟨h2, h3⟩ | ⟨h2, h3⟩ | ⟨_, x, h3, _⟩
    · exact h3 (hm.stab.closed_assume s h2 t (hsub h1))
    · exact h3 (hm.stab.closed s h2 t (hsub h1))
    · unfold prescribedOf at h3
      have hst : (cs i).sys.style = .closed := (hS.plain.sys i hi).style
      rw [if_pos hst] at h3
      simp at h3

/-- An answer solves the problem that is left with the candidates. -/
theorem answer_solves {cfg : SynCfg σ τ ρ} {cs : ∀ i, CandSys (σ i) (τ i)} {n : ℕ}
    (hS : CandSetting cfg cs n) {A : Finset ℕ} (hA : Answers (problemOf cfg cs n) A)
    (hk : ∀ i < n, ∀ a ∈ A, (problemOf cfg cs n).known i a)
    (ht : ∀ i < n, ∀ a ∈ A, ∀ b ∈ A, a ≠ b → cfg.trims i a b = false) :
    Solves (taskOf (withCands cfg cs) n) A where
  given := hA.given
  offered i hi a ha := by
    rcases hS.sensible i hi with ⟨h, _⟩ | ⟨h, h1, h2, _⟩
    · by_cases hx : ((cs i).xn a).Nonempty
      · have hP : Possible (cs i) a := ⟨(hk i hi a ha).1, (hk i hi a ha).2.1, (hk i hi a ha).2.2, hx⟩
        by_cases hm : (offerOf (cs i) a).Moves (demandOf (cs i).sys)
        · exact .inl (((C83_candidates_exact (hS.direct i hi) (hS.legit hi) h).1 a).2
            ⟨hP, answer_proper hS hA hi ha hP, hm⟩)
        · exact .inr fun s t hst hmu => hm ⟨s, t, hst, hmu.1⟩
      · exact .inr fun s t hst _ => hx ⟨(s, t), hst⟩
    · refine .inr fun s t _ hmu => ?_
      rcases hmu.2 with h3 | ⟨u, h3⟩
      · refine h3 ?_
        change s ∈ (cs i).sys.invariant ∩ (cs i).sys.closedAssume
        rw [h, h1]
        simp
      · have h3 : (s, u) ∈ (cs i).sys.shadowXn := h3
        rw [h2] at h3
        simp at h3
  apart i hi a ha b hb hne hc := by
    have hc : cfg.trims i a b = true := hc
    rw [ht i hi a ha b hb hne] at hc
    cases hc
  allowed := by
    rintro B ⟨i, hi, ⟨l, hl, rfl⟩ | ⟨a, har, rfl⟩⟩ hsub
    · exact hA.allowed _ ⟨i, hi, l, hl, rfl⟩ hsub
    · have ha : a ∈ A := hsub (by simp)
      have har : a ∈ (candidateActions (cs i)).rejs := har
      rcases hS.sensible i hi with ⟨h, _⟩ | ⟨h, _⟩
      · obtain ⟨hP, hI⟩ := ((C83_candidates_exact (hS.direct i hi) (hS.legit hi) h).2.2.1 a).1 har
        exact answer_proper hS hA hi ha hP hI
      · rw [(C83_trivial (cs i)).2 (hS.legit hi) h (hS.direct i hi).direct] at har
        simp at har
  meets := hA.meets

/-- **C84.** For one or two systems without shadow variables, `candidate_actions` followed by the search always
ends; it finds an answer to the problem as posed, or there is none (in which no two actions exclude each
other): no action that `candidate_actions` leaves out is needed. -/
theorem C84_synthesis_complete {cfg : SynCfg σ τ ρ} {cs : ∀ i, CandSys (σ i) (τ i)} {n : ℕ}
    (hS : CandSetting cfg cs n) (h1 : 1 ≤ n) (h2 : n ≤ 2) {fuel : ℕ}
    (hf : 3 ^ ((List.range n).map fun i => (cs i).nActs).sum + 1 < fuel) (rng : ρ) :
    (∃ g acts, synthesizeSys cfg cs n fuel rng = some (.found g acts) ∧ acts.Nodup ∧
      Answers (problemOf cfg cs n) acts.toFinset ∧
      ∀ a ∈ acts, a ∈ cfg.given ∨ ∃ i < n, (problemOf cfg cs n).known i a) ∨
    (∃ g, synthesizeSys cfg cs n fuel rng = some (.fail g)) ∧
      ¬ ∃ A, Answers (problemOf cfg cs n) A ∧ (∀ i < n, ∀ a ∈ A, (problemOf cfg cs n).known i a) ∧
        ∀ i < n, ∀ a ∈ A, ∀ b ∈ A, a ≠ b → cfg.trims i a b = false := by
  unfold synthesizeSys
  by_cases hok : (List.range n).all fun i => (candidateActions (cs i)).ok
  · rw [if_pos hok]
    have hlen : ∀ i ∈ List.range n, ((withCands cfg cs).cands i).length ≤ (cs i).nActs := by
      intro i hi
      rw [List.mem_range] at hi
      change (candidateActions (cs i)).cands.length ≤ _
      rcases hS.sensible i hi with ⟨h, _⟩ | ⟨h, _⟩
      · rw [(cand_loop (hS.legit hi) fun h' => absurd h' h).1]
        exact (List.length_filter_le _ _).trans (by simp)
      · rw [(C83_trivial (cs i)).2 (hS.legit hi) h (hS.direct i hi).direct]
        exact Nat.zero_le _
    have hle := List.sum_le_sum hlen
    have hpow : 3 ^ ((List.range n).map fun i => ((withCands cfg cs).cands i).length).sum ≤
        3 ^ ((List.range n).map fun i => (cs i).nActs).sum := Nat.pow_le_pow_right (by omega) hle
    rcases C79_synthesis_complete hS.setting h1 h2 (fuel := fuel) (by omega) rng with
      ⟨g, acts, r1, r2, r3, r4, r5, r6⟩ | ⟨r1, r2⟩
    · refine .inl ⟨g, acts, r1, r2, ⟨?_, ?_, ?_, r5⟩, fun a ha => ?_⟩
      · intro a ha
        exact List.mem_toFinset.2 (r3 a (List.mem_toFinset.1 ha))
      · intro i hi a ha hk hx hR
        rcases hS.sensible i hi with ⟨h, _⟩ | ⟨_, _, _, h⟩
        · refine r6 {a} ⟨i, hi, .inr ⟨a, ?_, rfl⟩⟩ (by simpa using ha)
          exact ((C83_candidates_exact (hS.direct i hi) (hS.legit hi) h).2.2.1 a).2
            ⟨⟨hk.1, hk.2.1, hk.2.2, hx⟩, .inl hR⟩
        · exact h a hR
      · rintro B ⟨i, hi, l, hl, rfl⟩
        exact r6 _ ⟨i, hi, .inl ⟨l, hl, rfl⟩⟩
      · rcases r4 a ha with h | ⟨i, hi, h⟩
        · exact .inl h
        · have hP := (C83_candidates_sound (c := cs i) h).1
          exact .inr ⟨i, hi, hP.1, hP.2.1, hP.2.2.1⟩
    · exact .inr ⟨r1, fun ⟨A, hA, hk, ht⟩ => r2 ⟨A, answer_solves hS hA hk ht⟩⟩
  · rw [if_neg hok]
    refine .inr ⟨⟨_, rfl⟩, ?_⟩
    rintro ⟨A, hA, hk, ht⟩
    apply hok
    rw [List.all_eq_true]
    intro i hi
    rw [List.mem_range] at hi
    rcases hS.sensible i hi with ⟨h, s, hs⟩ | ⟨h, _⟩
    · obtain ⟨c1, c2, c3, _, _, _, c4⟩ := C83_candidates_exact (hS.direct i hi) (hS.legit hi) h
      rw [c4]
      have hd := (hA.meets i hi).awake s hs
      unfold Deadlock at hd
      push Not at hd
      obtain ⟨t, hst⟩ := hd
      obtain ⟨a, ha, hat⟩ := Finset.mem_biUnion.1 hst
      have hP : Possible (cs i) a := ⟨(hk i hi a ha).1, (hk i hi a ha).2.1, (hk i hi a ha).2.2, ⟨(s, t), hat⟩⟩
      exact List.ne_nil_of_mem ((c1 a).2 ⟨hP, answer_proper hS hA hi ha hP, s, t, hat, hs.1⟩)
    · rw [(C83_trivial (cs i)).2 (hS.legit hi) h (hS.direct i hi).direct]

/-! ### Concrete problems -/

/-- A system without shadow variables whose actions are given by their transitions. -/
def tinyCand (sys : Sys (Fin 4) Unit) (n : ℕ) (act forbid permit : ℕ → Finset (Fin 4 × Fin 4)) :
    CandSys (Fin 4) Unit where
  sys := sys
  nActs := n
  act _ := ⟨true, [⟨false, false, false, false, false, 0, 0⟩], [⟨false, true, 1⟩]⟩
  hasPc _ := true
  xn := act
  pcXn := act
  forbid := forbid
  permit := permit
  shadow _ := ∅
  shadowSelf := ∅
  smoothP p := if p = ∅ then ∅ else Finset.univ
  smoothX x := if x = ∅ then ∅ else Finset.univ
  unchanged _ := Finset.univ
  becomes _ _ := Finset.univ
  smoothPre _ x := x
  smoothV _ x := x

theorem tiny_direct {sys : Sys (Fin 4) Unit} {n : ℕ} {act forbid permit : ℕ → Finset (Fin 4 × Fin 4)}
    (h1 : sys.shadowPuppet = false) (h2 : sys.scope = .direct) : DirectCand (tinyCand sys n act forbid permit) where
  direct := h1
  scope := h2
  writes a w hw := by
    obtain rfl := List.mem_singleton.1 hw
    rfl
  reads a r hr := by
    obtain rfl := List.mem_singleton.1 hr
    rfl
  smoothP p hp := if_neg (Finset.nonempty_iff_ne_empty.1 hp)
  smoothX x hx := if_neg (Finset.nonempty_iff_ne_empty.1 hx)

/-- Like `tinySys`, but state 3 is not considered. -/
def tinySys3 : Sys (Fin 4) Unit := { tinySys with closedAssume := {0, 1, 2} }

/-- Eight actions. -/
def mixedAct : ℕ → Finset (Fin 4 × Fin 4)
  | 0 => {(1, 0)}
  | 1 => {(2, 3)}
  | 2 => {(0, 1)}
  | 3 => {(3, 0)}
  | 4 => {(2, 0)}
  | 5 => {(2, 1), (3, 1)}
  | 6 => ∅
  | 7 => {(1, 2), (3, 2)}
  | _ => ∅

/-- The actions 4 and 7 are forbidden (7 only in part, which does not count), and so that something is permitted,
all but 5. -/
def mixedCand : CandSys (Fin 4) Unit :=
  tinyCand tinySys3 8 mixedAct (fun _ => {(2, 0), (1, 2)}) fun _ => Finset.univ \ {(3, 1)}

/-- Two candidates, one useless action, and four rejected ones: one leaves the considered states, one leaves the
legitimate state, one is forbidden and one not permitted. -/
example : (candidateActions mixedCand).cands = [0, 7] ∧ (candidateActions mixedCand).dels = [3] ∧
    (candidateActions mixedCand).rejs = [1, 2, 4, 5] ∧ (candidateActions mixedCand).ok = true := by
  decide +kernel

example : DirectCand mixedCand ∧ (demandOf mixedCand.sys).legit.Nonempty ∧
    mixedCand.sys.invariant ≠ Finset.univ := ⟨tiny_direct rfl rfl, ⟨0, by decide⟩, by decide⟩

/-- With pure shadow variables there are more reasons: an action that keeps the only pure shadow variable although
the shadow protocol is silent is rejected, and so is one that does not change anything. -/
def shadowCand : CandSys (Fin 4) Unit :=
  { tinyCand tinySys 3 (fun _ => {(1, 0)}) (fun _ => ∅) fun _ => ∅ with
    act := fun a =>
      if a = 0 then ⟨true, [⟨false, false, false, false, false, 0, 0⟩, ⟨true, true, false, false, false, 1, 0⟩], []⟩
      else if a = 1 then ⟨true, [⟨false, false, false, false, true, 0, 0⟩, ⟨true, true, false, false, false, 1, 0⟩], []⟩
      else ⟨true, [⟨false, false, false, false, true, 0, 0⟩, ⟨true, false, false, false, false, 1, 0⟩], []⟩ }

example : (candidateActions shadowCand).cands = [2] ∧ (candidateActions shadowCand).rejs = [0, 1] := by
  decide +kernel

/-- Systems that differ in what the actions do. -/
def tinyCands (act : ℕ → ℕ → Finset (Fin 4 × Fin 4)) (forbid : ℕ → Finset (Fin 4 × Fin 4)) :
    ∀ _ : ℕ, CandSys (Fin 4) Unit :=
  fun i => tinyCand tinySys 5 (act i) forbid fun _ => ∅

theorem tiny_candSetting {act : ℕ → ℕ → Finset (Fin 4 × Fin 4)} {forbid : ℕ → Finset (Fin 4 × Fin 4)}
    {given : List ℕ} {trims : ℕ → ℕ → ℕ → Bool} {prep : Bool} {n : ℕ} (hs : ∀ i < n, ∀ a s, (s, s) ∉ act i a) :
    CandSetting (tinyCfg act [] given trims prep 0) (tinyCands act forbid) n :=
  have hT : Setting (tinyCfg act [] given trims prep 0) n :=
    tiny_setting (by simp) (fun a _ i hi s => hs i hi a s) (by simp)
  { plain := ⟨fun i hi =>
      have h := hT.plain.sys i hi
      ⟨h.ident, h.prob, h.direct, h.scope, h.style, h.behav, h.uniring, h.layers, h.legit, h.pick, h.shadowAct⟩,
      hT.plain.fast⟩
    msgs := by intro r b hb; simp [tinyCfg, withCands] at hb
    quiet := fun _ => rfl
    pick := by
      intro rng fam ps _ ⟨x, hx, hne⟩
      obtain ⟨c, l, hc⟩ := List.exists_cons_of_ne_nil hne
      have hm : c ∈ ps.insts.flatMap fun x => x.rest.2.cands := List.mem_flatMap.2 ⟨x, hx, by rw [hc]; simp⟩
      obtain ⟨a, ha⟩ : ∃ a, (ps.insts.flatMap fun x => x.rest.2.cands).head? = some a := by
        rcases h : ps.insts.flatMap fun x => x.rest.2.cands with _ | ⟨a, l'⟩
        · rw [h] at hm; simp at hm
        · exact ⟨a, by rw [h]; rfl⟩
      exact ⟨a, ha, List.mem_flatMap.1 (List.mem_of_mem_head? ha)⟩
    verify := rfl
    depth := rfl
    height := rfl
    declared := hT.declared
    given := hT.given
    direct := fun _ _ => tiny_direct rfl rfl
    sensible := fun _ _ => .inl ⟨(by decide : tinySys.invariant ≠ Finset.univ), 1, by
      refine ⟨Finset.mem_univ _, .inl ?_⟩
      simp [demandOf, tinyCands, tinyCand, tinySys]⟩
    noSelf := hs
    repeats := fun _ _ _ h => by
      have := h _ (List.mem_singleton.2 rfl)
      simp [WVbl.Repeats] at this
    same := fun _ _ _ _ _ h => h }

/-- The problem of C79, now with the candidates that `candidate_actions` computes. -/
theorem tinyGood_candSetting : CandSetting (tinyCfg (fun i => tinyAct (i + 1)) [] [0] noTrim false 0)
    (tinyCands (fun i => tinyAct (i + 1)) fun _ => ∅) 2 := by
  refine tiny_candSetting fun i hi a s => ?_
  obtain rfl | rfl : i = 0 ∨ i = 1 := by omega
  all_goals
    rcases a with _ | _ | _ | _ | _ | a
    · revert s; decide
    · revert s; decide
    · revert s; decide
    · revert s; decide
    · revert s; decide
    · simp [tinyAct]

/-- An answer is found; if action 3 is forbidden then there is none. -/
example : answer (synthesizeSys (tinyCfg (fun i => tinyAct (i + 1)) [] [0] noTrim false 0)
    (tinyCands (fun i => tinyAct (i + 1)) fun _ => ∅) 2 60000 ()) = some (some [0, 1, 2, 3]) ∧
    answer (synthesizeSys (tinyCfg (fun i => tinyAct (i + 1)) [] [0] noTrim false 0)
    (tinyCands (fun i => tinyAct (i + 1)) fun a => if a = 3 then Finset.univ else ∅) 2 60000 ()) = some none := by
  decide +kernel

/-! ### Where the hypotheses are needed -/

/-- No transitions. -/
theorem meets_empty {S : Type} [DecidableEq S] {d : Demand S} (h1 : d.legit.Nonempty) (h2 : d.legit = d.assume)
    (h3 : d.shadow = ∅) : Meets d ∅ where
  stab := {
    nonempty := h1
    subset := by rw [h2]
    closed_assume := fun s _ t h => absurd h (Finset.notMem_empty _)
    closed := fun s _ t h => absurd h (Finset.notMem_empty _)
    converges := fun e he h0 => ⟨0, fun m _ => by
      have : ∀ m, e m = e 0 := by
        intro m
        induction m with
        | zero => rfl
        | succ m ih =>
          rcases he m with h | h
          · exact absurd h (Finset.notMem_empty _)
          · rw [h.2, ih]
      rw [this, h2]
      exact h0⟩ }
  noSelf := fun s _ h => absurd h (Finset.notMem_empty _)
  quiet := fun _ e he _ => Finset.notMem_empty _ (he 0)
  awake := by
    rintro s ⟨h4, h | ⟨t, h⟩⟩
    · rw [h2] at h
      exact absurd h4 h
    · rw [h3] at h
      exact absurd h (Finset.notMem_empty _)

/-- Every considered state is legitimate, but there are other states. -/
def calmSys : Sys (Fin 4) Unit := { tinySys with
  invariant := {0, 1}
  closedAssume := {0, 1} }

/-- **C84 fails if nothing needs to be done.**  Every considered state is legitimate, so that the protocol without
actions is an answer, but `candidate_actions` finds no candidate and returns false. -/
theorem C84_nothing_to_do :
    Answers (problemOf (tinyCfg (fun _ _ => ∅) [] [] noTrim false 0)
      (fun _ => tinyCand calmSys 1 (fun _ => {(0, 2)}) (fun _ => ∅) fun _ => ∅) 1) ∅ ∧
    answer (synthesizeSys (tinyCfg (fun _ _ => ∅) [] [] noTrim false 0)
      (fun _ => tinyCand calmSys 1 (fun _ => {(0, 2)}) (fun _ => ∅) fun _ => ∅) 1 60000 ()) = some none := by
  refine ⟨⟨by decide, by simp, ?_, fun i _ => ?_⟩, by decide +kernel⟩
  · rintro B ⟨i, _, l, hl, _⟩
    simp [tinyCfg] at hl
  · rw [Finset.biUnion_empty]
    exact meets_empty ⟨0, by simp [problemOf, demandOf, tinyCand, calmSys]⟩
      (by decide : (demandOf calmSys).legit = (demandOf calmSys).assume) rfl

/-- Every state is legitimate, and the specified behavior is a step from 1 to 0. -/
def busySys : Sys (Fin 4) Unit := { tinySys with
  invariant := Finset.univ
  shadowXn := {(1, 0)} }

/-- **C84 fails if every state is legitimate and the specified behavior moves.**  Then `candidate_actions` returns
no candidate at all (src/xnsys.cc:1075-1080), though the action with the step from 1 to 0 is an answer. -/
theorem C84_all_legitimate :
    Answers (problemOf (tinyCfg (fun _ _ => ∅) [] [] noTrim false 0)
      (fun _ => tinyCand busySys 1 (fun _ => {(1, 0)}) (fun _ => ∅) fun _ => ∅) 1) {0} ∧
    answer (synthesizeSys (tinyCfg (fun _ _ => ∅) [] [] noTrim false 0)
      (fun _ => tinyCand busySys 1 (fun _ => {(1, 0)}) (fun _ => ∅) fun _ => ∅) 1 60000 ()) = some none := by
  refine ⟨⟨by decide, ?_, ?_, fun i _ => ?_⟩, by decide +kernel⟩
  · rintro i _ a _ _ _ (h | ⟨h, _⟩)
    · have h : ({(1, 0)} : Finset (Fin 4 × Fin 4)) ⊆ ∅ := h
      exact absurd h (by decide)
    · exact absurd h (by simp [problemOf, offerOf, tinyCand])
  · rintro B ⟨i, _, l, hl, _⟩
    simp [tinyCfg] at hl
  · have hx : (({0} : Finset ℕ).biUnion fun a => ((problemOf (tinyCfg (fun _ _ => ∅) [] [] noTrim false 0)
        (fun _ => tinyCand busySys 1 (fun _ => {(1, 0)}) (fun _ => ∅) fun _ => ∅) 1).offer i a).steps) =
        ({(1, 0)} : Finset (Fin 4 × Fin 4)) := by
      rw [Finset.singleton_biUnion]
      rfl
    rw [hx]
    have hst : ∀ s t : Fin 4, Step {(1, 0)} s t → s = 1 ∧ t = 0 := by
      intro s t h
      simpa [Step] using h
    have hall : ∀ s : Fin 4, s ∈ (demandOf busySys).legit := by decide
    refine ⟨⟨⟨0, hall 0⟩, fun s _ => Finset.mem_univ s, fun s _ t _ => Finset.mem_univ t, fun s _ t _ => hall t,
      fun e _ _ => ⟨0, fun m _ => hall _⟩⟩, ?_, ?_, ?_⟩
    · intro s _ h
      obtain ⟨h1, h2⟩ := hst _ _ h
      rw [h1] at h2
      exact absurd h2 (by decide)
    · intro _ e he _
      have h1 := (hst _ _ (he 0)).2
      have h2 := (hst _ _ (he 1)).1
      rw [h1] at h2
      exact absurd h2 (by decide)
    · rintro s ⟨_, h | ⟨t, h⟩⟩ hd
      · exact h (hall s)
      · have h : Step {(1, 0)} s t := h
        exact hd t h

/-- A system in which every state is legitimate, so that nothing is needed. -/
def freeSys : Sys (Fin 4) Unit := { tinySys with invariant := Finset.univ }

/-- **C84, forbidden actions.**  A system in which every state is legitimate does not reject what is forbidden in
it: the answer contains an action that is refused there. -/
theorem C84_forbidden_found :
    ∃ cs : ∀ _ : ℕ, CandSys (Fin 4) Unit,
      answer (synthesizeSys (tinyCfg (fun _ _ => ∅) [] [] noTrim false 0) cs 2 60000 ()) = some (some [0]) ∧
      ((problemOf (tinyCfg (fun _ _ => ∅) [] [] noTrim false 0) cs 2).known 1 0 ∧
        (offerOf (cs 1) 0).steps.Nonempty ∧ (offerOf (cs 1) 0).Refused) ∧
      ∀ i < 2, DirectCand (cs i) := by
  refine ⟨fun i => if i = 0 then tinyCand tinySys 1 (fun _ => {(1, 0), (2, 0), (3, 0)}) (fun _ => ∅) (fun _ => ∅)
    else tinyCand freeSys 1 (fun _ => {(1, 0)}) (fun _ => {(1, 0)}) fun _ => ∅, by decide +kernel,
    ⟨⟨Nat.one_pos, rfl, rfl⟩, ⟨(1, 0), by decide⟩, .inl (by decide)⟩, fun i _ => ?_⟩
  simp only
  split <;> exact tiny_direct rfl rfl

end Verif.Props
