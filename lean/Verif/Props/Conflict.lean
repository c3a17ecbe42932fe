import Verif.Proofs.Conflict

/-! Properties of the conflict database: C18–C22, C56–C58. -/

set_option linter.unusedSectionVars false

namespace Verif.Props
open Verif.Model Verif.Spec

variable (r : Finset ℕ → Finset ℕ → Prop) [DecidableRel r]

/-- Iteration order used in the examples: by size. -/
abbrev bySize : Finset ℕ → Finset ℕ → Prop := fun a b => a.card ≤ b.card

/-- A history that stores, subsumes, ignores, merges, receives and flushes. -/
def sampleHistory : List COp :=
  [.add {1, 2, 3}, .table [2, 1, 2], .flush, .fam [{4, 5}, {1, 2}], .single 7,
   .flat [[7, 8], [5, 6]], .add {7, 9}]

/-- **C18.** From any database, any history of additions (single conflicts, tables, merged
databases, received messages, with flushes in between) runs without reading out of bounds, and
afterwards `conflict_ck(S)` answers `true` exactly when it did before or some announced conflict is
a subset of `S`.  From the empty database: exactly when some announced conflict is a subset. -/
theorem C18_conflict_ck (h : List COp) (st : CFam) :
    ∃ st', runOps r h st = some st' ∧
      (∀ S, conflictCk st' S = true ↔ conflictCk st S = true ∨ ∃ b ∈ learnedAll h, b ⊆ S) ∧
      (st = CFam.empty → ∀ S, conflictCk st' S = true ↔ ∃ b ∈ learnedAll h, b ⊆ S) := by
  obtain ⟨st', e, k, -, -⟩ := runOps_spec r h st
  refine ⟨st', e, fun S => ?_, ?_⟩
  · rw [conflictCk_iff, conflictCk_iff, k]; rfl
  · rintro rfl S
    rw [conflictCk_iff, k]
    simp [Knows, CFam.empty, Forbidden]

/-- **C18** for single additions, stated without histories. -/
theorem C18_add (b S : Finset ℕ) (st : CFam) :
    conflictCk (addConflict r b st) S = true ↔ conflictCk st S = true ∨ b ⊆ S := by
  rw [conflictCk_iff, conflictCk_iff, addConflict_knows]

example : ((runOps bySize sampleHistory CFam.empty).map fun st => st.sets) =
    some [{7}, {5, 6}, {4, 5}, {1, 2}] := by decide +kernel

/-- **C19.** Starting from the empty database, after any history of additions the stored sets are
exactly the inclusion-minimal announced conflicts, each stored once.  In particular no stored
conflict contains another one and each was announced verbatim. -/
theorem C19_minimal (h : List COp) :
    ∃ st, runOps r h CFam.empty = some st ∧ st.sets.Nodup ∧
      (∀ a ∈ st.sets, ∀ c ∈ st.sets, a ⊆ c → a = c) ∧
      (∀ a ∈ st.sets, a ∈ learnedAll h) ∧
      (∀ a, a ∈ st.sets ↔ a ∈ learnedAll h ∧ ∀ c ∈ learnedAll h, c ⊆ a → c = a) := by
  obtain ⟨st, e, k, an, m⟩ := runOps_spec r h CFam.empty
  have han := an anti_nil
  have hm : ∀ a ∈ st.sets, a ∈ learnedAll h := fun a ha => by
    rcases m a ha with h | h
    · simp [CFam.empty] at h
    · exact h
  have hk : ∀ S, Knows st S ↔ Forbidden (learnedAll h) S := fun S => by
    rw [k]; simp [Knows, CFam.empty]
  refine ⟨st, e, han.nodup, han.anti, hm, fun a => ⟨fun ha => ⟨hm a ha, fun c hc hca => ?_⟩, ?_⟩⟩
  · obtain ⟨d, hd, hdc⟩ := (hk c).2 ⟨c, hc, subset_rfl⟩
    have := han.anti d hd a ha (hdc.trans hca)
    subst this
    exact subset_antisymm hca hdc
  · rintro ⟨ha, hmin⟩
    obtain ⟨d, hd, hda⟩ := (hk a).2 ⟨a, ha, subset_rfl⟩
    have := hmin d (hm d hd) hda
    subst this
    exact hd

/-- **C19** from an arbitrary irredundant database: one addition keeps it irredundant. -/
theorem C19_add (b : Finset ℕ) (st : CFam) (hnd : st.sets.Nodup)
    (hst : ∀ a ∈ st.sets, ∀ c ∈ st.sets, a ⊆ c → a = c) :
    (addConflict r b st).sets.Nodup ∧
    (∀ a ∈ (addConflict r b st).sets, ∀ c ∈ (addConflict r b st).sets, a ⊆ c → a = c) ∧
    (∀ a ∈ (addConflict r b st).sets, a ∈ st.sets ∨ a = b) :=
  have h := addConflict_anti r (b := b) (st := st) ⟨hnd, hst⟩
  ⟨h.nodup, h.anti, fun _ ha => addConflict_mem r ha⟩

example : (addConflict bySize {1} ⟨[{1, 2}, {2, 3}], [], false, ∅⟩).sets = [{1}, {2, 3}] := by
  decide +kernel

/-- **C20, encoding.** The flat message decodes, in any receiving database, to the addition of
exactly the encoded sets in order. -/
theorem C20_decode_encode (l : List (Finset ℕ)) (recv : CFam) :
    addFlat r (l.flatMap fun a => a.card :: a.sort) recv =
      some (l.foldl (fun st a => addConflict r a st) recv) := by
  have := addFlat_encodeFlat r l recv
  simp only [encodeFlat, arr_sort] at this
  exact this

/-- **C20, first flush.** A database that has not been flushed yet transmits all its stored
conflicts and starts recording; nothing else changes. -/
theorem C20_first_flush (st : CFam) (hrec : st.recording = false) :
    (flushFlat st).1 = (st.sets.flatMap fun a => a.card :: a.sort) ∧
    (flushSets st).1 = st.sets ∧
    (flushFlat st).2 = ⟨st.sets, st.newSets, true, st.impossible⟩ ∧
    (flushSets st).2 = (flushFlat st).2 := by
  simp [flushFlat, flushSets, hrec, allConflictsFlat, encodeFlat, allConflicts, arr_sort]

/-- **C20, later flushes.** After a flush (or discard) at `st`, and any history of additions, the
next flush transmits, last first, exactly the conflicts that were new when announced: those that
did not contain a conflict stored at the last flush or announced since. -/
theorem C20_later_flush (st st' : CFam) (hrec : st.recording = true) (hnew : st.newSets = [])
    (h : List COp) (hq : ∀ o ∈ h, COp.Quiet o) (hr : runOps r h st = some st') :
    (flushFlat st').1 =
      ((news st.sets (learnedAll h)).reverse.flatMap fun a => a.card :: a.sort) ∧
    (flushSets st').1 = (news st.sets (learnedAll h)).reverse ∧
    (flushFlat st').2 = ⟨st'.sets, [], true, st'.impossible⟩ ∧
    (flushSets st').2 = (flushFlat st').2 := by
  obtain ⟨h1, h2, -⟩ := runOps_outbox r hq hr
  have h2 := h2 hrec
  rw [hnew, List.nil_append] at h2
  simp [flushFlat, flushSets, h1, hrec, h2, encodeFlat, arr_sort]

/-- A sender flushes after each round of additions and the message is delivered to a receiver that
makes its own additions after each delivery. -/
def exchange (r : Finset ℕ → Finset ℕ → Prop) [DecidableRel r] :
    List (List COp × List COp) → CFam → CFam → Option (CFam × CFam)
  | [], s, q => some (s, q)
  | (hs, hq) :: rounds, s, q =>
    (runOps r hs s).bind fun s' =>
      let p := flushFlat s'
      (addFlat r p.1 q).bind fun q' =>
        (runOps r hq q').bind fun q'' => exchange r rounds p.2 q''

theorem exchange_inv (rounds : List (List COp × List COp))
    (hquiet : ∀ p ∈ rounds, ∀ o ∈ p.1, COp.Quiet o) (s q : CFam)
    (hs : s.newSets = []) (hk : s.recording = true → ∀ S, Knows s S → Knows q S) :
    ∃ s' q', exchange r rounds s q = some (s', q') ∧
      (∀ S, Knows s' S ↔ Knows s S ∨ Forbidden (rounds.flatMap fun p => learnedAll p.1) S) ∧
      (rounds ≠ [] ∨ s.recording = true → ∀ S, Knows q' S ↔ Knows q S ∨ Knows s' S ∨
        Forbidden (rounds.flatMap fun p => learnedAll p.2) S) := by
  induction rounds generalizing s q with
  | nil =>
    refine ⟨s, q, rfl, by simp [Forbidden], ?_⟩
    rintro (h | h) S
    · exact absurd rfl h
    · have := hk h S
      simp [Forbidden]; tauto
  | cons p rounds ih =>
    obtain ⟨h1, h2⟩ := p
    obtain ⟨s1, e1, k1, -, -⟩ := runOps_spec r h1 s
    have hq1 : ∀ o ∈ h1, COp.Quiet o := fun o ho => hquiet (h1, h2) (by simp) o ho
    obtain ⟨o1, o2, o3⟩ := runOps_outbox r hq1 e1
    obtain ⟨f1, f2⟩ := flushFlat_eq s1
    have e2 : addFlat r (flushFlat s1).1 q = some (addAll r (flushSets s1).1 q) := by
      rw [f1]; exact addFlat_encodeFlat r _ _
    obtain ⟨q2, e3, k3, -, -⟩ := runOps_spec r h2 (addAll r (flushSets s1).1 q)
    have hsets : (flushFlat s1).2.sets = s1.sets := by unfold flushFlat; split <;> rfl
    have hnew : (flushFlat s1).2.newSets = [] := by
      unfold flushFlat; split
      · rename_i hr
        simp only
        rw [o3 (by rw [← o1]; exact hr), hs]
      · rfl
    have hrec : (flushFlat s1).2.recording = true := by
      unfold flushFlat; split
      · rfl
      · rename_i hr; simpa using hr
    have hmsg : ∀ S, Knows q S ∨ Forbidden (flushSets s1).1 S ↔ Knows q S ∨ Knows s1 S := by
      intro S
      cases hr : s.recording with
      | false =>
        have : (flushSets s1).1 = s1.sets := by simp [flushSets, o1, hr, allConflicts]
        rw [this]; rfl
      | true =>
        have : (flushSets s1).1 = (news s.sets (learnedAll h1)).reverse := by
          simp [flushSets, o1, hr, o2 hr, hs]
        rw [this]
        have h4 : Forbidden (news s.sets (learnedAll h1)).reverse S ↔
            Forbidden (news s.sets (learnedAll h1)) S := by simp [Forbidden]
        have h5 := forbidden_news (k := s.sets) (l := learnedAll h1) (S := S)
        have h6 : Forbidden s.sets S → Knows q S := hk hr S
        have h7 : Knows s1 S ↔ Forbidden s.sets S ∨ Forbidden (learnedAll h1) S := k1 S
        rw [h4, h7]
        generalize Knows q S = A at h6 ⊢
        generalize Forbidden s.sets S = B at h5 h6 ⊢
        generalize Forbidden (news s.sets (learnedAll h1)) S = D at h5 ⊢
        generalize Forbidden (learnedAll h1) S = E at h5 ⊢
        clear * - h5 h6
        tauto
    have hknow : ∀ S, Knows q2 S ↔ Knows q S ∨ Knows s1 S ∨ Forbidden (learnedAll h2) S := by
      intro S
      rw [k3, addAll_knows, hmsg, or_assoc]
    obtain ⟨s', q', e4, k4, k5⟩ := ih (fun p hp => hquiet p (by simp [hp])) (flushFlat s1).2 q2
      hnew (fun _ S hS => (hknow S).2 (.inr (.inl (by simpa [Knows, hsets] using hS))))
    refine ⟨s', q', by simp [exchange, e1, e2, e3, e4], ?_, ?_⟩
    · intro S
      have : Knows (flushFlat s1).2 S ↔ Knows s1 S := by simp [Knows, hsets]
      rw [k4, this, k1, List.flatMap_cons, forbidden_append, or_assoc]
    · intro _ S
      rw [k5 (.inr hrec), hknow, List.flatMap_cons, forbidden_append]
      have : Knows s1 S → Knows s' S := fun h => (k4 S).2 (.inl (by simpa [Knows, hsets] using h))
      clear * - this
      tauto

/-- **C20, nothing is lost.** A sender that has not been flushed before runs any number of rounds
of additions, flushing after each; a receiver in any state receives each message and makes its own
additions.  No message is malformed, and after at least one round the receiver answers a query
positively exactly when it would have on its own, or the sender does, or its own additions say so. -/
theorem C20_exchange (rounds : List (List COp × List COp)) (hne : rounds ≠ [])
    (hquiet : ∀ p ∈ rounds, ∀ o ∈ p.1, COp.Quiet o) (s q : CFam) (hs : s.newSets = [])
    (hrec : s.recording = false) :
    ∃ s' q', exchange r rounds s q = some (s', q') ∧
      ∀ S, conflictCk q' S = true ↔ conflictCk q S = true ∨ conflictCk s' S = true ∨
        ∃ b ∈ rounds.flatMap (fun p => learnedAll p.2), b ⊆ S := by
  obtain ⟨s', q', e, -, k⟩ := exchange_inv r rounds hquiet s q hs (by simp [hrec])
  refine ⟨s', q', e, fun S => ?_⟩
  rw [conflictCk_iff, conflictCk_iff, conflictCk_iff]
  exact k (.inl hne) S

example : ((exchange bySize [([.add {1, 2}], []), ([.add {2}, .add {2, 3}, .add {4, 5}], [.add {9}])]
    CFam.empty CFam.empty).map fun p => (p.1.sets, p.2.sets)) =
    some ([{2}, {4, 5}], [{9}, {2}, {4, 5}]) := by decide +kernel

/-- A truncated message makes the decoder read out of bounds: the guarantee is for messages made by
the encoder only. -/
theorem C20_truncated_message : addFlat bySize [2, 5] CFam.empty = none := by decide +kernel

theorem conflictMembs_loop (test count : Finset ℕ) (l : List (Finset ℕ)) (membs : Finset ℕ) :
    ((conflictMembsLoop test count l membs).1 = false ↔ ∃ a ∈ l, a ⊆ test) ∧
    ((conflictMembsLoop test count l membs).1 = true → ∀ c,
      (c ∈ (conflictMembsLoop test count l membs).2 ↔
        c ∈ membs ∨ (c ∈ count ∧ ∃ a ∈ l, a ⊆ insert c test))) := by
  induction l generalizing membs with
  | nil => simp [conflictMembsLoop]
  | cons a l ih =>
    have hs : ∀ S, arr (a \ test) = S → (a \ test) = S.toFinset := by
      rintro S rfl; simp
    unfold conflictMembsLoop
    split
    · rename_i he
      have : a ⊆ test := by
        have := hs _ he
        simpa [Finset.sdiff_eq_empty_iff_subset] using this
      exact ⟨by simp [this], by simp⟩
    · rename_i d he
      have hd : a \ test = {d} := by simpa using hs _ he
      have hna : ¬ a ⊆ test := by
        rw [← Finset.sdiff_eq_empty_iff_subset, hd]; simp
      have hin : ∀ c, a ⊆ insert c test ↔ c = d := by
        intro c
        have : a ⊆ insert c test ↔ a \ test ⊆ {c} := by
          simp only [Finset.subset_iff, Finset.mem_insert, Finset.mem_sdiff, Finset.mem_singleton]
          constructor
          · intro h x hx
            exact (h hx.1).resolve_right hx.2
          · intro h x hx
            by_cases hxt : x ∈ test
            · exact .inr hxt
            · exact .inl (h ⟨hx, hxt⟩)
        rw [this, hd]
        simp [eq_comm]
      obtain ⟨i1, i2⟩ := ih (if d ∈ count then insert d membs else membs)
      refine ⟨by rw [i1]; simp [hna], fun h c => ?_⟩
      rw [i2 h]
      simp only [List.mem_cons, exists_eq_or_imp, hin]
      by_cases hc : d ∈ count
      · simp only [hc, if_true, Finset.mem_insert]
        constructor
        · rintro ((rfl | h) | h)
          · exact .inr ⟨hc, .inl rfl⟩
          · exact .inl h
          · exact .inr ⟨h.1, .inr h.2⟩
        · rintro (h | ⟨h, rfl | h'⟩)
          · exact .inl (.inr h)
          · exact .inl (.inl rfl)
          · exact .inr ⟨h, h'⟩
      · simp only [hc, if_false]
        constructor
        · rintro (h | h)
          · exact .inl h
          · exact .inr ⟨h.1, .inr h.2⟩
        · rintro (h | ⟨hm, rfl | h'⟩)
          · exact .inl h
          · exact absurd hm hc
          · exact .inr ⟨hm, h'⟩
    · rename_i h0 h1
      have hna : ∀ c, ¬ a ⊆ insert c test := by
        intro c hc
        have : a \ test ⊆ {c} := by
          intro x hx
          have := Finset.mem_sdiff.1 hx
          rcases Finset.mem_insert.1 (hc this.1) with rfl | h
          · simp
          · exact absurd h this.2
        rcases Finset.subset_singleton_iff.1 this with h | h
        · exact h0 (by rw [h]; simp)
        · exact h1 c (by rw [h]; simp)
      have hnt : ¬ a ⊆ test := fun h => h0 (by
        rw [Finset.sdiff_eq_empty_iff_subset.2 h]; simp)
      obtain ⟨i1, i2⟩ := ih membs
      refine ⟨by rw [i1]; simp [hnt], fun h c => ?_⟩
      rw [i2 h]
      simp [hna]

/-- **C21.** On every database, `conflict_membs(S, C)` returns `false` exactly when `S` already
contains a conflict; otherwise it adds to the caller's set exactly those candidates of `C` whose
single addition to `S` completes a conflict. -/
theorem C21_conflict_membs (st : CFam) (membs S C : Finset ℕ) :
    ((conflictMembs st membs S C).1 = false ↔ conflictCk st S = true) ∧
    ((conflictMembs st membs S C).1 = true →
      ∀ c, c ∈ (conflictMembs st membs S C).2 ↔
        c ∈ membs ∨ (c ∈ C ∧ conflictCk st (insert c S) = true)) := by
  simp only [conflictCk_iff]
  exact conflictMembs_loop S C st.sets membs

/-- **C21** in terms of a client history from the empty database. -/
theorem C21_conflict_membs_history (h : List COp) (S C : Finset ℕ) :
    ∃ st, runOps r h CFam.empty = some st ∧
      ((conflictMembs st ∅ S C).1 = false ↔ ∃ b ∈ learnedAll h, b ⊆ S) ∧
      ((conflictMembs st ∅ S C).1 = true →
        ∀ c, c ∈ (conflictMembs st ∅ S C).2 ↔ c ∈ C ∧ ∃ b ∈ learnedAll h, b ⊆ insert c S) := by
  obtain ⟨st, e, -, k⟩ := C18_conflict_ck r h CFam.empty
  have k := k rfl
  obtain ⟨h1, h2⟩ := C21_conflict_membs st ∅ S C
  refine ⟨st, e, by rw [h1, k], fun ht c => ?_⟩
  rw [h2 ht, k]
  simp

example : (conflictMembs ⟨[{1, 2}, {2, 3, 4}, {5}], [], false, ∅⟩ ∅ {2, 3} {1, 4, 6}) =
    (true, {1, 4}) := by decide +kernel

theorem supersetWalk_spec (count : Finset ℕ) (ts cs : List ℕ) (hc : cs.Nodup)
    (hsub : ts.Sublist cs) (membs : Finset ℕ) (x : ℕ) :
    x ∈ supersetWalk count ts cs membs ↔
      x ∈ membs ∨ (x ∈ count ∧ x ∈ cs ∧ x ∉ ts) := by
  induction cs generalizing ts membs with
  | nil => simp [supersetWalk]
  | cons e cs ih =>
    have hc' := List.nodup_cons.1 hc
    cases ts with
    | nil =>
      rw [supersetWalk, ih [] hc'.2 (List.nil_sublist _)]
      by_cases he : e ∈ count
      · simp only [he, if_true, Finset.mem_insert, List.mem_cons, List.not_mem_nil,
          not_false_eq_true, and_true]
        constructor
        · rintro ((rfl | h) | h)
          · exact .inr ⟨he, .inl rfl⟩
          · exact .inl h
          · exact .inr ⟨h.1, .inr h.2⟩
        · rintro (h | ⟨h, rfl | h'⟩)
          · exact .inl (.inr h)
          · exact .inl (.inl rfl)
          · exact .inr ⟨h, h'⟩
      · simp only [he, if_false, List.mem_cons, List.not_mem_nil, not_false_eq_true, and_true]
        constructor
        · rintro (h | h)
          · exact .inl h
          · exact .inr ⟨h.1, .inr h.2⟩
        · rintro (h | ⟨h, rfl | h'⟩)
          · exact .inl h
          · exact absurd h he
          · exact .inr ⟨h, h'⟩
    | cons t ts =>
      rw [supersetWalk]
      by_cases hte : t = e
      · subst hte
        rw [if_neg (by simp), ih ts hc'.2 (List.cons_sublist_cons.1 hsub)]
        constructor
        · rintro (h | ⟨h1, h2, h3⟩)
          · exact .inl h
          · refine .inr ⟨h1, by simp [h2], ?_⟩
            rintro h4
            rcases List.mem_cons.1 h4 with rfl | h4
            · exact hc'.1 h2
            · exact h3 h4
        · rintro (h | ⟨h1, h2, h3⟩)
          · exact .inl h
          · simp only [List.mem_cons, not_or] at h2 h3
            exact .inr ⟨h1, h2.resolve_left h3.1, h3.2⟩
      · rw [if_pos hte]
        have hsub' : (t :: ts).Sublist cs := by
          cases hsub with
          | cons _ h => exact h
          | cons_cons _ h => exact absurd rfl hte
        rw [ih _ hc'.2 hsub']
        have het : e ∉ t :: ts := fun h => hc'.1 (hsub'.subset h)
        by_cases he : e ∈ count
        · simp only [he, if_true, Finset.mem_insert]
          constructor
          · rintro ((rfl | h) | h)
            · exact .inr ⟨he, by simp, het⟩
            · exact .inl h
            · exact .inr ⟨h.1, by simp [h.2.1], h.2.2⟩
          · rintro (h | ⟨h1, h2, h3⟩)
            · exact .inl (.inr h)
            · rcases List.mem_cons.1 h2 with rfl | h2
              · exact .inl (.inl rfl)
              · exact .inr ⟨h1, h2, h3⟩
        · simp only [he, if_false]
          constructor
          · rintro (h | h)
            · exact .inl h
            · exact .inr ⟨h.1, by simp [h.2.1], h.2.2⟩
          · rintro (h | ⟨h1, h2, h3⟩)
            · exact .inl h
            · rcases List.mem_cons.1 h2 with rfl | h2
              · exact absurd h1 he
              · exact .inr ⟨h1, h2, h3⟩

/-- **C21, candidates near a conflict.** `superset_membs(T, C)` yields exactly the candidates of
`C` outside `T` that belong to a stored conflict containing `T`. -/
theorem C21_superset_membs (st : CFam) (T C : Finset ℕ) (x : ℕ) :
    x ∈ supersetMembs st T C ↔ x ∈ C ∧ x ∉ T ∧ ∃ a ∈ st.sets, T ⊆ a ∧ x ∈ a := by
  have key : ∀ (l : List (Finset ℕ)) (m : Finset ℕ),
      x ∈ l.foldl (fun membs a => if T ⊆ a then supersetWalk C (arr T) (arr a) membs else membs) m ↔
        x ∈ m ∨ (x ∈ C ∧ x ∉ T ∧ ∃ a ∈ l, T ⊆ a ∧ x ∈ a) := by
    intro l
    induction l with
    | nil => simp
    | cons a l ih =>
      intro m
      rw [List.foldl_cons, ih]
      by_cases hT : T ⊆ a
      · have hsub : (arr T).Sublist (arr a) := by
          refine List.sublist_of_subperm_of_pairwise (r := (· ≤ ·)) ?_ (arr_pairwise _)
            (arr_pairwise _)
          exact List.subperm_of_subset (arr_nodup _) (fun y hy => by
            rw [mem_arr] at hy ⊢; exact hT hy)
        rw [if_pos hT, supersetWalk_spec C _ _ (arr_nodup _) hsub]
        simp only [mem_arr, List.mem_cons, exists_eq_or_imp, hT, true_and]
        tauto
      · rw [if_neg hT]
        simp [hT]
  unfold supersetMembs
  rw [key]
  simp

example : supersetMembs ⟨[{1, 2}, {2, 3, 4}, {5}], [], false, ∅⟩ {2} {1, 4, 5} = {1, 4} := by
  decide +kernel

/-- **C22, trim.** `trim(n)` never makes a negative query positive; for `n > 0` it keeps exactly
the stored conflicts of size at most `n`; `trim(0)` changes nothing. -/
theorem C22_trim (st : CFam) (n : ℕ) :
    (∀ S, conflictCk (trim n st) S = true → conflictCk st S = true) ∧
    (0 < n → ∀ a, a ∈ (trim n st).sets ↔ a ∈ st.sets ∧ a.card ≤ n) ∧
    (∀ S, S.card ≤ n → conflictCk (trim n st) S = conflictCk st S) ∧
    trim 0 st = st := by
  have hmem : 0 < n → ∀ a, a ∈ (trim n st).sets ↔ a ∈ st.sets ∧ a.card ≤ n := by
    intro hn a
    simp [trim, Nat.pos_iff_ne_zero.1 hn]
  have h0 : trim 0 st = st := by simp [trim]
  have h1 : ∀ S, conflictCk (trim n st) S = true → conflictCk st S = true := by
    intro S h
    rcases Nat.eq_zero_or_pos n with rfl | hn
    · rwa [h0] at h
    · rw [conflictCk_iff] at h ⊢
      obtain ⟨a, ha, haS⟩ := h
      exact ⟨a, ((hmem hn a).1 ha).1, haS⟩
  refine ⟨h1, hmem, fun S hS => ?_, h0⟩
  rcases Nat.eq_zero_or_pos n with rfl | hn
  · rw [h0]
  · rw [Bool.eq_iff_iff]
    refine ⟨h1 S, ?_⟩
    rw [conflictCk_iff, conflictCk_iff]
    rintro ⟨a, ha, haS⟩
    exact ⟨a, (hmem hn a).2 ⟨ha, (Finset.card_le_card haS).trans hS⟩, haS⟩

example : (trim 2 ⟨[{1, 2}, {2, 3, 4}, {5}], [], false, {5}⟩).sets = [{1, 2}, {5}] := by
  decide +kernel

/-- Histories of additions and trims. -/
def runTrims (r : Finset ℕ → Finset ℕ → Prop) [DecidableRel r] :
    List (COp ⊕ ℕ) → CFam → Option CFam
  | [], st => some st
  | .inl o :: h, st => (runOp r o st).bind (runTrims r h)
  | .inr n :: h, st => runTrims r h (trim n st)

/-- Conflicts announced in a history with trims. -/
def learnedTrims (h : List (COp ⊕ ℕ)) : List (Finset ℕ) :=
  h.flatMap fun x => match x with
    | .inl o => o.learned
    | .inr _ => []

theorem trims_inv (h : List (COp ⊕ ℕ)) (st : CFam) (hst : Anti st.sets) :
    ∃ st', runTrims r h st = some st' ∧ Anti st'.sets ∧
      (∀ S, Knows st' S → Knows st S ∨ Forbidden (learnedTrims h) S) ∧
      (∀ b, (∀ n, .inr n ∈ h → n = 0 ∨ b.card ≤ n) →
        Knows st b ∨ Forbidden (learnedTrims h) b → Knows st' b) := by
  induction h generalizing st with
  | nil => exact ⟨st, rfl, hst, by simp [learnedTrims, Forbidden], by simp [learnedTrims, Forbidden]⟩
  | cons x h ih =>
    cases x with
    | inl o =>
      obtain ⟨s1, e1, k1, a1, -⟩ := runOp_spec r o st
      obtain ⟨s2, e2, a2, k2, k3⟩ := ih s1 (a1 hst)
      have hl : learnedTrims (.inl o :: h) = o.learned ++ learnedTrims h := rfl
      refine ⟨s2, by simp [runTrims, e1, e2], a2, fun S hS => ?_, fun b hb hk => ?_⟩
      · rw [hl, forbidden_append]
        have := k2 S hS
        rw [k1] at this
        tauto
      · apply k3 b (fun n hn => hb n (by simp [hn]))
        rw [hl, forbidden_append] at hk
        rw [k1]; tauto
    | inr n =>
      obtain ⟨t1, t2, t3, t4⟩ := C22_trim st n
      have han : Anti (trim n st).sets := by
        unfold trim; split
        · exact hst
        · exact hst.sublist List.filter_sublist
      obtain ⟨s2, e2, a2, k2, k3⟩ := ih (trim n st) han
      have hl : learnedTrims (.inr n :: h) = learnedTrims h := rfl
      refine ⟨s2, by simp [runTrims, e2], a2, fun S hS => ?_, fun b hb hk => ?_⟩
      · rw [hl]
        rcases k2 S hS with h | h
        · exact .inl (conflictCk_iff.1 (t1 S (conflictCk_iff.2 h)))
        · exact .inr h
      · apply k3 b (fun m hm => hb m (by simp [hm]))
        rw [hl] at hk
        rcases hk with hk | hk
        · left
          rcases hb n (by simp) with rfl | hn
          · rwa [t4]
          · rw [← conflictCk_iff, t3 b hn, conflictCk_iff]; exact hk
        · exact .inr hk

/-- **C22, queries after trimming.** After any history of additions and trims from the empty
database, a positive query has an announced conflict as a reason, and every query covering an
announced conflict no larger than each trim bound is positive. -/
theorem C22_trimmed_history (h : List (COp ⊕ ℕ)) :
    ∃ st, runTrims r h CFam.empty = some st ∧
      (∀ S, conflictCk st S = true → ∃ b ∈ learnedTrims h, b ⊆ S) ∧
      (∀ b ∈ learnedTrims h, (∀ n, .inr n ∈ h → n = 0 ∨ b.card ≤ n) →
        ∀ S, b ⊆ S → conflictCk st S = true) := by
  obtain ⟨st, e, -, k1, k2⟩ := trims_inv r h CFam.empty anti_nil
  refine ⟨st, e, fun S hS => ?_, fun b hb hn S hbS => ?_⟩
  · rcases k1 S (conflictCk_iff.1 hS) with h | h
    · simp [Knows, CFam.empty] at h
    · exact h
  · obtain ⟨a, ha, hab⟩ := k2 b hn (.inr ⟨b, hb, subset_rfl⟩)
    exact conflictCk_iff.2 ⟨a, ha, hab.trans hbS⟩

/-- **C22, sat_ck.** After any history of additions and trims from the empty database, `sat_ck`
returns `false` exactly when the empty conflict was announced, and then every query is positive. -/
theorem C22_sat_ck (h : List (COp ⊕ ℕ)) :
    ∃ st, runTrims r h CFam.empty = some st ∧
      (satCk st = false ↔ ∅ ∈ learnedTrims h) ∧
      (satCk st = false → ∀ S, conflictCk st S = true) := by
  obtain ⟨st, e, an, k1, k2⟩ := trims_inv r h CFam.empty anti_nil
  refine ⟨st, e, ?_, fun hs S => ?_⟩
  · rw [satCk_iff an, ← knows_empty]
    constructor
    · intro hk
      rcases k1 ∅ hk with h | ⟨b, hb, hb0⟩
      · simp [Knows, CFam.empty] at h
      · rwa [Finset.subset_empty.1 hb0] at hb
    · intro h0
      exact k2 ∅ (by simp) (.inr ⟨∅, h0, subset_rfl⟩)
  · exact conflictCk_iff.2 ⟨∅, (satCk_iff an).1 hs, by simp⟩

example : ((runTrims bySize [.inl (.add {1, 2}), .inr 1, .inl (.add ∅), .inl (.add {3})]
    CFam.empty).map fun st => (st.sets, satCk st)) = some ([∅], false) := by decide +kernel

/-- Outside those histories the claim about `sat_ck` fails: a database read from a file that lists
the empty conflict beside another one is not recognised as unsatisfiable although every query is
positive, because `xget` does not remove redundant sets. -/
theorem C22_loaded_file_limit :
    satCk (xgetConflicts bySize [2, 0, 1, 5] CFam.empty) = true ∧
    ∀ S, conflictCk (xgetConflicts bySize [2, 0, 1, 5] CFam.empty) S = true := by
  have h : (xgetConflicts bySize [2, 0, 1, 5] CFam.empty).sets = [{5}, ∅] ∨
      (xgetConflicts bySize [2, 0, 1, 5] CFam.empty).sets = [∅, {5}] := by decide +kernel
  refine ⟨by decide +kernel, fun S => conflictCk_iff.2 ⟨∅, ?_, by simp⟩⟩
  rcases h with h | h <;> rw [h] <;> simp

/-- Impossible actions are the singleton conflicts, unless the empty conflict is known. -/
def ImpInv (st : CFam) : Prop := ¬ Knows st ∅ → ∀ e, e ∈ st.impossible ↔ Knows st {e}

theorem ImpInv.add {st : CFam} (h : ImpInv st) (b : Finset ℕ) : ImpInv (addConflict r b st) := by
  intro hn e
  rw [addConflict_knows, not_or] at hn
  rw [addConflict_impossible, addConflict_knows, h hn.1]
  constructor
  · rintro (h | ⟨rfl, -⟩)
    · exact .inl h
    · exact .inr subset_rfl
  · rintro (h | h)
    · exact .inl h
    · rcases Finset.subset_singleton_iff.1 h with rfl | rfl
      · exact absurd subset_rfl hn.2
      · by_cases hk : Knows st {e}
        · exact .inl hk
        · exact .inr ⟨rfl, hk⟩

theorem ImpInv.addAll {st : CFam} (h : ImpInv st) (l : List (Finset ℕ)) :
    ImpInv (addAll r l st) := by
  induction l generalizing st with
  | nil => exact h
  | cons b l ih => exact ih (h.add r b)

theorem ImpInv.runOp {st st' : CFam} (h : ImpInv st) {o : COp} (e : runOp r o st = some st') :
    ImpInv st' ∧ (∀ x ∈ st'.impossible, x ∈ st.impossible ∨ {x} ∈ o.learned) := by
  have key : ∀ l : List (Finset ℕ), some (Model.addAll r l st) = some st' →
      (∀ x ∈ l, x ∈ o.learned) →
      ImpInv st' ∧ (∀ x ∈ st'.impossible, x ∈ st.impossible ∨ {x} ∈ o.learned) := by
    intro l hl hlo
    obtain rfl := Option.some.inj hl
    refine ⟨h.addAll r l, fun x hx => ?_⟩
    rcases (addAll_impossible r).1 hx with h | h
    · exact .inl h
    · exact .inr (hlo _ h)
  cases o with
  | add b => exact key [b] e (by simp [COp.learned])
  | table b => exact key [b.toFinset] e (by simp [COp.learned])
  | single x => exact key [{x}] e (by simp [COp.learned])
  | flat l => exact key _ ((addFlat_encode r l st).symm.trans e) (by simp [COp.learned])
  | fam l => exact key _ e (fun x hx => (List.mem_filter.1 hx).1)
  | flush =>
    obtain rfl := Option.some.inj e
    have h1 : (flushFlat st).2.sets = st.sets := by unfold flushFlat; split <;> rfl
    have h2 : (flushFlat st).2.impossible = st.impossible := by unfold flushFlat; split <;> rfl
    refine ⟨?_, fun x hx => .inl (by rwa [h2] at hx)⟩
    intro hn x
    have := h (by simpa [Knows, h1] using hn) x
    rw [h2, this]; simp [Knows, h1]
  | discard =>
    obtain rfl := Option.some.inj e
    exact ⟨h, fun x hx => .inl hx⟩

/-- **C56.** After any history of additions and trims from the empty database every member of
`impossible_set` was announced as a singleton conflict, and unless the empty conflict was announced
the members are exactly the announced singletons. -/
theorem C56_impossible_set (h : List (COp ⊕ ℕ)) :
    ∃ st, runTrims r h CFam.empty = some st ∧
      (∀ e ∈ st.impossible, {e} ∈ learnedTrims h) ∧
      (∅ ∉ learnedTrims h → ∀ e, e ∈ st.impossible ↔ {e} ∈ learnedTrims h) := by
  have key : ∀ (h : List (COp ⊕ ℕ)) (st : CFam), ImpInv st →
      ∃ st', runTrims r h st = some st' ∧ ImpInv st' ∧
        ∀ e ∈ st'.impossible, e ∈ st.impossible ∨ {e} ∈ learnedTrims h := by
    intro h
    induction h with
    | nil => exact fun st hst => ⟨st, rfl, hst, fun e he => .inl he⟩
    | cons x h ih =>
      intro st hst
      cases x with
      | inl o =>
        obtain ⟨s1, e1, -⟩ := runOp_spec r o st
        obtain ⟨h1, h2⟩ := hst.runOp r e1
        obtain ⟨s2, e2, i2, m2⟩ := ih s1 h1
        refine ⟨s2, by simp [runTrims, e1, e2], i2, fun e he => ?_⟩
        have hl : learnedTrims (.inl o :: h) = o.learned ++ learnedTrims h := rfl
        rw [hl, List.mem_append]
        rcases m2 e he with h | h
        · rcases h2 e h with h | h
          · exact .inl h
          · exact .inr (.inl h)
        · exact .inr (.inr h)
      | inr n =>
        have hi : ImpInv (trim n st) := by
          rcases Nat.eq_zero_or_pos n with rfl | hn
          · simpa [trim] using hst
          · obtain ⟨t1, t2, t3, t4⟩ := C22_trim st n
            intro hk e
            have hk' : ¬ Knows st ∅ := by
              rw [← conflictCk_iff] at hk ⊢
              rwa [t3 ∅ (by simp)] at hk
            have := hst hk' e
            rw [← conflictCk_iff, t3 {e} (by simp; omega), conflictCk_iff, ← this]
            simp [trim, hn.ne']
        obtain ⟨s2, e2, i2, m2⟩ := ih _ hi
        refine ⟨s2, by simp [runTrims, e2], i2, fun e he => ?_⟩
        rcases m2 e he with h | h
        · left
          unfold trim at h
          split at h <;> exact h
        · exact .inr h
  obtain ⟨st, e, hi, hm⟩ := key h CFam.empty (by intro _ e; simp [CFam.empty, Knows])
  obtain ⟨st2, e2, k1, k2⟩ := C22_trimmed_history r h
  obtain rfl : st = st2 := Option.some.inj (e.symm.trans e2)
  have hm' : ∀ e ∈ st.impossible, {e} ∈ learnedTrims h := fun x hx => by
    rcases hm x hx with h | h
    · simp [CFam.empty] at h
    · exact h
  refine ⟨st, e, hm', fun h0 x => ⟨hm' x, fun hx => ?_⟩⟩
  have hne : ¬ Knows st ∅ := by
    intro hk
    obtain ⟨b, hb, hb0⟩ := k1 ∅ (conflictCk_iff.2 hk)
    rw [Finset.subset_empty.1 hb0] at hb
    exact h0 hb
  rw [hi hne, ← conflictCk_iff]
  refine k2 {x} hx (fun n _ => ?_) {x} subset_rfl
  simp only [Finset.card_singleton]
  omega

example : ((runTrims bySize [.inl (.single 4), .inl (.add {1, 2}), .inr 1, .inl (.add {2})]
    CFam.empty).map fun st => st.impossible) = some {2, 4} := by decide +kernel

theorem mem_setInsert {b a : Finset ℕ} {l : List (Finset ℕ)} :
    a ∈ setInsert r b l ↔ a = b ∨ a ∈ l := by
  unfold setInsert
  split
  · rename_i h
    constructor
    · exact .inr
    · rintro (rfl | h') <;> assumption
  · exact List.mem_orderedInsert r

theorem nodup_setInsert {b : Finset ℕ} {l : List (Finset ℕ)} (h : l.Nodup) :
    (setInsert r b l).Nodup := by
  unfold setInsert
  split
  · exact h
  · rename_i hb
    exact (List.perm_orderedInsert r b _).nodup_iff.2 (List.nodup_cons.2 ⟨hb, h⟩)

theorem xgetLoop_encode (l : List (Finset ℕ)) (st : CFam) (hnd : st.sets.Nodup) :
    (xgetLoop r l.length (encodeFlat l) st).sets.Nodup ∧
    (∀ a, a ∈ (xgetLoop r l.length (encodeFlat l) st).sets ↔ a ∈ st.sets ∨ a ∈ l) ∧
    (∀ e, e ∈ (xgetLoop r l.length (encodeFlat l) st).impossible ↔ e ∈ st.impossible ∨ {e} ∈ l) ∧
    (xgetLoop r l.length (encodeFlat l) st).newSets = st.newSets ∧
    (xgetLoop r l.length (encodeFlat l) st).recording = st.recording := by
  induction l generalizing st with
  | nil => simp [xgetLoop, hnd]
  | cons b l ih =>
    have henc : encodeFlat (b :: l) = b.card :: (arr b ++ encodeFlat l) := by
      simp [encodeFlat]
    have hlen : b.card = (arr b).length := by simp
    have step : xgetLoop r (b :: l).length (encodeFlat (b :: l)) st =
        xgetLoop r l.length (encodeFlat l)
          { st with
            sets := setInsert r b st.sets
            impossible := match arr b with
              | [e] => insert e st.impossible
              | _ => st.impossible } := by
      rw [henc, hlen, List.length_cons]
      have h1 : List.take (arr b).length (arr b ++ encodeFlat l) = arr b := List.take_left ..
      have h2 : List.drop (arr b).length (arr b ++ encodeFlat l) = encodeFlat l :=
        List.drop_left ..
      simp [xgetLoop, h1, h2, -arr_length]
      rw [if_neg (by omega)]
      rfl
    rw [step]
    obtain ⟨i1, i2, i3, i4, i5⟩ := ih
      { st with
        sets := setInsert r b st.sets
        impossible := match arr b with
          | [e] => insert e st.impossible
          | _ => st.impossible } (nodup_setInsert r hnd)
    refine ⟨i1, fun a => ?_, fun e => ?_, i4, i5⟩
    · rw [i2 a, mem_setInsert, List.mem_cons]; tauto
    · rw [i3 e, List.mem_cons]
      have : (e ∈ (match arr b with
            | [e] => insert e st.impossible
            | _ => st.impossible)) ↔ e ∈ st.impossible ∨ {e} = b := by
        split
        · rename_i d hd
          have : b = {d} := by simpa using congrArg List.toFinset hd
          subst this
          simp [or_comm]
        · rename_i hd
          constructor
          · exact .inl
          · rintro (h | rfl)
            · exact h
            · exact absurd (by simp) (hd e)
      simp only [this]
      tauto

/-- **C57.** A database written with `oput` and read back with `xget`, into any database object,
stores exactly the same conflicts, each once, answers every query alike, and has as impossible
actions exactly the stored singletons. -/
theorem C57_file_round_trip (st st' : CFam) :
    (∀ a, a ∈ (xgetConflicts r (oputConflicts st) st').sets ↔ a ∈ st.sets) ∧
    (xgetConflicts r (oputConflicts st) st').sets.Nodup ∧
    (∀ S, conflictCk (xgetConflicts r (oputConflicts st) st') S = conflictCk st S) ∧
    (∀ e, e ∈ (xgetConflicts r (oputConflicts st) st').impossible ↔ {e} ∈ st.sets) := by
  obtain ⟨i1, i2, i3, -, -⟩ := xgetLoop_encode r st.sets { st' with sets := [], impossible := ∅ }
    List.nodup_nil
  have e : xgetConflicts r (oputConflicts st) st' =
      xgetLoop r st.sets.length (encodeFlat st.sets) { st' with sets := [], impossible := ∅ } := rfl
  rw [e]
  have h : ∀ a, a ∈ (xgetLoop r st.sets.length (encodeFlat st.sets)
      { st' with sets := [], impossible := ∅ }).sets ↔ a ∈ st.sets := by
    intro a; rw [i2]; simp
  refine ⟨h, i1, fun S => ?_, fun e => by rw [i3]; simp⟩
  rw [Bool.eq_iff_iff, conflictCk_iff, conflictCk_iff]
  simp only [Knows, h]

example : (xgetConflicts bySize (oputConflicts ⟨[{3}, {1, 2}, {2, 5, 6}], [], false, {3}⟩)
    ⟨[{8}], [], true, {8}⟩).sets = [{3}, {1, 2}, {2, 5, 6}] := by decide +kernel

theorem bumpSize_getD (t : List ℕ) (sz k : ℕ) :
    (bumpSize t sz).getD k 0 = t.getD k 0 + if k = sz then 1 else 0 := by
  unfold bumpSize
  simp only [List.getD_eq_getElem?_getD, List.getElem?_modify]
  by_cases h : t.length ≤ sz
  · simp only [h, if_true]
    rw [List.getElem?_append]
    by_cases hk : k < t.length
    · have : sz ≠ k := by omega
      simp [hk, this, this.symm]
    · have hk' : t[k]? = none := List.getElem?_eq_none (by omega)
      simp only [hk, if_false, hk', List.getElem?_replicate]
      by_cases hs : sz = k
      · subst hs
        have : sz - t.length < 1 + sz - t.length := by omega
        simp [this]
      · by_cases h2 : k - t.length < 1 + sz - t.length <;> simp [hs, Ne.symm hs, h2]
  · simp only [h, if_false]
    by_cases hs : sz = k
    · subst hs
      have : sz < t.length := by omega
      simp [this]
    · simp [hs, Ne.symm hs]

/-- **C58.** `conflict_sizes` counts the stored conflicts by size: entry `k` of the table (0 beyond
its end) is the number of stored conflicts with `k` members. -/
theorem C58_conflict_sizes (st : CFam) (k : ℕ) :
    (conflictSizes st).getD k 0 = st.sets.countP (fun a => a.card = k) := by
  have key : ∀ (l : List (Finset ℕ)) (t : List ℕ),
      (l.foldl (fun t a => bumpSize t a.card) t).getD k 0 =
        t.getD k 0 + l.countP (fun a => a.card = k) := by
    intro l
    induction l with
    | nil => simp
    | cons a l ih =>
      intro t
      rw [List.foldl_cons, ih, bumpSize_getD, List.countP_cons]
      by_cases h : a.card = k
      · simp [h]; omega
      · have : ¬ k = a.card := fun h' => h h'.symm
        simp [h, this]
  have := key st.sets []
  simpa [conflictSizes] using this

example : conflictSizes ⟨[{3}, {1, 2}, {2, 5, 6}, {7, 8}], [], false, ∅⟩ = [0, 1, 2, 1] := by
  decide +kernel

end Verif.Props
