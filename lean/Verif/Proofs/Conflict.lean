import Verif.Spec.Conflict
import Mathlib.Data.Finset.Sort

/-! Lemmas about the conflict database. -/

set_option linter.unusedSectionVars false

namespace Verif.Model
open Verif.Spec

variable (r : Finset ℕ → Finset ℕ → Prop) [DecidableRel r]

theorem mem_arr {b : Finset ℕ} {x : ℕ} : x ∈ arr b ↔ x ∈ b := by
  simp only [arr, List.mem_filter, List.mem_range, decide_eq_true_eq, and_iff_right_iff_imp]
  intro h
  exact Nat.lt_succ_of_le (Finset.le_sup (f := id) h)

theorem arr_sort (b : Finset ℕ) : arr b = b.sort := by
  have h1 : (arr b).Pairwise (· ≤ ·) :=
    (List.Pairwise.filter _ (List.pairwise_lt_range)).imp fun h => Nat.le_of_lt h
  have h2 : (arr b).Nodup := List.nodup_range.filter _
  refine List.Perm.eq_of_pairwise (le := (· ≤ ·)) (fun _ _ _ _ h1 h2 => le_antisymm h1 h2) h1
    (Finset.pairwise_sort _ _) ?_
  exact (List.perm_ext_iff_of_nodup h2 (Finset.sort_nodup _ _)).2 fun x => by
    rw [mem_arr, Finset.mem_sort]

theorem arr_nodup (b : Finset ℕ) : (arr b).Nodup := by rw [arr_sort]; exact Finset.sort_nodup _ _

theorem arr_pairwise (b : Finset ℕ) : (arr b).Pairwise (· ≤ ·) := by
  rw [arr_sort]; exact Finset.pairwise_sort _ _

@[simp] theorem arr_toFinset (b : Finset ℕ) : (arr b).toFinset = b := by simp [arr_sort]
@[simp] theorem arr_length (b : Finset ℕ) : (arr b).length = b.card := by simp [arr_sort]
@[simp] theorem arr_singleton (e : ℕ) : arr {e} = [e] := by simp [arr_sort]
@[simp] theorem arr_empty : arr ∅ = [] := by simp [arr_sort]

/-- Runs one client operation. -/
def runOp : COp → CFam → Option CFam
  | .add b, st => some (addConflict r b st)
  | .table b, st => some (addTable r b st)
  | .single e, st => some (addImpossible r e st)
  | .fam l, st => some (addFamily r ⟨l, [], false, ∅⟩ st)
  | .flat l, st => addFlat r (l.flatMap fun a => a.length :: a) st
  | .flush, st => some (flushFlat st).2
  | .discard, st => some (flushDiscard st)

/-- Runs a client history. -/
def runOps : List COp → CFam → Option CFam
  | [], st => some st
  | o :: h, st => (runOp r o st).bind (runOps h)

/-- The database knows that `S` is bad. -/
def Knows (st : CFam) (S : Finset ℕ) : Prop := ∃ a ∈ st.sets, a ⊆ S

theorem conflictCk_iff {st : CFam} {S : Finset ℕ} : conflictCk st S = true ↔ Knows st S := by
  simp [conflictCk, Knows]

/-- No stored set contains another, none is stored twice. -/
structure Anti (l : List (Finset ℕ)) : Prop where
  nodup : l.Nodup
  anti : ∀ a ∈ l, ∀ c ∈ l, a ⊆ c → a = c

theorem Anti.sublist {l l' : List (Finset ℕ)} (h : Anti l) (hs : l'.Sublist l) : Anti l' :=
  ⟨h.nodup.sublist hs, fun a ha c hc => h.anti a (hs.subset ha) c (hs.subset hc)⟩

theorem addLoop_snd (b : Finset ℕ) (l : List (Finset ℕ)) :
    (addLoop b l).2 = true ↔ ∃ a ∈ l, a ⊆ b := by
  induction l with
  | nil => simp [addLoop]
  | cons a l ih =>
    unfold addLoop
    by_cases h : a ⊆ b
    · simp [h]
    · by_cases h2 : b ⊆ a <;> simp [h, h2, ih]

theorem addLoop_false {b : Finset ℕ} {l : List (Finset ℕ)} (h : ∀ a ∈ l, ¬ a ⊆ b) :
    (addLoop b l).1 = l.filter (fun a => ¬ b ⊆ a) := by
  induction l with
  | nil => simp [addLoop]
  | cons a l ih =>
    unfold addLoop
    have ha := h a (by simp)
    have ih := ih (fun c hc => h c (by simp [hc]))
    by_cases h2 : b ⊆ a <;> simp [ha, h2, ih]

theorem addLoop_sublist (b : Finset ℕ) (l : List (Finset ℕ)) : (addLoop b l).1.Sublist l := by
  induction l with
  | nil => simp [addLoop]
  | cons a l ih =>
    unfold addLoop
    by_cases h : a ⊆ b
    · simp [h]
    · by_cases h2 : b ⊆ a
      · simp only [h, h2, if_true, if_false]; exact ih.trans (List.sublist_cons_self _ _)
      · simpa [h, h2] using ih

theorem addLoop_kept {b : Finset ℕ} {l : List (Finset ℕ)} {a : Finset ℕ} (ha : a ∈ l)
    (hn : ¬ b ⊆ a ∨ a ⊆ b) : a ∈ (addLoop b l).1 := by
  induction l with
  | nil => simp at ha
  | cons c l ih =>
    unfold addLoop
    by_cases h : c ⊆ b
    · simpa [h] using ha
    · by_cases h2 : b ⊆ c
      · simp only [h, h2, if_true, if_false]
        rcases List.mem_cons.1 ha with rfl | ha
        · tauto
        · exact ih ha
      · simp only [h, h2, if_false]
        rcases List.mem_cons.1 ha with rfl | ha
        · simp
        · exact List.mem_cons_of_mem _ (ih ha)

theorem addLoop_anti {b : Finset ℕ} {l : List (Finset ℕ)} (hl : Anti l)
    (h : (addLoop b l).2 = true) : (addLoop b l).1 = l := by
  obtain ⟨a, ha, hab⟩ := (addLoop_snd b l).1 h
  clear h
  induction l with
  | nil => simp [addLoop]
  | cons c l ih =>
    unfold addLoop
    by_cases h1 : c ⊆ b
    · simp [h1]
    · rcases List.mem_cons.1 ha with rfl | ha'
      · exact absurd hab h1
      · by_cases h2 : b ⊆ c
        · have := hl.anti a ha c (by simp) (hab.trans h2)
          subst this; exact absurd hab h1
        · simp [h1, h2, ih (hl.sublist (List.sublist_cons_self _ _)) ha']

/-- The case of `add_conflict` where the set is already covered. -/
theorem addConflict_covered {b : Finset ℕ} {st : CFam} (h : ∃ a ∈ st.sets, a ⊆ b) :
    addConflict r b st = { st with sets := (addLoop b st.sets).1 } := by
  have := (addLoop_snd b st.sets).2 h
  unfold addConflict
  rcases hx : addLoop b st.sets with ⟨l, e⟩
  rw [hx] at this
  simp at this; subst this; rfl

/-- The case of `add_conflict` where the set is new. -/
theorem addConflict_new {b : Finset ℕ} {st : CFam} (h : ¬ ∃ a ∈ st.sets, a ⊆ b) :
    addConflict r b st =
      { sets := (st.sets.filter (fun a => ¬ b ⊆ a)).orderedInsert r b
        newSets := if st.recording then st.newSets ++ [b] else st.newSets
        recording := st.recording
        impossible :=
          match arr b with
          | [e] => insert e st.impossible
          | _ => st.impossible } := by
  have h2 : (addLoop b st.sets).2 ≠ true := fun hh => h ((addLoop_snd b st.sets).1 hh)
  have h3 := addLoop_false (b := b) (l := st.sets) (fun a ha hab => h ⟨a, ha, hab⟩)
  unfold addConflict
  rcases hx : addLoop b st.sets with ⟨l, e⟩
  rw [hx] at h2 h3
  cases e
  · simp only at h3; subst h3; rfl
  · simp at h2

theorem addConflict_knows {b S : Finset ℕ} {st : CFam} :
    Knows (addConflict r b st) S ↔ Knows st S ∨ b ⊆ S := by
  by_cases h : ∃ a ∈ st.sets, a ⊆ b
  · rw [addConflict_covered r h]
    obtain ⟨a, ha, hab⟩ := h
    constructor
    · rintro ⟨c, hc, hcS⟩
      exact .inl ⟨c, (addLoop_sublist b st.sets).subset hc, hcS⟩
    · rintro (⟨c, hc, hcS⟩ | hbS)
      · by_cases hk : ¬ b ⊆ c ∨ c ⊆ b
        · exact ⟨c, addLoop_kept hc hk, hcS⟩
        · push Not at hk
          exact ⟨a, addLoop_kept ha (.inr hab), (hab.trans hk.1).trans hcS⟩
      · exact ⟨a, addLoop_kept ha (.inr hab), hab.trans hbS⟩
  · rw [addConflict_new r h]
    simp only [Knows, List.mem_orderedInsert]
    constructor
    · rintro ⟨c, rfl | hc, hcS⟩
      · exact .inr hcS
      · exact .inl ⟨c, (List.mem_filter.1 hc).1, hcS⟩
    · rintro (⟨c, hc, hcS⟩ | hbS)
      · by_cases hbc : b ⊆ c
        · exact ⟨b, .inl rfl, hbc.trans hcS⟩
        · exact ⟨c, .inr (List.mem_filter.2 ⟨hc, by simpa using hbc⟩), hcS⟩
      · exact ⟨b, .inl rfl, hbS⟩

theorem addConflict_anti {b : Finset ℕ} {st : CFam} (hst : Anti st.sets) :
    Anti (addConflict r b st).sets := by
  by_cases h : ∃ a ∈ st.sets, a ⊆ b
  · rw [addConflict_covered r h]; exact hst.sublist (addLoop_sublist _ _)
  · rw [addConflict_new r h]
    have hf : Anti (st.sets.filter (fun a => ¬ b ⊆ a)) := hst.sublist List.filter_sublist
    refine ⟨?_, ?_⟩
    · refine (List.perm_orderedInsert r b _).nodup_iff.2 (List.nodup_cons.2 ⟨?_, hf.nodup⟩)
      intro hb
      exact h ⟨b, (List.mem_filter.1 hb).1, subset_rfl⟩
    · simp only [List.mem_orderedInsert]
      rintro a (rfl | ha) c (rfl | hc) hac
      · rfl
      · exact absurd hac (by simpa using (List.mem_filter.1 hc).2)
      · exact absurd ⟨a, (List.mem_filter.1 ha).1, hac⟩ h
      · exact hf.anti a ha c hc hac

theorem addConflict_recording {b : Finset ℕ} {st : CFam} :
    (addConflict r b st).recording = st.recording := by
  unfold addConflict; split <;> rfl

theorem addConflict_mem {b a : Finset ℕ} {st : CFam} (h : a ∈ (addConflict r b st).sets) :
    a ∈ st.sets ∨ a = b := by
  by_cases hc : ∃ a ∈ st.sets, a ⊆ b
  · rw [addConflict_covered r hc] at h; exact .inl ((addLoop_sublist _ _).subset h)
  · rw [addConflict_new r hc] at h
    rcases (List.mem_orderedInsert r).1 h with h | h
    · exact .inr h
    · exact .inl (List.mem_filter.1 h).1

/-- Adding a sequence of conflicts one by one. -/
def addAll (l : List (Finset ℕ)) (st : CFam) : CFam := l.foldl (fun st a => addConflict r a st) st

theorem addAll_nil (st : CFam) : addAll r [] st = st := rfl

theorem addAll_cons (b : Finset ℕ) (l : List (Finset ℕ)) (st : CFam) :
    addAll r (b :: l) st = addAll r l (addConflict r b st) := rfl

theorem addAll_append (l l' : List (Finset ℕ)) (st : CFam) :
    addAll r (l ++ l') st = addAll r l' (addAll r l st) := by
  simp [addAll]

theorem addAll_knows {l : List (Finset ℕ)} {st : CFam} {S : Finset ℕ} :
    Knows (addAll r l st) S ↔ Knows st S ∨ Forbidden l S := by
  induction l generalizing st with
  | nil => simp [addAll, Forbidden]
  | cons b l ih =>
    rw [addAll_cons, ih, addConflict_knows]
    simp [Forbidden, or_assoc]

theorem addAll_anti {l : List (Finset ℕ)} {st : CFam} (h : Anti st.sets) :
    Anti (addAll r l st).sets := by
  induction l generalizing st with
  | nil => exact h
  | cons b l ih => exact ih (addConflict_anti r h)

theorem addAll_mem {l : List (Finset ℕ)} {st : CFam} {a : Finset ℕ}
    (h : a ∈ (addAll r l st).sets) : a ∈ st.sets ∨ a ∈ l := by
  induction l generalizing st with
  | nil => exact .inl h
  | cons b l ih =>
    rcases ih h with h | h
    · rcases addConflict_mem r h with h | rfl
      · exact .inl h
      · exact .inr (by simp)
    · exact .inr (by simp [h])

theorem addAll_recording {l : List (Finset ℕ)} {st : CFam} :
    (addAll r l st).recording = st.recording := by
  induction l generalizing st with
  | nil => rfl
  | cons b l ih => rw [addAll_cons, ih, addConflict_recording]

theorem addFlatFuel_encode (ls : List (List ℕ)) (fuel : ℕ) (st : CFam)
    (hf : (ls.flatMap fun a => a.length :: a).length < fuel) :
    addFlatFuel r fuel (ls.flatMap fun a => a.length :: a) st =
      some (addAll r (ls.map List.toFinset) st) := by
  induction ls generalizing fuel st with
  | nil => cases fuel <;> simp [addFlatFuel, addAll]
  | cons a ls ih =>
    cases fuel with
    | zero => simp at hf
    | succ fuel =>
      simp only [List.flatMap_cons, List.cons_append, List.length_cons, List.length_append] at hf ⊢
      rw [addFlatFuel, if_neg (by simp), List.drop_left, List.take_left, ih _ _ (by omega)]
      rfl

theorem addFlat_encode (ls : List (List ℕ)) (st : CFam) :
    addFlat r (ls.flatMap fun a => a.length :: a) st =
      some (addAll r (ls.map List.toFinset) st) :=
  addFlatFuel_encode r ls _ st (Nat.lt_succ_self _)

theorem addFlat_encodeFlat (l : List (Finset ℕ)) (st : CFam) :
    addFlat r (encodeFlat l) st = some (addAll r l st) := by
  have h := addFlat_encode r (l.map fun a => arr a) st
  have e1 : ((l.map fun a => arr a).flatMap fun a => a.length :: a) = encodeFlat l := by
    simp [encodeFlat, List.flatMap_map]
  have e2 : (l.map fun a => arr a).map List.toFinset = l := by
    rw [List.map_map]; conv_rhs => rw [← List.map_id l]
    apply List.map_congr_left
    intro a _; simp
  rw [e1, e2] at h
  exact h

theorem forbidden_append {k l : List (Finset ℕ)} {S : Finset ℕ} :
    Forbidden (k ++ l) S ↔ Forbidden k S ∨ Forbidden l S := by
  simp only [Forbidden, List.mem_append, or_and_right, exists_or]

theorem forbidden_cons {b : Finset ℕ} {l : List (Finset ℕ)} {S : Finset ℕ} :
    Forbidden (b :: l) S ↔ b ⊆ S ∨ Forbidden l S := by
  simp [Forbidden]

theorem forbidden_nil {S : Finset ℕ} : ¬ Forbidden [] S := by simp [Forbidden]

theorem news_pos {k l : List (Finset ℕ)} {b : Finset ℕ} (h : Forbidden k b) :
    news k (b :: l) = news k l := by
  rw [news, if_pos]; exact h

theorem news_neg {k l : List (Finset ℕ)} {b : Finset ℕ} (h : ¬ Forbidden k b) :
    news k (b :: l) = b :: news (k ++ [b]) l := by
  rw [news, if_neg]; exact h

/-- `news` grows with the known list only through what it covers. -/
theorem news_congr {k k' : List (Finset ℕ)} (l : List (Finset ℕ))
    (h : ∀ S, Forbidden k S ↔ Forbidden k' S) : news k l = news k' l := by
  induction l generalizing k k' with
  | nil => rfl
  | cons b l ih =>
    have hn : ∀ S, Forbidden (k ++ [b]) S ↔ Forbidden (k' ++ [b]) S := by
      intro S
      rw [forbidden_append, forbidden_append, h]
    by_cases hk : Forbidden k b
    · rw [news_pos hk, news_pos ((h b).1 hk)]; exact ih h
    · rw [news_neg hk, news_neg (fun hk' => hk ((h b).2 hk')), ih hn]

theorem addAll_newSets {l : List (Finset ℕ)} {st : CFam} (hrec : st.recording = true) :
    (addAll r l st).newSets = st.newSets ++ news st.sets l := by
  induction l generalizing st with
  | nil => simp [addAll, news]
  | cons b l ih =>
    rw [addAll_cons, ih (by rw [addConflict_recording, hrec])]
    have hcg : ∀ S, Forbidden (addConflict r b st).sets S ↔ Forbidden (st.sets ++ [b]) S := by
      intro S
      rw [forbidden_append, forbidden_cons]
      have : Forbidden (addConflict r b st).sets S ↔ Forbidden st.sets S ∨ b ⊆ S :=
        addConflict_knows r (b := b) (S := S) (st := st)
      simpa [forbidden_nil] using this
    by_cases h : Forbidden st.sets b
    · have e : (addConflict r b st).newSets = st.newSets := by rw [addConflict_covered r h]
      rw [e, news_pos h]
      congr 1
      refine news_congr l fun S => ?_
      rw [hcg, forbidden_append, forbidden_cons]
      obtain ⟨a, ha, hab⟩ := h
      constructor
      · rintro (h | h | h)
        · exact h
        · exact ⟨a, ha, hab.trans h⟩
        · exact absurd h forbidden_nil
      · exact .inl
    · have e : (addConflict r b st).newSets = st.newSets ++ [b] := by
        rw [addConflict_new r h]; simp [hrec]
      rw [e, news_neg h, List.append_assoc, List.singleton_append, news_congr l hcg]

theorem addAll_newSets_off {l : List (Finset ℕ)} {st : CFam} (hrec : st.recording = false) :
    (addAll r l st).newSets = st.newSets := by
  induction l generalizing st with
  | nil => rfl
  | cons b l ih =>
    rw [addAll_cons, ih (by rw [addConflict_recording, hrec])]
    unfold addConflict; split <;> simp [hrec]

/-- What `add_conflicts(const ConflictFamily&)` does beyond ignoring members already stored. -/
theorem addFamily_eq (l : List (Finset ℕ)) (st : CFam) :
    addFamily r ⟨l, [], false, ∅⟩ st = addAll r (l.filter (fun a => a ∉ st.sets)) st := rfl

theorem news_filter (k m l : List (Finset ℕ)) (hm : ∀ a ∈ m, Forbidden k a) :
    news k (l.filter (fun a => a ∉ m)) = news k l := by
  induction l generalizing k with
  | nil => rfl
  | cons b l ih =>
    have hm' : ∀ a ∈ m, Forbidden (k ++ [b]) a := fun a ha => by
      obtain ⟨c, hc, hca⟩ := hm a ha
      exact ⟨c, by simp [hc], hca⟩
    by_cases hb : b ∈ m
    · rw [List.filter_cons_of_neg (by simpa using hb), ih k hm]
      rw [news_pos (hm b hb)]
    · rw [List.filter_cons_of_pos (by simpa using hb)]
      by_cases hk : Forbidden k b
      · rw [news_pos hk, news_pos hk, ih k hm]
      · rw [news_neg hk, news_neg hk, ih _ hm']

/-- Message conflicts are covered by what is new together with what was known. -/
theorem forbidden_news {k l : List (Finset ℕ)} {S : Finset ℕ} :
    Forbidden k S ∨ Forbidden (news k l) S ↔ Forbidden k S ∨ Forbidden l S := by
  induction l generalizing k with
  | nil => simp [news]
  | cons b l ih =>
    by_cases h : Forbidden k b
    · rw [news_pos h, ih, forbidden_cons]
      obtain ⟨a, ha, hab⟩ := h
      have : b ⊆ S → Forbidden k S := fun hb => ⟨a, ha, hab.trans hb⟩
      tauto
    · rw [news_neg h]
      have := ih (k := k ++ [b])
      rw [forbidden_append, forbidden_cons] at this
      rw [forbidden_cons, forbidden_cons]
      have hn := forbidden_nil (S := S)
      tauto

/-- One operation: what it does to the stored sets and to the outbox. -/
theorem runOp_spec (o : COp) (st : CFam) :
    ∃ st', runOp r o st = some st' ∧
      (∀ S, Knows st' S ↔ Knows st S ∨ Forbidden o.learned S) ∧
      (Anti st.sets → Anti st'.sets) ∧
      (∀ a ∈ st'.sets, a ∈ st.sets ∨ a ∈ o.learned) := by
  have key : ∀ l st', st' = addAll r l st → l = o.learned →
      (∀ S, Knows st' S ↔ Knows st S ∨ Forbidden o.learned S) ∧
      (Anti st.sets → Anti st'.sets) ∧
      (∀ a ∈ st'.sets, a ∈ st.sets ∨ a ∈ o.learned) := by
    rintro l st' rfl hl
    subst hl
    exact ⟨fun S => addAll_knows r, addAll_anti r, fun a ha => addAll_mem r ha⟩
  cases o with
  | add b => exact ⟨_, rfl, key [b] _ rfl rfl⟩
  | table b => exact ⟨_, rfl, key [b.toFinset] _ rfl rfl⟩
  | single e => exact ⟨_, rfl, key [{e}] _ rfl rfl⟩
  | flat l => exact ⟨_, addFlat_encode r l st, key _ _ rfl rfl⟩
  | fam l =>
    refine ⟨_, rfl, ?_, ?_, ?_⟩
    · intro S
      rw [addFamily_eq, addAll_knows]
      constructor
      · rintro (h | ⟨c, hc, hcS⟩)
        · exact .inl h
        · exact .inr ⟨c, (List.mem_filter.1 hc).1, hcS⟩
      · rintro (h | ⟨c, hc, hcS⟩)
        · exact .inl h
        · by_cases hm : c ∈ st.sets
          · exact .inl ⟨c, hm, hcS⟩
          · exact .inr ⟨c, List.mem_filter.2 ⟨hc, by simpa using hm⟩, hcS⟩
    · exact addAll_anti r
    · intro a ha
      rcases addAll_mem r ha with h | h
      · exact .inl h
      · exact .inr (List.mem_filter.1 h).1
  | flush =>
    have hs : (flushFlat st).2.sets = st.sets := by unfold flushFlat; split <;> rfl
    refine ⟨_, rfl, ?_, ?_, ?_⟩
    · intro S; simp [Knows, hs, COp.learned, Forbidden]
    · rw [hs]; exact id
    · rw [hs]; exact fun a ha => .inl ha
  | discard =>
    exact ⟨_, rfl, fun S => by simp [Knows, flushDiscard, COp.learned, Forbidden], id,
      fun a ha => .inl ha⟩

theorem runOps_spec (h : List COp) (st : CFam) :
    ∃ st', runOps r h st = some st' ∧
      (∀ S, Knows st' S ↔ Knows st S ∨ Forbidden (learnedAll h) S) ∧
      (Anti st.sets → Anti st'.sets) ∧
      (∀ a ∈ st'.sets, a ∈ st.sets ∨ a ∈ learnedAll h) := by
  induction h generalizing st with
  | nil => exact ⟨st, rfl, by simp [learnedAll, Forbidden], id, fun a ha => .inl ha⟩
  | cons o h ih =>
    obtain ⟨s1, e1, k1, a1, m1⟩ := runOp_spec r o st
    obtain ⟨s2, e2, k2, a2, m2⟩ := ih s1
    refine ⟨s2, by simp [runOps, e1, e2], ?_, fun hh => a2 (a1 hh), ?_⟩
    · intro S
      rw [k2, k1]
      simp only [learnedAll, List.flatMap_cons, Forbidden, List.mem_append, or_and_right,
        exists_or, or_assoc]
    · intro a ha
      simp only [learnedAll, List.flatMap_cons, List.mem_append]
      rcases m2 a ha with h | h
      · rcases m1 a h with h | h <;> simp [h]
      · exact .inr (.inr h)

theorem anti_nil : Anti [] := ⟨List.nodup_nil, by simp⟩

/-- An operation that leaves the outbox alone. -/
def COp.Quiet : COp → Prop
  | .flush => False
  | .discard => False
  | _ => True

theorem runOp_outbox {o : COp} (hq : COp.Quiet o) {st st' : CFam} (h : runOp r o st = some st') :
    st'.recording = st.recording ∧
    (st.recording = true → st'.newSets = st.newSets ++ news st.sets o.learned) ∧
    (st.recording = false → st'.newSets = st.newSets) := by
  have key : ∀ l, some (addAll r l st) = some st' → news st.sets l = news st.sets o.learned →
      st'.recording = st.recording ∧
      (st.recording = true → st'.newSets = st.newSets ++ news st.sets o.learned) ∧
      (st.recording = false → st'.newSets = st.newSets) := by
    rintro l hl hn
    obtain rfl := Option.some.inj hl
    rw [← hn]
    exact ⟨addAll_recording r, addAll_newSets r, addAll_newSets_off r⟩
  cases o with
  | add b => exact key [b] h rfl
  | table b => exact key [b.toFinset] h rfl
  | single e => exact key [{e}] h rfl
  | flat l => exact key _ ((addFlat_encode r l st).symm.trans h) rfl
  | fam l => exact key _ h (news_filter _ _ _ fun a ha => ⟨a, ha, subset_rfl⟩)
  | flush => exact hq.elim
  | discard => exact hq.elim

theorem news_append (k l l' : List (Finset ℕ)) :
    news k (l ++ l') = news k l ++ news (k ++ l) l' := by
  induction l generalizing k with
  | nil => simp [news]
  | cons b l ih =>
    rw [List.cons_append]
    by_cases h : Forbidden k b
    · rw [news_pos h, news_pos h, ih]
      congr 1
      refine news_congr _ fun S => ?_
      rw [forbidden_append, forbidden_append, forbidden_cons]
      obtain ⟨a, ha, hab⟩ := h
      have : b ⊆ S → Forbidden k S := fun hb => ⟨a, ha, hab.trans hb⟩
      tauto
    · rw [news_neg h, news_neg h, ih, List.cons_append]
      simp

theorem runOps_outbox {h : List COp} (hq : ∀ o ∈ h, COp.Quiet o) {st st' : CFam}
    (hr : runOps r h st = some st') :
    st'.recording = st.recording ∧
    (st.recording = true → st'.newSets = st.newSets ++ news st.sets (learnedAll h)) ∧
    (st.recording = false → st'.newSets = st.newSets) := by
  induction h generalizing st with
  | nil =>
    obtain rfl : st = st' := by simpa [runOps] using hr
    simp [learnedAll, news]
  | cons o h ih =>
    obtain ⟨s1, e1, k1, _, _⟩ := runOp_spec r o st
    have hr' : runOps r h s1 = some st' := by simpa [runOps, e1] using hr
    obtain ⟨a1, b1, c1⟩ := runOp_outbox r (hq o (by simp)) e1
    obtain ⟨a2, b2, c2⟩ := ih (fun o ho => hq o (by simp [ho])) hr'
    refine ⟨a2.trans a1, fun hrec => ?_, fun hrec => ?_⟩
    · rw [b2 (a1.trans hrec), b1 hrec, List.append_assoc]
      congr 1
      simp only [learnedAll, List.flatMap_cons]
      rw [news_append]
      congr 1
      refine news_congr _ fun S => ?_
      rw [forbidden_append]
      exact k1 S
    · rw [c2 (a1.trans hrec), c1 hrec]

theorem flushFlat_eq (st : CFam) :
    (flushFlat st).1 = encodeFlat (flushSets st).1 ∧ (flushFlat st).2 = (flushSets st).2 := by
  unfold flushFlat flushSets
  split <;> simp [allConflictsFlat, allConflicts]

/-! Impossible actions. -/

theorem addConflict_impossible {b : Finset ℕ} {st : CFam} {e : ℕ} :
    e ∈ (addConflict r b st).impossible ↔
      e ∈ st.impossible ∨ (b = {e} ∧ ¬ Knows st b) := by
  by_cases h : ∃ a ∈ st.sets, a ⊆ b
  · rw [addConflict_covered r h]
    simp [Knows, h]
  · rw [addConflict_new r h]
    have hk : ¬ Knows st b := h
    simp only [hk, not_false_eq_true, and_true]
    split
    · rename_i d hd
      have : b = {d} := by
        have := congrArg List.toFinset hd
        simpa using this
      subst this
      simp [or_comm, eq_comm]
    · rename_i hd
      constructor
      · exact .inl
      · rintro (h | rfl)
        · exact h
        · exact absurd (by simp) (hd e)

theorem addAll_impossible {l : List (Finset ℕ)} {st : CFam} {e : ℕ} :
    (e ∈ (addAll r l st).impossible → e ∈ st.impossible ∨ {e} ∈ l) ∧
    (e ∈ st.impossible → e ∈ (addAll r l st).impossible) ∧
    ({e} ∈ l → ¬ Knows (addAll r l st) ∅ → (Knows st {e} → e ∈ st.impossible) →
      e ∈ (addAll r l st).impossible) := by
  induction l generalizing st with
  | nil => simp [addAll]
  | cons b l ih =>
    obtain ⟨i1, i2, i3⟩ := ih (st := addConflict r b st)
    rw [addAll_cons]
    refine ⟨fun h => ?_, fun h => i2 ((addConflict_impossible r).2 (.inl h)), fun h hn hk => ?_⟩
    · rcases i1 h with h | h
      · rcases (addConflict_impossible r).1 h with h | ⟨rfl, _⟩
        · exact .inl h
        · exact .inr (by simp)
      · exact .inr (by simp [h])
    · rcases List.mem_cons.1 h with rfl | h
      · apply i2
        by_cases hk' : Knows st {e}
        · exact (addConflict_impossible r).2 (.inl (hk hk'))
        · exact (addConflict_impossible r).2 (.inr ⟨rfl, hk'⟩)
      · refine i3 h hn fun hk' => ?_
        rcases (addConflict_knows r).1 hk' with hk' | hk'
        · exact (addConflict_impossible r).2 (.inl (hk hk'))
        · rcases Finset.subset_singleton_iff.1 hk' with rfl | rfl
          · exact absurd ((addAll_knows r).2 (.inl ((addConflict_knows r).2 (.inr subset_rfl)))) hn
          · by_cases hk' : Knows st {e}
            · exact (addConflict_impossible r).2 (.inl (hk hk'))
            · exact (addConflict_impossible r).2 (.inr ⟨rfl, hk'⟩)

theorem anti_nil_knows {l : List (Finset ℕ)} (h : Anti l) (h0 : ∅ ∈ l) : l = [∅] := by
  have : ∀ a ∈ l, a = ∅ := fun a ha => (h.anti ∅ h0 a ha (Finset.empty_subset _)).symm
  rcases l with _ | ⟨a, _ | ⟨c, l⟩⟩
  · simp at h0
  · rw [this a (by simp)]
  · have ha := this a (by simp); have hc := this c (by simp)
    subst ha; subst hc
    have := h.nodup
    simp at this

theorem knows_empty {st : CFam} : Knows st ∅ ↔ ∅ ∈ st.sets := by
  simp [Knows, Finset.subset_empty]

theorem satCk_iff {st : CFam} (h : Anti st.sets) : satCk st = false ↔ ∅ ∈ st.sets := by
  constructor
  · intro hs
    unfold satCk at hs
    split at hs
    · rename_i e he
      rw [he]
      have : e = ∅ := by simpa [Finset.card_eq_zero] using hs
      simp [this]
    · simp at hs
  · intro h0
    unfold satCk
    rw [anti_nil_knows h h0]
    simp

end Verif.Model
