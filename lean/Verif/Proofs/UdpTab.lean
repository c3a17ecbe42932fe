import Verif.Spec.UdpTab
import Mathlib.Data.List.Basic
import Mathlib.Data.List.Induction
import Mathlib.Data.List.Nodup
import Mathlib.Tactic.Common
import Mathlib.Tactic.SplitIfs

/-!
Helpers for the channels and tables of the UDP implementation: rounds, owners, channels, tests.
-/

namespace Verif.Proofs
open Verif.Model Verif.Spec

theorem mem_rounds {pcs : List (List UAcc)} {p : ℕ} {a : UAcc} :
    (p, a) ∈ udpRounds pcs ↔ ∃ pc, pcs[p]? = some pc ∧ a ∈ pc ∧ a.puppet = true := by
  simp only [udpRounds, List.mem_flatMap, List.mem_map, udpVbls, List.mem_filter, Prod.mk.injEq]
  constructor
  · rintro ⟨⟨pc, k⟩, hk, b, hb, rfl, rfl⟩
    exact ⟨pc, List.mem_zipIdx_iff_getElem?.1 hk, hb⟩
  · rintro ⟨pc, hp, h⟩
    exact ⟨(pc, p), List.mem_zipIdx_iff_getElem?.2 hp, a, h, rfl, rfl⟩

theorem rounds_lt {pcs : List (List UAcc)} {e : ℕ × UAcc} (h : e ∈ udpRounds pcs) : e.1 < pcs.length := by
  obtain ⟨p, a⟩ := e
  obtain ⟨pc, hp, -⟩ := mem_rounds.1 h
  exact (List.getElem?_eq_some_iff.1 hp).1

theorem zipIdx_sorted {α : Type} (l : List α) (k : ℕ) :
    (l.zipIdx k).Pairwise (fun x y => x.2 < y.2) := by
  induction l generalizing k with
  | nil => simp
  | cons a l ih =>
    rw [List.zipIdx_cons, List.pairwise_cons]
    refine ⟨fun y hy => ?_, ih (k + 1)⟩
    have := List.le_snd_of_mem_zipIdx hy
    show k < y.2
    omega

theorem rounds_sorted (pcs : List (List UAcc)) : (udpRounds pcs).Pairwise (fun e f => e.1 ≤ f.1) := by
  rw [udpRounds, List.pairwise_flatMap]
  refine ⟨fun x _ => ?_, (zipIdx_sorted pcs 0).imp ?_⟩
  · rw [List.pairwise_map]
    exact List.pairwise_of_forall fun _ _ => Nat.le_refl _
  · intro x y hxy e he f hf
    obtain ⟨a, -, rfl⟩ := List.mem_map.1 he
    obtain ⟨b, -, rfl⟩ := List.mem_map.1 hf
    exact Nat.le_of_lt hxy

/-- A fold that sets the owner of a variable that has none. -/
theorem own_fold {n : ℕ} {P : ℕ × UAcc → Bool} (step : (ℕ → ℕ) → ℕ × UAcc → ℕ → ℕ)
    (hs : ∀ own e, step own e = if P e = true ∧ own e.2.vbl = n then Function.update own e.2.vbl e.1 else own)
    (v : ℕ) : ∀ (E : List (ℕ × UAcc)) (own : ℕ → ℕ), (∀ e ∈ E, e.1 ≠ n) →
    E.foldl step own v = if own v = n then ((E.find? fun e => P e && decide (e.2.vbl = v)).map (·.1)).getD n else own v := by
  intro E
  induction E with
  | nil => intro own _; by_cases h : own v = n <;> simp [h]
  | cons e E ih =>
    intro own hE
    rw [List.foldl_cons, ih _ fun f hf => hE f (List.mem_cons_of_mem _ hf), hs]
    have he := hE e List.mem_cons_self
    by_cases hv : e.2.vbl = v
    · subst hv
      by_cases hP : P e = true
      · by_cases ho : own e.2.vbl = n
        · simp [hP, ho, he]
        · simp [ho]
      · simp [hP]
    · have hv' : v ≠ e.2.vbl := fun h => hv h.symm
      have : (if P e = true ∧ own e.2.vbl = n then Function.update own e.2.vbl e.1 else own) v = own v := by
        split_ifs
        · exact Function.update_of_ne hv' _ _
        · rfl
      rw [this, List.find?_cons]
      simp [hv]

theorem find_first {E : List (ℕ × UAcc)} (hE : E.Pairwise fun e f => e.1 ≤ f.1) {P : ℕ × UAcc → Bool} {e : ℕ × UAcc}
    (h : E.find? P = some e) : P e = true ∧ e ∈ E ∧ ∀ f ∈ E, P f = true → e.1 ≤ f.1 := by
  refine ⟨List.find?_some h, List.mem_of_find?_eq_some h, fun f hf hP => ?_⟩
  obtain ⟨-, as, bs, rfl, has⟩ := List.find?_eq_some_iff_append.1 h
  rw [List.pairwise_append, List.pairwise_cons] at hE
  rcases List.mem_append.1 hf with hf | hf
  · have := has f hf
    simp [hP] at this
  · rcases List.mem_cons.1 hf with rfl | hf
    · exact Nat.le_refl _
    · exact hE.2.1.1 f hf

theorem writes_iff {pcs : List (List UAcc)} {p v : ℕ} :
    WritesV pcs p v ↔ ∃ a, (p, a) ∈ udpRounds pcs ∧ a.write = true ∧ a.vbl = v := by
  constructor
  · rintro ⟨pc, hp, a, ha, h1, h2, h3⟩
    exact ⟨a, mem_rounds.2 ⟨pc, hp, ha, h1⟩, h2, h3⟩
  · rintro ⟨a, ha, h2, h3⟩
    obtain ⟨pc, hp, ha, h1⟩ := mem_rounds.1 ha
    exact ⟨pc, hp, a, ha, h1, h2, h3⟩

theorem reads_iff {pcs : List (List UAcc)} {p v : ℕ} :
    HasV pcs p v ↔ ∃ a, (p, a) ∈ udpRounds pcs ∧ a.vbl = v := by
  constructor
  · rintro ⟨pc, hp, a, ha, h1, h3⟩
    exact ⟨a, mem_rounds.2 ⟨pc, hp, ha, h1⟩, h3⟩
  · rintro ⟨a, ha, h3⟩
    obtain ⟨pc, hp, ha, h1⟩ := mem_rounds.1 ha
    exact ⟨pc, hp, a, ha, h1, h3⟩

theorem writes_reads {pcs : List (List UAcc)} {p v : ℕ} (h : WritesV pcs p v) : HasV pcs p v := by
  obtain ⟨a, ha, -, hv⟩ := writes_iff.1 h
  exact reads_iff.2 ⟨a, ha, hv⟩

theorem owns_unique {pcs : List (List UAcc)} {p q v : ℕ} (hp : OwnsV pcs p v) (hq : OwnsV pcs q v) : p = q := by
  rcases hp with ⟨h1, h2⟩ | ⟨h1, h2, h3⟩ <;> rcases hq with ⟨k1, k2⟩ | ⟨k1, k2, k3⟩
  · rcases Nat.lt_trichotomy p q with h | h | h
    · exact absurd h1 (k2 p h)
    · exact h
    · exact absurd k1 (h2 q h)
  · exact absurd h1 (k1 p)
  · exact absurd k1 (h1 q)
  · rcases Nat.lt_trichotomy p q with h | h | h
    · exact absurd h2 (k3 p h)
    · exact h
    · exact absurd k2 (h3 q h)

theorem owns_reads {pcs : List (List UAcc)} {p v : ℕ} (h : OwnsV pcs p v) : HasV pcs p v := by
  rcases h with h | h
  · exact writes_reads h.1
  · exact h.2.1

/-- The owner of a variable that some process has. -/
theorem owning_spec {pcs : List (List UAcc)} {q v : ℕ} (hq : HasV pcs q v) : OwnsV pcs (udpOwning pcs v) v := by
  have hlt : ∀ e ∈ udpRounds pcs, e.1 ≠ pcs.length := fun e he => Nat.ne_of_lt (rounds_lt he)
  have hW := own_fold (P := fun e => e.2.write) (ownWriter pcs.length) (fun own e => rfl) v (udpRounds pcs)
    (fun _ => pcs.length) hlt
  have hR := own_fold (P := fun _ => true) (ownReader pcs.length) (fun own e => by simp [ownReader]) v (udpRounds pcs)
    ((udpRounds pcs).foldl (ownWriter pcs.length) fun _ => pcs.length) hlt
  rw [show udpOwning pcs v = _ from hR, hW, if_pos rfl]
  cases hf : (udpRounds pcs).find? fun e => e.2.write && decide (e.2.vbl = v) with
  | some e =>
    obtain ⟨h1, h2, h3⟩ := find_first (rounds_sorted pcs) hf
    simp only [Bool.and_eq_true, decide_eq_true_eq] at h1
    simp only [Option.map_some, Option.getD_some, hlt e h2, if_false]
    refine Or.inl ⟨writes_iff.2 ⟨e.2, h2, h1⟩, fun p hp hw => ?_⟩
    obtain ⟨a, ha, k1, k2⟩ := writes_iff.1 hw
    have := h3 _ ha (by simp [k1, k2])
    simp only at this
    omega
  | none =>
    have hno : ∀ p, ¬WritesV pcs p v := fun p hw => by
      obtain ⟨a, ha, k1, k2⟩ := writes_iff.1 hw
      have := List.find?_eq_none.1 hf _ ha
      simp [k1, k2] at this
    simp only [Option.map_none, Option.getD_none, if_true]
    cases hg : (udpRounds pcs).find? fun e => true && decide (e.2.vbl = v) with
    | some e =>
      obtain ⟨h1, h2, h3⟩ := find_first (rounds_sorted pcs) hg
      simp only [Bool.true_and, decide_eq_true_eq] at h1
      refine Or.inr ⟨hno, reads_iff.2 ⟨e.2, h2, h1⟩, fun p hp hw => ?_⟩
      obtain ⟨a, ha, k2⟩ := reads_iff.1 hw
      have := h3 _ ha (by simp [k2])
      simp only [Option.map_some, Option.getD_some] at this hp
      omega
    | none =>
      obtain ⟨a, ha, k2⟩ := reads_iff.1 hq
      have := List.find?_eq_none.1 hg _ ha
      simp [k2] at this

theorem owning_iff {pcs : List (List UAcc)} {p q v : ℕ} (hq : HasV pcs q v) :
    udpOwning pcs v = p ↔ OwnsV pcs p v :=
  ⟨fun h => h ▸ owning_spec hq, fun h => owns_unique (owning_spec hq) h⟩

/-- Channels and the map agree. -/
def NetWF (st : UTabNet) : Prop :=
  ∀ p q i, st.cmap p q = some i ↔ ∃ ch, (st.chans p)[i]? = some ch ∧ ch.pc = q

/-- The variables of the channel of `p` to `q`. -/
def chanVbls (st : UTabNet) (p q : ℕ) : List ℕ :=
  (((st.cmap p q).bind fun i => (st.chans p)[i]?).map (·.vbls)).getD []

theorem ensure_some {st : UTabNet} (h : NetWF st) {p q i : ℕ} (hi : st.cmap p q = some i) : ensureChan st p q = (st, i) := by
  obtain ⟨ch, hch, -⟩ := (h p q i).1 hi
  have hlt := (List.getElem?_eq_some_iff.1 hch).1
  have h2 : Function.update (st.cmap p) q (some i) = st.cmap p := by rw [← hi, Function.update_eq_self]
  simp only [ensureChan, hi, Option.getD_some, Nat.ne_of_lt hlt, if_false, h2, Function.update_eq_self]

theorem ensure_none {st : UTabNet} {p q : ℕ} (hi : st.cmap p q = none) :
    ensureChan st p q = (⟨Function.update st.chans p (st.chans p ++ [⟨q, []⟩]),
      Function.update st.cmap p (Function.update (st.cmap p) q (some (st.chans p).length))⟩, (st.chans p).length) := by
  simp [ensureChan, hi]

theorem ensure_spec {st : UTabNet} (h : NetWF st) (p q : ℕ) :
    NetWF (ensureChan st p q).1 ∧ (ensureChan st p q).1.cmap p q = some (ensureChan st p q).2 ∧
    (∀ p' q', ((ensureChan st p q).1.cmap p' q').isSome = true ↔ (st.cmap p' q').isSome = true ∨ (p' = p ∧ q' = q)) ∧
    ∀ p' q', chanVbls (ensureChan st p q).1 p' q' = chanVbls st p' q' := by
  cases hi : st.cmap p q with
  | some i =>
    rw [ensure_some h hi]
    refine ⟨h, hi, fun p' q' => ⟨Or.inl, ?_⟩, fun _ _ => rfl⟩
    rintro (h | ⟨rfl, rfl⟩)
    · exact h
    · simp [hi]
  | none =>
    rw [ensure_none hi]
    have hno : ∀ (i : ℕ) (ch : UCh), (st.chans p)[i]? = some ch → ch.pc ≠ q := fun i ch hch hq => by
      rw [(h p q i).2 ⟨ch, hch, hq⟩] at hi
      cases hi
    refine ⟨fun p' q' i => ?_, by simp, fun p' q' => ?_, fun p' q' => ?_⟩
    · by_cases hp : p' = p
      · subst hp
        simp only [Function.update_self]
        by_cases hq : q' = q
        · subst hq
          simp only [Function.update_self, Option.some.injEq]
          constructor
          · rintro rfl
            exact ⟨⟨q', []⟩, by simp, rfl⟩
          · rintro ⟨ch, hch, hpc⟩
            by_cases hlt : i < (st.chans p').length
            · rw [List.getElem?_append_left hlt] at hch
              exact absurd hpc (hno i ch hch)
            · by_contra hne
              rw [List.getElem?_append_right (by omega)] at hch
              have : i - (st.chans p').length = (i - (st.chans p').length - 1) + 1 := by omega
              rw [this] at hch
              simp at hch
        · rw [Function.update_of_ne hq, h p' q' i]
          constructor
          · rintro ⟨ch, hch, hpc⟩
            exact ⟨ch, by rw [List.getElem?_append_left (List.getElem?_eq_some_iff.1 hch).1]; exact hch, hpc⟩
          · rintro ⟨ch, hch, hpc⟩
            by_cases hlt : i < (st.chans p').length
            · rw [List.getElem?_append_left hlt] at hch
              exact ⟨ch, hch, hpc⟩
            · rw [List.getElem?_append_right (by omega)] at hch
              rw [List.getElem?_singleton] at hch
              split_ifs at hch
              cases hch
              exact absurd hpc.symm hq
      · simp only [Function.update_of_ne hp]
        exact h p' q' i
    · by_cases hp : p' = p
      · subst hp
        by_cases hq : q' = q
        · subst hq; simp
        · simp [hq]
      · simp [hp]
    · by_cases hp : p' = p
      · subst hp
        by_cases hq : q' = q
        · subst hq
          simp [chanVbls, hi]
        · simp only [chanVbls, Function.update_self, Function.update_of_ne hq]
          cases hc : st.cmap p' q' with
          | none => rfl
          | some i =>
            obtain ⟨ch, hch, -⟩ := (h p' q' i).1 hc
            simp [List.getElem?_append_left (List.getElem?_eq_some_iff.1 hch).1]
      · simp only [chanVbls, Function.update_of_ne hp]

theorem push_spec {st : UTabNet} (h : NetWF st) {o p i : ℕ} (hi : st.cmap o p = some i) (v : ℕ) :
    NetWF (pushVbl st o i p v) ∧ (pushVbl st o i p v).cmap = st.cmap ∧
    ∀ p' q', chanVbls (pushVbl st o i p v) p' q' = chanVbls st p' q' ++ if p' = o ∧ q' = p then [v] else [] := by
  obtain ⟨ch, hch, hpc⟩ := (h o p i).1 hi
  refine ⟨fun p' q' j => ?_, rfl, fun p' q' => ?_⟩
  · by_cases hp : p' = o
    · subst hp
      simp only [pushVbl, Function.update_self, List.getElem?_modify]
      rw [h p' q' j]
      by_cases hj : i = j
      · subst hj
        simp [hch, hpc]
      · simp [hj]
    · simp only [pushVbl, Function.update_of_ne hp]
      exact h p' q' j
  · by_cases hp : p' = o
    · subst hp
      simp only [chanVbls, pushVbl, Function.update_self, List.getElem?_modify]
      by_cases hq : q' = p
      · subst hq
        simp [hi, hch]
      · cases hc : st.cmap p' q' with
        | none => simp [hq]
        | some j =>
          have hij : i ≠ j := fun e => by
            subst e
            obtain ⟨ch', hch', hpc'⟩ := (h p' q' i).1 hc
            rw [hch] at hch'
            cases hch'
            exact hq (hpc'.symm.trans hpc)
          simp [hq, hij]
    · simp [chanVbls, pushVbl, Function.update_of_ne hp, hp]

theorem chanTo_fold (own : ℕ → ℕ) : ∀ (E : List (ℕ × UAcc)) (st : UTabNet), NetWF st →
    NetWF (E.foldl (chanTo own) st) ∧
    (∀ p q, ((E.foldl (chanTo own) st).cmap p q).isSome = true ↔
      (st.cmap p q).isSome = true ∨ ∃ e ∈ E, e.1 = p ∧ own e.2.vbl = q ∧ p ≠ q) ∧
    ∀ p q, chanVbls (E.foldl (chanTo own) st) p q = chanVbls st p q := by
  intro E
  induction E with
  | nil => intro st h; simp [h]
  | cons e E ih =>
    intro st h
    rw [List.foldl_cons]
    by_cases ho : own e.2.vbl = e.1
    · have hs : chanTo own st e = st := by simp [chanTo, ho]
      rw [hs]
      obtain ⟨h1, h2, h3⟩ := ih st h
      refine ⟨h1, fun p q => ?_, h3⟩
      rw [h2]
      constructor
      · rintro (h | ⟨f, hf, hh⟩)
        · exact Or.inl h
        · exact Or.inr ⟨f, List.mem_cons_of_mem _ hf, hh⟩
      · rintro (h | ⟨f, hf, rfl, rfl, hh⟩)
        · exact Or.inl h
        · rcases List.mem_cons.1 hf with rfl | hf
          · exact absurd ho.symm hh
          · exact Or.inr ⟨f, hf, rfl, rfl, hh⟩
    · have hs : chanTo own st e = (ensureChan st e.1 (own e.2.vbl)).1 := by simp [chanTo, ho]
      rw [hs]
      obtain ⟨k1, -, k3, k4⟩ := ensure_spec h e.1 (own e.2.vbl)
      obtain ⟨h1, h2, h3⟩ := ih _ k1
      refine ⟨h1, fun p q => ?_, fun p q => (h3 p q).trans (k4 p q)⟩
      rw [h2, k3]
      constructor
      · rintro ((h | ⟨rfl, rfl⟩) | ⟨f, hf, hh⟩)
        · exact Or.inl h
        · exact Or.inr ⟨e, List.mem_cons_self, rfl, rfl, fun h => ho h.symm⟩
        · exact Or.inr ⟨f, List.mem_cons_of_mem _ hf, hh⟩
      · rintro (h | ⟨f, hf, rfl, rfl, hh⟩)
        · exact Or.inl (Or.inl h)
        · rcases List.mem_cons.1 hf with rfl | hf
          · exact Or.inl (Or.inr ⟨rfl, rfl⟩)
          · exact Or.inr ⟨f, hf, rfl, rfl, hh⟩

theorem chanFrom_fold (own : ℕ → ℕ) : ∀ (E : List (ℕ × UAcc)) (st : UTabNet), NetWF st →
    NetWF (E.foldl (chanFrom own) st) ∧
    (∀ p q, ((E.foldl (chanFrom own) st).cmap p q).isSome = true ↔
      (st.cmap p q).isSome = true ∨ ∃ e ∈ E, e.1 = q ∧ own e.2.vbl = p ∧ p ≠ q) ∧
    ∀ p q, chanVbls (E.foldl (chanFrom own) st) p q = chanVbls st p q ++
      ((E.filter fun e => decide (e.1 = q) && decide (own e.2.vbl = p ∧ p ≠ q)).map (·.2)).map (·.vbl) := by
  intro E
  induction E with
  | nil => intro st h; simp [h]
  | cons e E ih =>
    intro st h
    rw [List.foldl_cons]
    by_cases ho : own e.2.vbl = e.1
    · have hs : chanFrom own st e = st := by simp [chanFrom, ho]
      rw [hs]
      obtain ⟨h1, h2, h3⟩ := ih st h
      refine ⟨h1, fun p q => ?_, fun p q => ?_⟩
      · rw [h2]
        constructor
        · rintro (h | ⟨f, hf, hh⟩)
          · exact Or.inl h
          · exact Or.inr ⟨f, List.mem_cons_of_mem _ hf, hh⟩
        · rintro (h | ⟨f, hf, rfl, rfl, hh⟩)
          · exact Or.inl h
          · rcases List.mem_cons.1 hf with rfl | hf
            · exact absurd ho hh
            · exact Or.inr ⟨f, hf, rfl, rfl, hh⟩
      · rw [h3, List.filter_cons_of_neg]
        simp only [Bool.and_eq_true, decide_eq_true_eq]
        rintro ⟨rfl, rfl, hh⟩
        exact hh ho
    · have hs : chanFrom own st e = pushVbl (ensureChan st (own e.2.vbl) e.1).1 (own e.2.vbl)
          (ensureChan st (own e.2.vbl) e.1).2 e.1 e.2.vbl := by simp [chanFrom, ho]
      rw [hs]
      obtain ⟨k1, k2, k3, k4⟩ := ensure_spec h (own e.2.vbl) e.1
      obtain ⟨l1, l2, l3⟩ := push_spec k1 k2 e.2.vbl
      obtain ⟨h1, h2, h3⟩ := ih _ l1
      refine ⟨h1, fun p q => ?_, fun p q => ?_⟩
      · rw [h2, l2, k3]
        constructor
        · rintro ((h | ⟨rfl, rfl⟩) | ⟨f, hf, hh⟩)
          · exact Or.inl h
          · exact Or.inr ⟨e, List.mem_cons_self, rfl, rfl, ho⟩
          · exact Or.inr ⟨f, List.mem_cons_of_mem _ hf, hh⟩
        · rintro (h | ⟨f, hf, rfl, rfl, hh⟩)
          · exact Or.inl (Or.inl h)
          · rcases List.mem_cons.1 hf with rfl | hf
            · exact Or.inl (Or.inr ⟨rfl, rfl⟩)
            · exact Or.inr ⟨f, hf, rfl, rfl, hh⟩
      · rw [h3, l3, k4]
        by_cases hpq : p = own e.2.vbl ∧ q = e.1
        · obtain ⟨rfl, rfl⟩ := hpq
          rw [List.filter_cons_of_pos (by simp [ho])]
          simp
        · rw [List.filter_cons_of_neg, if_neg hpq, List.append_nil]
          simp only [Bool.and_eq_true, decide_eq_true_eq]
          rintro ⟨rfl, rfl, -⟩
          exact hpq ⟨rfl, rfl⟩

theorem rounds_filter (P : UAcc → Bool) (q : ℕ) : ∀ (pcs : List (List UAcc)) (k : ℕ),
    (((pcs.zipIdx k).flatMap fun x => (udpVbls x.1).map fun a => (x.2, a)).filter
      fun e => decide (e.1 = q) && P e.2).map (·.2) =
    if k ≤ q then (udpVbls (pcs[q - k]?.getD [])).filter P else [] := by
  intro pcs
  induction pcs with
  | nil => intro k; simp [udpVbls]
  | cons pc pcs ih =>
    intro k
    rw [List.zipIdx_cons, List.flatMap_cons, List.filter_append, List.map_append, ih]
    have hhead : ((((udpVbls pc).map fun a => (k, a)).filter fun e => decide (e.1 = q) && P e.2).map (·.2)) =
        if k = q then (udpVbls pc).filter P else [] := by
      rw [List.filter_map, List.map_map]
      by_cases hk : k = q
      · subst hk
        simp [Function.comp_def]
      · simp [Function.comp_def, hk]
    rw [hhead]
    by_cases hk : k = q
    · subst hk
      rw [if_pos rfl, if_neg (by omega), if_pos (Nat.le_refl _)]
      simp
    · by_cases hlt : k ≤ q
      · have e : q - k = (q - (k + 1)) + 1 := by omega
        rw [if_neg hk, if_pos hlt, if_pos (by omega), e]
        simp
      · rw [if_neg hk, if_neg hlt, if_neg (by omega)]
        rfl

/-- The variables of `p` that `q` owns, in order. -/
def ownedBy (pcs : List (List UAcc)) (p q : ℕ) : List ℕ :=
  ((udpVbls (pcs[p]?.getD [])).filter fun a => decide (udpOwning pcs a.vbl = q)).map (·.vbl)

theorem net_spec (pcs : List (List UAcc)) : NetWF (udpNet pcs) ∧
    (∀ p q, ((udpNet pcs).cmap p q).isSome = true ↔ AdjacentV pcs p q) ∧
    ∀ p q, p ≠ q → chanVbls (udpNet pcs) p q = ownedBy pcs q p := by
  obtain ⟨h1, h2, h3⟩ := chanTo_fold (udpOwning pcs) (udpRounds pcs) ⟨fun _ => [], fun _ _ => none⟩
    (fun p q i => by simp)
  obtain ⟨k1, k2, k3⟩ := chanFrom_fold (udpOwning pcs) (udpRounds pcs) _ h1
  refine ⟨k1, fun p q => ?_, fun p q hpq => ?_⟩
  · rw [udpNet, k2, h2]
    constructor
    · rintro ((h | ⟨e, he, rfl, rfl, hh⟩) | ⟨e, he, rfl, rfl, hh⟩)
      · simp at h
      · have hr : HasV pcs e.1 e.2.vbl := reads_iff.2 ⟨e.2, he, rfl⟩
        exact ⟨hh, e.2.vbl, Or.inl ⟨hr, owning_spec hr⟩⟩
      · have hr : HasV pcs e.1 e.2.vbl := reads_iff.2 ⟨e.2, he, rfl⟩
        exact ⟨hh, e.2.vbl, Or.inr ⟨hr, owning_spec hr⟩⟩
    · rintro ⟨hh, v, ⟨hr, ho⟩ | ⟨hr, ho⟩⟩
      · obtain ⟨a, ha, rfl⟩ := reads_iff.1 hr
        exact Or.inl (Or.inr ⟨_, ha, rfl, (owning_iff hr).2 ho, hh⟩)
      · obtain ⟨a, ha, rfl⟩ := reads_iff.1 hr
        exact Or.inr ⟨_, ha, rfl, (owning_iff hr).2 ho, hh⟩
  · rw [udpNet, k3, h3]
    have := rounds_filter (fun a => decide (udpOwning pcs a.vbl = p ∧ p ≠ q)) q pcs 0
    rw [udpRounds, this]
    simp [chanVbls, ownedBy, hpq]

theorem adjacent_symm {pcs : List (List UAcc)} {p q : ℕ} (h : AdjacentV pcs p q) : AdjacentV pcs q p := by
  obtain ⟨h, v, hv⟩ := h
  exact ⟨h.symm, v, hv.symm⟩

theorem chan_adj {pcs : List (List UAcc)} {p c : ℕ} {ch : UCh} (h : ((udpNet pcs).chans p)[c]? = some ch) :
    AdjacentV pcs p ch.pc ∧ ch.vbls = ownedBy pcs ch.pc p := by
  obtain ⟨h1, h2, h3⟩ := net_spec pcs
  have hc := (h1 p ch.pc c).2 ⟨ch, h, rfl⟩
  have ha := (h2 p ch.pc).1 (by simp [hc])
  refine ⟨ha, ?_⟩
  rw [← h3 p ch.pc ha.1]
  simp [chanVbls, hc, h]

theorem udpMapM_some {α β : Type} {f : α → Option β} {g : α → β} : ∀ {l : List α}, (∀ x ∈ l, f x = some (g x)) →
    l.mapM f = some (l.map g)
  | [], _ => rfl
  | x :: l, h => by
    rw [List.mapM_cons, h x List.mem_cons_self, udpMapM_some fun y hy => h y (List.mem_cons_of_mem _ hy)]
    rfl

theorem readLists_spec (pcs : List (List UAcc)) (p : ℕ) :
    readLists (udpNet pcs) p = some (((udpNet pcs).chans p).map fun ch => ownedBy pcs p ch.pc) := by
  refine udpMapM_some fun ch hch => ?_
  obtain ⟨c, hc⟩ := List.mem_iff_getElem?.1 hch
  obtain ⟨h1, h2, h3⟩ := net_spec pcs
  obtain ⟨ha, -⟩ := chan_adj hc
  obtain ⟨j, hj⟩ := Option.isSome_iff_exists.1 ((h2 ch.pc p).2 (adjacent_symm ha))
  obtain ⟨ch', hch', -⟩ := (h1 _ _ _).1 hj
  rw [← h3 ch.pc p ha.1.symm]
  simp [chanVbls, hj, hch']

theorem tab_find (vs : List UAcc) (l : List (List ℕ)) (c i : ℕ) :
    ((tabTests vs l).find? fun y => decide (y.1 = (c, i))).map (·.2) = (l[c]?.bind (·[i]?)).map (localIdx vs) := by
  have hmem : ∀ c i k, ((c, i), k) ∈ tabTests vs l ↔ (l[c]?.bind (·[i]?)).map (localIdx vs) = some k := by
    intro c i k
    simp only [tabTests, List.mem_flatMap, List.mem_map, Prod.mk.injEq, Option.map_eq_some_iff, Option.bind_eq_some_iff]
    constructor
    · rintro ⟨⟨m, c'⟩, hc, ⟨v, i'⟩, hi, ⟨rfl, rfl⟩, rfl⟩
      exact ⟨v, ⟨m, List.mem_zipIdx_iff_getElem?.1 hc, List.mem_zipIdx_iff_getElem?.1 hi⟩, rfl⟩
    · rintro ⟨v, ⟨m, hc, hi⟩, rfl⟩
      exact ⟨(m, c), List.mem_zipIdx_iff_getElem?.2 hc, (v, i), List.mem_zipIdx_iff_getElem?.2 hi, ⟨rfl, rfl⟩, rfl⟩
  cases hf : (tabTests vs l).find? fun y => decide (y.1 = (c, i)) with
  | some y =>
    have h1 := List.find?_some hf
    have h2 := List.mem_of_find?_eq_some hf
    obtain ⟨ci, k⟩ := y
    simp only [decide_eq_true_eq] at h1
    subst h1
    exact ((hmem c i k).1 h2).symm
  | none =>
    cases hr : (l[c]?.bind (·[i]?)).map (localIdx vs) with
    | none => rfl
    | some k =>
      have := List.find?_eq_none.1 hf _ ((hmem c i k).2 hr)
      simp at this

theorem segGo_find {α : Type} [DecidableEq α] (p : ℕ) : ∀ (l : List α) (prev : α) (k : ℕ),
    ((segGo prev k l).find? fun x => decide (p < x.1)).map (·.2) = if p < k then some prev else l[p - k]? := by
  intro l
  induction l with
  | nil =>
    intro prev k
    by_cases h : p < k <;> simp [segGo, h]
  | cons s l ih =>
    intro prev k
    simp only [segGo]
    split_ifs with h1 h2 h2
    · simp [h2]
    · rw [List.find?_cons_of_neg (by simpa using h2), ih]
      by_cases hk : p = k
      · subst hk; simp
      · have e : p - k = (p - (k + 1)) + 1 := by omega
        rw [if_neg (by omega), e, List.getElem?_cons_succ]
    · rw [ih, if_pos (by omega)]
    · have hs : s = prev := not_not.1 h1
      rw [ih]
      by_cases hk : p = k
      · subst hk; simp [hs]
      · have e : p - k = (p - (k + 1)) + 1 := by omega
        rw [if_neg (by omega), e, List.getElem?_cons_succ]

theorem segList_find {α : Type} [DecidableEq α] (p : ℕ) (l : List α) :
    ((segList l).find? fun x => decide (p < x.1)).map (·.2) = l[p]? := by
  cases l with
  | nil => simp [segList]
  | cons s l =>
    rw [segList, segGo_find]
    cases p with
    | zero => simp
    | succ p => simp

theorem tabs_spec (pcs : List (List UAcc)) : ∃ tabs, udpTabs pcs = some tabs ∧ ∀ M p pc c i w, pcs[p]? = some pc →
    variableOf M tabs p c i w = (((((udpNet pcs).chans p)[c]?).bind fun ch =>
      (if w = true then ownedBy pcs ch.pc p else ownedBy pcs p ch.pc)[i]?).map (localIdx (udpVbls pc))).getD M := by
  have hb : ∀ x ∈ pcs.zipIdx, tabBody (udpNet pcs) x.1 x.2 =
      some (tabTests (udpVbls x.1) (((udpNet pcs).chans x.2).map (·.vbls)),
        tabTests (udpVbls x.1) (((udpNet pcs).chans x.2).map fun ch => ownedBy pcs x.2 ch.pc)) := fun x _ => by
    rw [tabBody, readLists_spec]
    rfl
  refine ⟨_, by rw [udpTabs, udpMapM_some hb]; rfl, fun M p pc c i w hp => ?_⟩
  have hs := segList_find p (pcs.zipIdx.map fun x => (tabTests (udpVbls x.1) (((udpNet pcs).chans x.2).map (·.vbls)),
        tabTests (udpVbls x.1) (((udpNet pcs).chans x.2).map fun ch => ownedBy pcs x.2 ch.pc)))
  rw [List.getElem?_map, List.getElem?_zipIdx, hp] at hs
  simp only [Option.map_some, Nat.zero_add] at hs
  obtain ⟨x, hx, hx2⟩ := Option.map_eq_some_iff.1 hs
  simp only [variableOf, hx, hx2]
  cases w with
  | true =>
    have := tab_find (udpVbls pc) (((udpNet pcs).chans p).map (·.vbls)) c i
    have e : ((((udpNet pcs).chans p).map (·.vbls))[c]?.bind (·[i]?)) =
        ((((udpNet pcs).chans p)[c]?).bind fun ch => (ownedBy pcs ch.pc p)[i]?) := by
      rw [List.getElem?_map]
      cases hc : ((udpNet pcs).chans p)[c]? with
      | none => rfl
      | some ch => simp [(chan_adj hc).2]
    rw [e] at this
    simp only [if_true]
    rw [← this]
    cases (tabTests (udpVbls pc) (((udpNet pcs).chans p).map (·.vbls))).find? fun y => decide (y.1 = (c, i)) <;> rfl
  | false =>
    have := tab_find (udpVbls pc) (((udpNet pcs).chans p).map fun ch => ownedBy pcs p ch.pc) c i
    have e : ((((udpNet pcs).chans p).map fun ch => ownedBy pcs p ch.pc)[c]?.bind (·[i]?)) =
        ((((udpNet pcs).chans p)[c]?).bind fun ch => (ownedBy pcs p ch.pc)[i]?) := by
      rw [List.getElem?_map]
      cases hc : ((udpNet pcs).chans p)[c]? with
      | none => rfl
      | some ch => rfl
    rw [e] at this
    simp only [Bool.false_eq_true, if_false]
    rw [← this]
    cases (tabTests (udpVbls pc) (((udpNet pcs).chans p).map fun ch => ownedBy pcs p ch.pc)).find?
      fun y => decide (y.1 = (c, i)) <;> rfl

theorem localIdx_append (vs : List UAcc) (a : UAcc) (v : ℕ) :
    localIdx (vs ++ [a]) v = if a.vbl = v then vs.length else localIdx vs v := by
  simp [localIdx, List.zipIdx_append]

/-- The number of a variable is that of an access to it. -/
theorem localIdx_spec {v : ℕ} : ∀ {vs : List UAcc}, v ∈ vs.map (·.vbl) →
    ∃ a, vs[localIdx vs v]? = some a ∧ a.vbl = v := by
  intro vs
  induction vs using List.reverseRecOn with
  | nil => simp
  | append_singleton vs a ih =>
    intro h
    rw [localIdx_append]
    by_cases ha : a.vbl = v
    · simp [ha]
    · have hv : v ∈ vs.map (·.vbl) := by
        simp only [List.map_append, List.map_cons, List.map_nil, List.mem_append, List.mem_singleton] at h
        rcases h with h | h
        · exact h
        · exact absurd h.symm ha
      obtain ⟨b, hb, hbv⟩ := ih hv
      rw [if_neg ha, List.getElem?_append_left (List.getElem?_eq_some_iff.1 hb).1]
      exact ⟨b, hb, hbv⟩

theorem localIdx_nodup {vs : List UAcc} (h : (vs.map (·.vbl)).Nodup) {j : ℕ} {a : UAcc} (hj : vs[j]? = some a) :
    localIdx vs a.vbl = j := by
  have hm : a.vbl ∈ vs.map (·.vbl) := List.mem_map.2 ⟨a, List.mem_of_getElem? hj, rfl⟩
  obtain ⟨b, hb, hbv⟩ := localIdx_spec hm
  have h1 : (vs.map (·.vbl))[localIdx vs a.vbl]? = some a.vbl := by simp [List.getElem?_map, hb, hbv]
  have h2 : (vs.map (·.vbl))[j]? = some a.vbl := by simp [List.getElem?_map, hj]
  exact (List.getElem?_inj (List.getElem?_eq_some_iff.1 h1).1 h).1 (h1.trans h2.symm)

theorem procOfGo_eq (self : ℕ) : ∀ (l : List UCh) (c : ℕ), procOfGo self l c = (l[c]?.map (·.pc)).getD self
  | [], c => by simp [procOfGo]
  | ch :: l, 0 => by simp [procOfGo]
  | ch :: l, c + 1 => by simp [procOfGo, procOfGo_eq self l c]

theorem foldMax_le {α : Type} (f : α → ℕ) : ∀ (l : List α) (m : ℕ),
    m ≤ l.foldl (fun m x => if f x > m then f x else m) m ∧
    ∀ x ∈ l, f x ≤ l.foldl (fun m x => if f x > m then f x else m) m
  | [], m => by simp
  | x :: l, m => by
    rw [List.foldl_cons]
    obtain ⟨h1, h2⟩ := foldMax_le f l (if f x > m then f x else m)
    refine ⟨?_, fun y hy => ?_⟩
    · refine Nat.le_trans ?_ h1
      split_ifs <;> omega
    · rcases List.mem_cons.1 hy with rfl | hy
      · refine Nat.le_trans ?_ h1
        split_ifs <;> omega
      · exact h2 y hy

theorem vbls_le {pcs : List (List UAcc)} {p : ℕ} {pc : List UAcc} (h : pcs[p]? = some pc) :
    (udpVbls pc).length ≤ udpMaxVbls pcs :=
  (foldMax_le (fun pc => (udpVbls pc).length) pcs 0).2 pc (List.mem_of_getElem? h)

theorem ownedBy_mem {pcs : List (List UAcc)} {p q v : ℕ} {pc : List UAcc} (hp : pcs[p]? = some pc) :
    v ∈ ownedBy pcs p q ↔ v ∈ (udpVbls pc).map (·.vbl) ∧ OwnsV pcs q v := by
  simp only [ownedBy, hp, Option.getD_some, List.mem_map, List.mem_filter, decide_eq_true_eq]
  constructor
  · rintro ⟨a, ⟨ha, ho⟩, rfl⟩
    refine ⟨⟨a, ha, rfl⟩, ?_⟩
    have hr : HasV pcs p a.vbl := ⟨pc, hp, a, (List.mem_filter.1 ha).1, (List.mem_filter.1 ha).2, rfl⟩
    exact (owning_iff hr).1 ho
  · rintro ⟨⟨a, ha, rfl⟩, ho⟩
    have hr : HasV pcs p a.vbl := ⟨pc, hp, a, (List.mem_filter.1 ha).1, (List.mem_filter.1 ha).2, rfl⟩
    exact ⟨a, ⟨ha, (owning_iff hr).2 ho⟩, rfl⟩

theorem hasV_iff {pcs : List (List UAcc)} {p v : ℕ} {pc : List UAcc} (hp : pcs[p]? = some pc) :
    HasV pcs p v ↔ v ∈ (udpVbls pc).map (·.vbl) := by
  simp only [HasV, hp, Option.some.injEq, List.mem_map, udpVbls, List.mem_filter]
  constructor
  · rintro ⟨_, rfl, a, ha, h1, h2⟩
    exact ⟨a, ⟨ha, h1⟩, h2⟩
  · rintro ⟨a, ⟨ha, h1⟩, h2⟩
    exact ⟨pc, rfl, a, ha, h1, h2⟩

theorem ownedBy_length {pcs : List (List UAcc)} {p q : ℕ} {pc : List UAcc} (hp : pcs[p]? = some pc) :
    (ownedBy pcs p q).length ≤ udpMaxVbls pcs := by
  refine Nat.le_trans ?_ (vbls_le hp)
  simp only [ownedBy, hp, Option.getD_some, List.length_map]
  exact List.length_filter_le _ _

/-- The packet after the loop that fills it. -/
theorem emit_spec (M : ℕ) (vals : ℕ → ℕ) (tab : ℕ → ℕ) : ∀ (r : List ℕ) (f : ℕ → ℕ) (k i : ℕ) (pkt : ℕ → ℕ),
    (∀ n v, r[n]? = some v → tab (i + n) = f v ∧ f v < M) → tab (i + r.length) ≥ M → r.length ≤ k →
    (∀ n v, r[n]? = some v → emitLoop tab M vals k i pkt (i + n) = vals (f v)) ∧
    ∀ j < i, emitLoop tab M vals k i pkt j = pkt j := by
  intro r f
  induction r with
  | nil =>
    intro k i pkt _ h2 _
    refine ⟨fun n v h => by simp at h, fun j _ => ?_⟩
    cases k with
    | zero => rfl
    | succ k => simp only [List.length_nil, Nat.add_zero] at h2; simp [emitLoop, h2]
  | cons v r ih =>
    intro k i pkt h1 h2 h3
    cases k with
    | zero => simp at h3
    | succ k =>
      obtain ⟨h10, h11⟩ := h1 0 v (by simp)
      rw [Nat.add_zero] at h10
      have hstep : emitLoop tab M vals (k + 1) i pkt =
          emitLoop tab M vals k (i + 1) (Function.update pkt i (vals (f v))) := by
        simp only [emitLoop]
        rw [if_neg (by omega), h10]
      obtain ⟨k1, k2⟩ := ih k (i + 1) (Function.update pkt i (vals (f v)))
        (fun n w hn => by
          have := h1 (n + 1) w (by simpa using hn)
          rwa [show i + (n + 1) = i + 1 + n by omega] at this)
        (by rw [List.length_cons] at h2; rwa [show i + 1 + r.length = i + (r.length + 1) by omega])
        (by rw [List.length_cons] at h3; omega)
      rw [hstep]
      refine ⟨fun n w hn => ?_, fun j hj => ?_⟩
      · cases n with
        | zero =>
          simp only [List.getElem?_cons_zero, Option.some.injEq] at hn
          subst hn
          have := k2 i (by omega)
          rwa [Function.update_self] at this
        | succ n =>
          rw [show i + (n + 1) = i + 1 + n by omega]
          exact k1 n w (by simpa using hn)
      · rw [k2 j (by omega), Function.update_of_ne (by omega)]

/-- The values after the loop that copies a packet. -/
theorem merge_spec (M : ℕ) (tab : ℕ → ℕ) (g f : ℕ → ℕ) (pkt : ℕ → ℕ) : ∀ (r : List ℕ) (k i : ℕ) (vals : ℕ → ℕ),
    (∀ v ∈ r, ∀ w ∈ r, f v = f w → v = w) →
    (∀ n v, r[n]? = some v → tab (i + n) = f v ∧ f v < M ∧ pkt (i + n) = g v) →
    tab (i + r.length) ≥ M → r.length ≤ k →
    (∀ v ∈ r, mergeLoop tab M pkt k i vals (f v) = g v) ∧
    ∀ j, (∀ v ∈ r, f v ≠ j) → mergeLoop tab M pkt k i vals j = vals j := by
  intro r
  induction r with
  | nil =>
    intro k i vals _ _ h2 _
    refine ⟨fun v h => by simp at h, fun j _ => ?_⟩
    cases k with
    | zero => rfl
    | succ k => simp only [List.length_nil, Nat.add_zero] at h2; simp [mergeLoop, h2]
  | cons v r ih =>
    intro k i vals hinj h1 h2 h3
    cases k with
    | zero => simp at h3
    | succ k =>
      obtain ⟨h10, h11, h12⟩ := h1 0 v (by simp)
      rw [Nat.add_zero] at h10 h12
      have hstep : mergeLoop tab M pkt (k + 1) i vals = mergeLoop tab M pkt k (i + 1) (Function.update vals (f v) (g v)) := by
        simp only [mergeLoop]
        rw [if_neg (by omega), h10, h12]
      obtain ⟨k1, k2⟩ := ih k (i + 1) (Function.update vals (f v) (g v))
        (fun a ha b hb => hinj a (List.mem_cons_of_mem _ ha) b (List.mem_cons_of_mem _ hb))
        (fun n w hn => by
          have := h1 (n + 1) w (by simpa using hn)
          rwa [show i + (n + 1) = i + 1 + n by omega] at this)
        (by rw [List.length_cons] at h2; rwa [show i + 1 + r.length = i + (r.length + 1) by omega])
        (by rw [List.length_cons] at h3; omega)
      rw [hstep]
      refine ⟨fun w hw => ?_, fun j hj => ?_⟩
      · by_cases hr : w ∈ r
        · exact k1 w hr
        · have hwv : w = v := by
            rcases List.mem_cons.1 hw with h | h
            · exact h
            · exact absurd h hr
          subst hwv
          rw [k2 (f w) fun u hu he => hr (hinj u (List.mem_cons_of_mem _ hu) w hw he ▸ hu), Function.update_self]
      · rw [k2 j fun u hu => hj u (List.mem_cons_of_mem _ hu),
          Function.update_of_ne fun h => hj v List.mem_cons_self h.symm]

end Verif.Proofs
