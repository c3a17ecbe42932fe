import Verif.Model.BiOutput
import Verif.Props.BiSearch

/-!
C118: the specifications that are written for invariants of bidirectional rings mean these invariants.
-/

namespace Verif.Props
open Verif.Model Verif.Spec

theorem bi_foldl_or {α : Type} (f : α → Bool) : ∀ (l : List α) (r : Bool),
    l.foldl (fun r x => r || f x) r = true ↔ r = true ∨ ∃ x ∈ l, f x = true
  | [], r => by simp
  | x :: l, r => by
    rw [List.foldl_cons, bi_foldl_or f l]
    simp [or_assoc]

theorem bi_foldl_and {α : Type} (f : α → Bool) : ∀ (l : List α) (r : Bool),
    l.foldl (fun r x => r && !f x) r = true ↔ r = true ∧ ∀ x ∈ l, f x = false
  | [], r => by simp
  | x :: l, r => by
    rw [List.foldl_cons, bi_foldl_and f l]
    simp [and_assoc]

theorem mem_biList {d : ℕ} {set : Finset ℕ} {i : ℕ} : i ∈ biList d set ↔ i < d * d * d ∧ i ∈ set := by
  simp [biList]

/-- The clauses without pairs are those of the configurations in order. -/
theorem clauses_all (d : ℕ) (own : Bool) : ∀ (l : List ℕ) (cache : List (ℕ × ℕ)), biClausesLoop d false own l cache =
    l.map fun i => ⟨(pcConfigOfEnumIdx i d).1, if own then some (pcConfigOfEnumIdx i d).2.1 else none,
      some (pcConfigOfEnumIdx i d).2.2⟩
  | [], _ => rfl
  | i :: l, cache => by
    simp [biClausesLoop, clauses_all d own l cache]

/-- The clauses with pairs: each pair that is not in the cache once. -/
theorem clauses_pair (d : ℕ) : ∀ (l : List ℕ) (cache : List (ℕ × ℕ)),
    (biClausesLoop d true true l cache).Nodup ∧
    ∀ cl, cl ∈ biClausesLoop d true true l cache ↔ ∃ i ∈ l, cl = ⟨(pcConfigOfEnumIdx i d).1,
      some (pcConfigOfEnumIdx i d).2.1, none⟩ ∧ ((pcConfigOfEnumIdx i d).1, (pcConfigOfEnumIdx i d).2.1) ∉ cache
  | [], _ => by simp [biClausesLoop]
  | i :: l, cache => by
    by_cases hc : ((pcConfigOfEnumIdx i d).1, (pcConfigOfEnumIdx i d).2.1) ∈ cache
    · have e : biClausesLoop d true true (i :: l) cache = biClausesLoop d true true l cache := by
        simp [biClausesLoop, hc]
      rw [e]
      obtain ⟨h1, h2⟩ := clauses_pair d l cache
      refine ⟨h1, fun cl => ?_⟩
      rw [h2]
      constructor
      · rintro ⟨j, hj, h⟩
        exact ⟨j, List.mem_cons_of_mem _ hj, h⟩
      · rintro ⟨j, hj, h, hn⟩
        rcases List.mem_cons.1 hj with rfl | hj
        · exact absurd hc hn
        · exact ⟨j, hj, h, hn⟩
    · have e : biClausesLoop d true true (i :: l) cache = ⟨(pcConfigOfEnumIdx i d).1, some (pcConfigOfEnumIdx i d).2.1, none⟩ ::
          biClausesLoop d true true l (((pcConfigOfEnumIdx i d).1, (pcConfigOfEnumIdx i d).2.1) :: cache) := by
        simp [biClausesLoop, hc]
      rw [e]
      obtain ⟨h1, h2⟩ := clauses_pair d l (((pcConfigOfEnumIdx i d).1, (pcConfigOfEnumIdx i d).2.1) :: cache)
      refine ⟨List.nodup_cons.2 ⟨fun hm => ?_, h1⟩, fun cl => ?_⟩
      · obtain ⟨j, -, hj, hn⟩ := (h2 _).1 hm
        simp only [BiClause.mk.injEq, Option.some.injEq, and_true] at hj
        exact hn (by rw [← hj.1, ← hj.2]; exact List.mem_cons_self)
      · rw [List.mem_cons, h2]
        constructor
        · rintro (rfl | ⟨j, hj, h, hn⟩)
          · exact ⟨i, List.mem_cons_self, rfl, hc⟩
          · exact ⟨j, List.mem_cons_of_mem _ hj, h, fun hm => hn (List.mem_cons_of_mem _ hm)⟩
        · rintro ⟨j, hj, rfl, hn⟩
          rcases List.mem_cons.1 hj with rfl | hj
          · exact Or.inl rfl
          · by_cases hp : ((pcConfigOfEnumIdx j d).1, (pcConfigOfEnumIdx j d).2.1) =
                ((pcConfigOfEnumIdx i d).1, (pcConfigOfEnumIdx i d).2.1)
            · obtain ⟨p1, p2⟩ := Prod.mk.inj hp
              exact Or.inl (by rw [p1, p2])
            · refine Or.inr ⟨j, hj, rfl, fun hm => ?_⟩
              rcases List.mem_cons.1 hm with h | h
              · exact hp h
              · exact hn h

/-- **C118**, invariant: for values below the domain size, what is written holds exactly for the configurations of the
set; with `pair`, exactly if some value of the right neighbour gives a configuration of the set. -/
theorem C118_invariant (d : ℕ) {set : Finset ℕ} (hS : ∀ i ∈ set, i < d * d * d) (pair grow : Bool) {a b c : ℕ}
    (ha : a < d) (hb : b < d) (hc : c < d) :
    (biSpecFile d set pair grow).legit a b c = true ↔
      if pair = true then ∃ c' < d, enumIdxOfPcConfig (a, b, c') d ∈ set else enumIdxOfPcConfig (a, b, c) d ∈ set := by
  obtain ⟨g1, g2⟩ := C36_config_index d
  simp only [BiSpec.legit, biSpecFile, biClauses, bi_foldl_or, ne_eq, not_true_eq_false, decide_false, Bool.false_eq_true,
    false_or]
  cases pair with
  | false =>
    rw [clauses_all]
    simp only [List.mem_map, mem_biList, if_true, Bool.false_eq_true, if_false, BiClause.holds, Bool.and_eq_true,
      decide_eq_true_eq]
    constructor
    · rintro ⟨_, ⟨i, ⟨hi, his⟩, rfl⟩, ⟨h1, h2⟩, h3⟩
      simp only [Option.all_some, decide_eq_true_eq] at h1 h2 h3
      have := (g1 i hi).1
      rw [h1, h2, h3]
      rwa [this]
    · intro h
      refine ⟨_, ⟨_, ⟨hS _ h, h⟩, rfl⟩, ?_⟩
      have := (g2 a b c ha hb hc).1
      simp [(g2 a b c ha hb hc)]
  | true =>
    simp only [(clauses_pair d _ _).2, mem_biList, if_true, BiClause.holds, Bool.and_eq_true, List.not_mem_nil,
      not_false_eq_true, and_true]
    constructor
    · rintro ⟨_, ⟨i, ⟨hi, his⟩, rfl⟩, ⟨h1, h2⟩, -⟩
      simp only [decide_eq_true_eq, Option.all_some] at h1 h2
      obtain ⟨e, -, -, h4⟩ := g1 i hi
      refine ⟨(pcConfigOfEnumIdx i d).2.2, h4, ?_⟩
      rw [h1, h2]
      rwa [e]
    · rintro ⟨c', hc', h⟩
      refine ⟨_, ⟨_, ⟨hS _ h, h⟩, rfl⟩, ?_⟩
      simp [(g2 a b c' ha hb hc')]

/-- **C118**, clauses: no clause of the invariant is written twice. -/
theorem C118_once (d : ℕ) (set : Finset ℕ) (pair grow : Bool) : (biSpecFile d set pair grow).inv.Nodup := by
  obtain ⟨g1, -⟩ := C36_config_index d
  simp only [biSpecFile, biClauses]
  cases pair with
  | true => exact (clauses_pair d _ _).1
  | false =>
    rw [clauses_all]
    refine List.Nodup.map_on ?_ (List.nodup_range.filter _)
    intro i hi j hj h
    have hi' := (mem_biList.1 hi).1
    have hj' := (mem_biList.1 hj).1
    simp only [if_true, BiClause.mk.injEq, Option.some.injEq] at h
    rw [← (g1 i hi').1, ← (g1 j hj').1]
    rw [show pcConfigOfEnumIdx i d = pcConfigOfEnumIdx j d from Prod.ext h.1 (Prod.ext h.2.1 h.2.2)]

/-- **C118**, rings: for an invariant that the search lists (C113), the rings of what is written with values below
the domain size are the rings of the invariant, also with `pair`, for which the text has less than the configurations. -/
theorem C118_rings {d : ℕ} {pair trivial : Bool} {minsz : ℕ} {T : Finset ℕ}
    (h : BiInvariant (fun i => pcConfigOfEnumIdx i d) (fun c => enumIdxOfPcConfig c d) d pair trivial minsz T)
    (grow : Bool) (n : ℕ) (c : ℕ × ℕ × ℕ) :
    BiRingAt d (fun c => (biSpecFile d T pair grow).legit c.1 c.2.1 c.2.2 = true) n c ↔
      BiRingAt d (fun c => enumIdxOfPcConfig c d ∈ T) n c := by
  obtain ⟨g1, g2⟩ := C36_config_index d
  obtain ⟨legit, -, hp, hT⟩ := h.legit
  have hS : ∀ i ∈ T, i < d * d * d := fun i hi => ((hT i).1 hi).1
  constructor
  · rintro ⟨hn, x, hper, hlt, hleg, hx⟩
    refine ⟨hn, x, hper, hlt, fun i => ?_, hx⟩
    have key := fun j => (C118_invariant d hS pair grow (hlt j) (hlt (j + 1)) (hlt (j + 2))).1 (hleg j)
    cases pair with
    | false => simpa using key i
    | true =>
      have hl : ∀ j, legit (x j, x (j + 1), x (j + 2)) := fun j => by
        have hk := key j
        rw [if_pos rfl] at hk
        obtain ⟨c', hc', hm⟩ := hk
        obtain ⟨-, m, -, y, -, -, hy, hy0⟩ := (hT _).1 hm
        have := hy 0
        simp only [Nat.zero_add] at this
        rw [hy0] at this
        simp only [(g2 _ _ _ (hlt j) (hlt (j + 1)) hc')] at this
        exact hp rfl _ _ _ _ hc' (hlt _) this
      refine (hT _).2 ⟨(g2 _ _ _ (hlt i) (hlt (i + 1)) (hlt (i + 2))).2, n, hn, fun j => x (i + j), fun j => ?_,
        fun j => hlt _, fun j => ?_, ?_⟩
      · show x (i + (j + n)) = x (i + j)
        rw [← Nat.add_assoc, hper]
      · exact hl (i + j)
      · simp [(g2 _ _ _ (hlt i) (hlt (i + 1)) (hlt (i + 2)))]
  · rintro ⟨hn, x, hper, hlt, hleg, hx⟩
    refine ⟨hn, x, hper, hlt, fun i => ?_, hx⟩
    refine (C118_invariant d hS pair grow (hlt i) (hlt (i + 1)) (hlt (i + 2))).2 ?_
    split_ifs
    · exact ⟨_, hlt (i + 2), hleg i⟩
    · exact hleg i

/-- **C118**, larger domain: with the new value `d`, the action is enabled exactly if no value involved is the new one
and no value of the process gives a configuration of the set with the values of its neighbours.  The new value is in
the domain, and no configuration with it is legitimate (with `pair` the value of the right neighbour is not looked at). -/
theorem C118_puppet (d : ℕ) {set : Finset ℕ} (hS : ∀ i ∈ set, i < d * d * d) (pair : Bool) {a b c : ℕ}
    (ha : a ≤ d) (hb : b ≤ d) (hc : c ≤ d) :
    (biSpecFile d set pair true).M = d + 1 ∧
    ((biSpecFile d set pair true).enabled a b c = true ↔
      (a < d ∧ b < d ∧ c < d) ∧ ∀ b' < d, enumIdxOfPcConfig (a, b', c) d ∉ set) ∧
    (a = d ∨ b = d ∨ (c = d ∧ pair = false) → (biSpecFile d set pair true).legit a b c = false) ∧
    (biSpecFile d set pair false).M = d ∧ (biSpecFile d set pair false).puppet = none := by
  obtain ⟨g1, g2⟩ := C36_config_index d
  refine ⟨rfl, ?_, ?_, rfl, rfl⟩
  · simp only [BiSpec.enabled, biSpecFile, biClauses, if_true, bi_foldl_and, Bool.and_eq_true, decide_eq_true_eq, ne_eq]
    rw [clauses_all]
    simp only [List.mem_map, mem_biList, Bool.false_eq_true, if_false, BiClause.holds]
    constructor
    · rintro ⟨⟨⟨h1, h2⟩, h3⟩, h⟩
      refine ⟨⟨by omega, by omega, by omega⟩, fun b' hb' hm => ?_⟩
      have := h _ ⟨_, ⟨hS _ hm, hm⟩, rfl⟩
      simp [(g2 a b' c (by omega) hb' (by omega))] at this
    · rintro ⟨⟨h1, h2, h3⟩, h⟩
      refine ⟨⟨⟨by omega, by omega⟩, by omega⟩, ?_⟩
      rintro _ ⟨i, ⟨hi, his⟩, rfl⟩
      by_contra hne
      simp only [Option.all_none, Bool.and_true, Option.all_some, Bool.not_eq_false, Bool.and_eq_true,
        decide_eq_true_eq] at hne
      obtain ⟨e, -, k2, -⟩ := g1 i hi
      refine h _ k2 ?_
      rw [hne.1, hne.2]
      rwa [e]
  · intro hd
    by_contra hne
    rw [Bool.not_eq_false, BiSpec.legit, bi_foldl_or] at hne
    simp only [ne_eq, not_true_eq_false, decide_false, Bool.false_eq_true, false_or, biSpecFile, biClauses] at hne
    obtain ⟨cl, hcl, hh⟩ := hne
    cases pair with
    | false =>
      rw [clauses_all] at hcl
      obtain ⟨i, hi, rfl⟩ := List.mem_map.1 hcl
      obtain ⟨-, k1, k2, k3⟩ := g1 i (mem_biList.1 hi).1
      simp only [BiClause.holds, if_true, Option.all_some, Bool.and_eq_true, decide_eq_true_eq] at hh
      omega
    | true =>
      obtain ⟨i, hi, rfl, -⟩ := ((clauses_pair d _ _).2 cl).1 hcl
      obtain ⟨-, k1, k2, k3⟩ := g1 i (mem_biList.1 hi).1
      simp only [BiClause.holds, Option.all_some, Bool.and_eq_true, decide_eq_true_eq] at hh
      rcases hd with h | h | h
      · omega
      · omega
      · simp at h

/-- **C118**, rings of the file: the legitimate rings of the written specification, with values below its `M`, are the
rings of the invariant; the new value is in none of them. -/
theorem C118_file_rings {d : ℕ} {pair trivial : Bool} {minsz : ℕ} {T : Finset ℕ}
    (h : BiInvariant (fun i => pcConfigOfEnumIdx i d) (fun c => enumIdxOfPcConfig c d) d pair trivial minsz T)
    (grow : Bool) (n : ℕ) (c : ℕ × ℕ × ℕ) :
    BiRingAt (biSpecFile d T pair grow).M (fun c => (biSpecFile d T pair grow).legit c.1 c.2.1 c.2.2 = true) n c ↔
      BiRingAt d (fun c => enumIdxOfPcConfig c d ∈ T) n c := by
  rw [← C118_rings h grow]
  have hS : ∀ i ∈ T, i < d * d * d := by
    obtain ⟨legit, -, -, hT⟩ := h.legit
    exact fun i hi => ((hT i).1 hi).1
  cases grow with
  | false => exact Iff.rfl
  | true =>
    constructor
    · rintro ⟨hn, x, hper, hlt, hleg, hx⟩
      refine ⟨hn, x, hper, fun i => ?_, hleg, hx⟩
      have hle : ∀ j, x j ≤ d := fun j => Nat.le_of_lt_succ (hlt j)
      by_contra hge
      have := (C118_puppet d hS pair (hle i) (hle (i + 1)) (hle (i + 2))).2.2.1
        (Or.inl (Nat.le_antisymm (hle i) (Nat.le_of_not_lt hge)))
      exact Bool.false_ne_true (this.symm.trans (hleg i))
    · rintro ⟨hn, x, hper, hlt, hleg, hx⟩
      exact ⟨hn, x, hper, fun i => Nat.lt_succ_of_lt (hlt i), hleg, hx⟩

/-- Agreement on two values: the configurations 000 and 111.  The action is enabled if the neighbours differ. -/
example : (biSpecFile 2 {0, 7} false true).inv = [⟨0, some 0, some 0⟩, ⟨1, some 1, some 1⟩] ∧
    (biSpecFile 2 {0, 7} false true).enabled 0 1 1 = true ∧ (biSpecFile 2 {0, 7} false true).enabled 1 0 1 = false ∧
    (biSpecFile 2 {0, 1, 6} true false).inv = [⟨0, some 0, none⟩, ⟨1, some 1, none⟩] := by decide

/-- With `pair` and a larger domain the new value as right neighbour is legitimate. -/
example : (biSpecFile 2 {0, 1} true true).legit 0 0 2 = true := by decide

/-- **C118**, graph with `pair`: there is exactly one edge from `a` to `b` if a configuration of the set begins with
them, and no other edges. -/
theorem C118_pair_graph (d : ℕ) (set : Finset ℕ) : (biPairEdges d set).Nodup ∧
    ∀ a b, (a, b) ∈ biPairEdges d set ↔ a < d ∧ b < d ∧ ∃ c < d, enumIdxOfPcConfig (a, b, c) d ∈ set ∧
      enumIdxOfPcConfig (a, b, c) d < d * d * d := by
  obtain ⟨g1, g2⟩ := C36_config_index d
  obtain ⟨h1, h2⟩ := clauses_pair d (biList d set) []
  refine ⟨List.Nodup.map_on ?_ h1, fun a b => ?_⟩
  · intro x hx y hy e
    obtain ⟨i, -, rfl, -⟩ := (h2 x).1 hx
    obtain ⟨j, -, rfl, -⟩ := (h2 y).1 hy
    simpa using e
  · simp only [biPairEdges, biClauses, List.mem_map, h2, mem_biList]
    constructor
    · rintro ⟨_, ⟨i, ⟨hi, his⟩, rfl, -⟩, e⟩
      simp only [Option.getD_some, Prod.mk.injEq] at e
      obtain ⟨k0, k1, k2, k3⟩ := g1 i hi
      obtain ⟨rfl, rfl⟩ := e
      refine ⟨k1, k2, _, k3, ?_⟩
      rw [show ((pcConfigOfEnumIdx i d).1, (pcConfigOfEnumIdx i d).2.1, (pcConfigOfEnumIdx i d).2.2) =
        pcConfigOfEnumIdx i d from rfl, k0]
      exact ⟨his, hi⟩
    · rintro ⟨ha, hb, c, hc, hm, hlt⟩
      exact ⟨_, ⟨_, ⟨hlt, hm⟩, rfl, by simp⟩, by simp [(g2 a b c ha hb hc)]⟩

theorem edgeLoop_same {d : ℕ} {src t : ℕ × ℕ} : ∀ (l : List ℕ),
    (∀ j ∈ l, ((pcConfigOfEnumIdx j d).1, (pcConfigOfEnumIdx j d).2.1) = t) →
    biEdgeLoop d src l [t] = [] ∧ biEdgeLoop d src l [] = if l = [] then [] else [(src, t)]
  | [], _ => by simp [biEdgeLoop]
  | j :: l, h => by
    obtain ⟨h1, -⟩ := edgeLoop_same (src := src) l fun k hk => h k (List.mem_cons_of_mem _ hk)
    have hj := h j List.mem_cons_self
    simp [biEdgeLoop, hj, h1]

theorem biConts_dst {d : ℕ} {set : Finset ℕ} {i j : ℕ} :
    j ∈ biConts d set i ↔ j ∈ set ∧ ∃ e < d, enumIdxOfPcConfig ((pcConfigOfEnumIdx i d).2.1, (pcConfigOfEnumIdx i d).2.2, e) d = j := by
  simp only [biConts, biNext, Finset.mem_inter, Finset.mem_image, Finset.mem_range]
  exact and_comm

/-- **C118**, graph: there is exactly one edge from `(a, b)` to `(b, c)` if the set has the configuration `(a, b, c)` and one
that begins with `b` and `c`, and no other edges. -/
theorem C118_graph (d : ℕ) {set : Finset ℕ} (hS : ∀ i ∈ set, i < d * d * d) : (biEdges d set).Nodup ∧
    ∀ a b b' c, ((a, b), (b', c)) ∈ biEdges d set ↔ b' = b ∧ (a < d ∧ b < d ∧ c < d) ∧
      enumIdxOfPcConfig (a, b, c) d ∈ set ∧ ∃ e < d, enumIdxOfPcConfig (b, c, e) d ∈ set := by
  obtain ⟨g1, g2⟩ := C36_config_index d
  have hl : ∀ i < d * d * d, biEdgeLoop d ((pcConfigOfEnumIdx i d).1, (pcConfigOfEnumIdx i d).2.1)
      (biList d (biConts d set i)) [] = if biList d (biConts d set i) = [] then [] else
        [(((pcConfigOfEnumIdx i d).1, (pcConfigOfEnumIdx i d).2.1),
          ((pcConfigOfEnumIdx i d).2.1, (pcConfigOfEnumIdx i d).2.2))] := fun i hi => by
    refine (edgeLoop_same _ fun j hj => ?_).2
    obtain ⟨-, e, he, rfl⟩ := biConts_dst.1 (mem_biList.1 hj).2
    obtain ⟨-, k1, k2, k3⟩ := g1 i hi
    simp [(g2 _ _ e k2 k3 he)]
  have hmem : ∀ i < d * d * d, ∀ x, x ∈ biEdgeLoop d ((pcConfigOfEnumIdx i d).1, (pcConfigOfEnumIdx i d).2.1)
      (biList d (biConts d set i)) [] ↔ x = (((pcConfigOfEnumIdx i d).1, (pcConfigOfEnumIdx i d).2.1),
        ((pcConfigOfEnumIdx i d).2.1, (pcConfigOfEnumIdx i d).2.2)) ∧
        ∃ e < d, enumIdxOfPcConfig ((pcConfigOfEnumIdx i d).2.1, (pcConfigOfEnumIdx i d).2.2, e) d ∈ set := by
    intro i hi x
    have hne : biList d (biConts d set i) ≠ [] ↔
        ∃ e < d, enumIdxOfPcConfig ((pcConfigOfEnumIdx i d).2.1, (pcConfigOfEnumIdx i d).2.2, e) d ∈ set := by
      constructor
      · intro h
        obtain ⟨j, hj⟩ := List.exists_mem_of_ne_nil _ h
        obtain ⟨hs, e, he, rfl⟩ := biConts_dst.1 (mem_biList.1 hj).2
        exact ⟨e, he, hs⟩
      · rintro ⟨e, he, hs⟩
        exact List.ne_nil_of_mem (mem_biList.2 ⟨hS _ hs, biConts_dst.2 ⟨hs, e, he, rfl⟩⟩)
    rw [hl i hi, ← hne]
    split_ifs with h0 <;> simp [h0]
  constructor
  · rw [biEdges, List.nodup_flatMap]
    refine ⟨fun i hi => ?_, ?_⟩
    · rw [hl i (mem_biList.1 hi).1]
      split_ifs <;> simp
    · have hn : (biList d set).Nodup := List.nodup_range.filter _
      refine (List.Pairwise.imp_of_mem ?_ hn)
      intro i j hi hj hij x hx hy
      have hi' := (mem_biList.1 hi).1
      have hj' := (mem_biList.1 hj).1
      have e := ((hmem i hi' x).1 hx).1.symm.trans ((hmem j hj' x).1 hy).1
      simp only [Prod.mk.injEq] at e
      apply hij
      rw [← (g1 i hi').1, ← (g1 j hj').1]
      rw [show pcConfigOfEnumIdx i d = pcConfigOfEnumIdx j d from Prod.ext e.1.1 (Prod.ext e.1.2 e.2.2)]
  · intro a b b' c
    simp only [biEdges, List.mem_flatMap]
    constructor
    · rintro ⟨i, hi, hx⟩
      obtain ⟨hi', his⟩ := mem_biList.1 hi
      obtain ⟨e, he⟩ := (hmem i hi' _).1 hx
      simp only [Prod.mk.injEq] at e
      obtain ⟨⟨rfl, rfl⟩, rfl, rfl⟩ := e
      obtain ⟨k0, k1, k2, k3⟩ := g1 i hi'
      refine ⟨rfl, ⟨k1, k2, k3⟩, ?_, he⟩
      rw [show ((pcConfigOfEnumIdx i d).1, (pcConfigOfEnumIdx i d).2.1, (pcConfigOfEnumIdx i d).2.2) =
        pcConfigOfEnumIdx i d from rfl, k0]
      exact his
    · rintro ⟨rfl, ⟨ha, hb, hc⟩, hm, he⟩
      refine ⟨_, mem_biList.2 ⟨hS _ hm, hm⟩, (hmem _ (hS _ hm) _).2 ?_⟩
      simpa [(g2 a b' c ha hb hc)] using he

/-- The graph of agreement on two values, and of a set whose configuration 001 has no continuation. -/
example : biEdges 2 {0, 7} = [((0, 0), (0, 0)), ((1, 1), (1, 1))] ∧ biEdges 2 {0, 1} = [((0, 0), (0, 0))] ∧
    biPairEdges 2 {0, 1, 6} = [(0, 0), (1, 1)] := by decide

end Verif.Props
