import Verif.Proofs.GenIso
import Mathlib.Tactic.IntervalCases
import Verif.Props.Classify

/-!
Properties C71 and C72: the search for ring protocols prints exactly the protocols it should, and no class of
isomorphic protocols is missed.
-/

set_option linter.unusedSectionVars false

namespace Verif.Props
open Verif.Model Verif.Spec Verif.Proofs

variable {o : GenOpt}

/-! ### The first candidates -/

private theorem mem_removeActs {d : ℕ} {f : ℕ → ℕ → ℕ} {s : Finset ℕ} {x : ℕ} :
    x ∈ removeActs d f s ↔ x ∈ s ∧ ∀ a < d, ∀ b < d, x ≠ f a b := by
  unfold removeActs
  rw [← List.foldl_map (f := fun p : ℕ × ℕ => f p.1 p.2) (g := fun (s : Finset ℕ) i => s.erase i), mem_foldl_erase]
  refine and_congr_right fun _ => ?_
  simp only [List.mem_map, not_exists, not_and]
  constructor
  · intro h a ha b hb e; exact h (a, b) (mem_pairsUpTo.2 ⟨ha, hb⟩) e.symm
  · rintro h ⟨a, b⟩ hp e
    have := mem_pairsUpTo.1 hp
    exact h a this.1 b this.2 e.symm

/-- The candidates of a stage of the search; the flags tell which actions were removed. -/
private def base (d : ℕ) (aab aba : Bool) : Finset ℕ := (Finset.range (d * d * d)).filter fun i =>
  (actOfId i d).2.1 ≠ (actOfId i d).2.2 ∧ (aab = true → (actOfId i d).1 ≠ (actOfId i d).2.1) ∧
    (aba = true → (actOfId i d).1 ≠ (actOfId i d).2.2)

private theorem mem_base {d : ℕ} {aab aba : Bool} {i : ℕ} : i ∈ base d aab aba ↔ i < d * d * d ∧
    (actOfId i d).2.1 ≠ (actOfId i d).2.2 ∧ (aab = true → (actOfId i d).1 ≠ (actOfId i d).2.1) ∧
    (aba = true → (actOfId i d).1 ≠ (actOfId i d).2.2) := by
  simp [base]

private theorem mem_base_id3 {d : ℕ} (hd : d ≤ 256) {aab aba : Bool} {a b c : ℕ} (ha : a < d) (hb : b < d)
    (hc : c < d) : id3 d a b c ∈ base d aab aba ↔ b ≠ c ∧ (aab = true → a ≠ b) ∧ (aba = true → a ≠ c) := by
  rw [mem_base, actOfId_id3 hd ha hb hc]
  simp [id3_lt ha hb hc]

private theorem base_ok (aab aba : Bool) : CandOk o (base o.domsz aab aba) := fun _ hi =>
  ⟨(mem_base.1 hi).1, (mem_base.1 hi).2.1⟩

private theorem ne_id3 {d x : ℕ} (hd : d ≤ 256) (hx : x < d * d * d) {f : ℕ → ℕ → ℕ × ℕ × ℕ}
    (hf : ∀ a < d, ∀ b < d, InDom d (f a b)) :
    (∀ a < d, ∀ b < d, x ≠ idOfT d (f a b)) ↔ ∀ a < d, ∀ b < d, actOfId x d ≠ f a b := by
  obtain ⟨h1, h2, h3, h4⟩ := id3_actOfId hd hx
  refine forall_congr' fun a => forall_congr' fun ha => forall_congr' fun b => forall_congr' fun hb => not_congr ?_
  obtain ⟨g1, g2, g3⟩ := hf a ha b hb
  constructor
  · intro e
    rw [e, idOfT, actOfId_id3 hd g1 g2 g3]
  · intro e
    rw [← h4, e]; rfl

private theorem remove_abb {d : ℕ} (hd : d ≤ 256) :
    removeActs d (fun a b => id3 d a b b) (Finset.range (d * d * d)) = base d false false := by
  ext x
  rw [mem_removeActs, mem_base, Finset.mem_range]
  refine and_congr_right fun hx => ?_
  obtain ⟨h1, h2, h3, h4⟩ := id3_actOfId hd hx
  have := ne_id3 hd hx (f := fun a b => (a, b, b)) fun a ha b hb => ⟨ha, hb, hb⟩
  simp only [idOfT] at this
  rw [this]
  simp only [Bool.false_eq_true, false_imp_iff, and_true, and_self]
  constructor
  · intro h e
    exact h _ h1 _ h2 (Prod.ext rfl (Prod.ext rfl e.symm))
  · intro h a ha b hb e
    rw [e] at h; exact h rfl

private theorem remove_aba {d : ℕ} (hd : d ≤ 256) (aab : Bool) {s : Finset ℕ}
    (hs : ∀ x ∈ s, x ∈ base d aab false)
    (hs' : ∀ x ∈ base d aab false, (actOfId x d).1 ≠ (actOfId x d).2.2 → x ∈ s) :
    removeActs d (fun a b => id3 d a b a) s = base d aab true := by
  ext x
  rw [mem_removeActs, mem_base]
  constructor
  · rintro ⟨hx, h⟩
    obtain ⟨g1, g2, g3, -⟩ := mem_base.1 (hs x hx)
    obtain ⟨h1, h2, h3, h4⟩ := id3_actOfId hd g1
    refine ⟨g1, g2, g3, fun _ e => ?_⟩
    have := ne_id3 hd g1 (f := fun a b => (a, b, a)) fun a ha b hb => ⟨ha, hb, ha⟩
    simp only [idOfT] at this
    exact this.1 h _ h1 _ h2 (Prod.ext rfl (Prod.ext rfl e.symm))
  · rintro ⟨g1, g2, g3, g4⟩
    refine ⟨hs' x (mem_base.2 ⟨g1, g2, g3, by simp⟩) (g4 rfl), ?_⟩
    have := ne_id3 hd g1 (f := fun a b => (a, b, a)) fun a ha b hb => ⟨ha, hb, ha⟩
    simp only [idOfT] at this
    rw [this]
    intro a ha b hb e
    rw [e] at g4; exact g4 rfl rfl

private theorem remove_aab {d : ℕ} (hd : d ≤ 256) (aba : Bool) {s : Finset ℕ}
    (hs : ∀ x ∈ s, x ∈ base d false aba)
    (hs' : ∀ x ∈ base d false aba, (actOfId x d).1 ≠ (actOfId x d).2.1 → x ∈ s) :
    removeActs d (fun a b => id3 d a a b) s = base d true aba := by
  ext x
  rw [mem_removeActs, mem_base]
  constructor
  · rintro ⟨hx, h⟩
    obtain ⟨g1, g2, -, g4⟩ := mem_base.1 (hs x hx)
    obtain ⟨h1, h2, h3, h4⟩ := id3_actOfId hd g1
    refine ⟨g1, g2, fun _ e => ?_, g4⟩
    have := ne_id3 hd g1 (f := fun a b => (a, a, b)) fun a ha b hb => ⟨ha, ha, hb⟩
    simp only [idOfT] at this
    exact this.1 h _ h1 _ h3 (Prod.ext rfl (Prod.ext e.symm rfl))
  · rintro ⟨g1, g2, g3, g4⟩
    refine ⟨hs' x (mem_base.2 ⟨g1, g2, by simp, g4⟩) (g3 rfl), ?_⟩
    have := ne_id3 hd g1 (f := fun a b => (a, a, b)) fun a ha b hb => ⟨ha, ha, hb⟩
    simp only [idOfT] at this
    rw [this]
    intro a ha b hb e
    rw [e] at g3; exact g3 rfl rfl

/-! ### One stage -/

/-- A single action has no periodic tiling. -/
private theorem free_single {B : Finset ℕ} (hd : o.domsz ≤ 256) (hB : CandOk o B) {x : ℕ} (hx : x ∈ B) :
    FreeOf o.domsz o.maxPeriod {x} := by
  by_contra hf
  have hok : SetOk o B {x} := ⟨by simpa using hx, by simp +contextual⟩
  obtain ⟨y, z, hy, hz, hne, -⟩ := two_tiles hf (hok.noSelf hd hB)
  simp at hy hz
  omega

private theorem free_empty : FreeOf o.domsz o.maxPeriod ∅ := by
  intro w h T _ _ _ _ ht
  simpa using (ht.tile 0 0).2

/-- The hypotheses on the options. -/
structure PlainOpts (o : GenOpt) (cfuel fuel : ℕ) : Prop where
  dom : o.domsz ≤ 256
  period : 1 ≤ o.maxPeriod
  ppgs : o.maxPpgs ≤ o.maxPeriod
  depth : o.domsz * o.domsz ≤ o.maxDepth
  cfuel : 2 * (o.domsz * o.domsz * o.domsz) + 1 < cfuel
  fuel : o.domsz * o.domsz ≤ fuel

private theorem startAt_spec {cfuel fuel : ℕ} (h : PlainOpts o cfuel fuel) {aab aba : Bool} {a b c : ℕ}
    (ha : a < o.domsz) (hb : b < o.domsz) (hc : c < o.domsz)
    (hin : id3 o.domsz a b c ∈ base o.domsz aab aba) :
    ∃ (s : Finset ℕ) (L : List (Finset ℕ)),
      startAt o cfuel fuel (base o.domsz aab aba) a b c = some (s, L.map (initPpgfun o.domsz)) ∧
      (∀ x ∈ s, x ∈ base o.domsz aab aba) ∧
      (∀ x ∈ base o.domsz aab aba, id3 o.domsz a b c < x → x ∈ s) ∧ L.Nodup ∧
      ∀ S, S ∈ L ↔ Sol o (base o.domsz aab aba) {id3 o.domsz a b c} (id3 o.domsz a b c) S := by
  have hB := base_ok (o := o) aab aba
  generalize base o.domsz aab aba = B at *
  have hi : idOf3 a b c o.domsz = some (id3 o.domsz a b c) := by simp [idOf3, ha, hb, hc, id3]
  generalize id3 o.domsz a b c = i at *
  have h0 : GInv o B [] i [B] := by
    refine ⟨rfl, by simp, ⟨by simp, by simp⟩, ?_, ?_, ?_, by simp⟩
    · intro k C hk x hx
      have : C = B := by have := List.mem_of_getElem? hk; simpa using this
      subst this; exact ⟨hx, by simp⟩
    · intro k C hk x hx _ _ _
      have : C = B := by have := List.mem_of_getElem? hk; simpa using this
      subst this; exact hx
    · intro k C C' _ hk; simp at hk
  obtain ⟨stack, L, e, g, hn, hm⟩ := recurse_spec h.dom h.period h.ppgs h.depth h.cfuel hB fuel []
    (by simpa using h.fuel) (by simpa using free_empty) [B] i h0 (by simpa using hin)
  have hl := g.last
  simp only [List.length_nil] at hl
  refine ⟨stack.getLastD ∅, L, ?_, fun x hx => (g.up _ _ hl x hx).1, fun x hx hlt => ?_, hn, ?_⟩
  · rw [startAt, hi, Option.bind_some]
    simp only [List.toFinset_nil] at e
    rw [e]; rfl
  · refine g.low _ _ hl x hx (by simpa using hlt) (by simp) ?_
    simpa using free_single h.dom hB hx
  · simpa using hm

/-! ### Sets and tables -/

/-- The set of the actions of a table. -/
private def setOf (P : List ℕ) (d : ℕ) : Finset ℕ := (Finset.range (d * d * d)).filter fun i =>
  P[(actOfId i d).1 * d + (actOfId i d).2.1]? = some (actOfId i d).2.2

private theorem actOf_setOf {P : List ℕ} {d : ℕ} (hd : d ≤ 256) (a b c : ℕ) :
    ActOf d (setOf P d) a b c ↔ PpgStep P d a b c := by
  unfold ActOf PpgStep InDom
  constructor
  · rintro ⟨⟨h1, h2, h3⟩, h4⟩
    simp only at h1 h2 h3
    rw [setOf, Finset.mem_filter, actOfId_id3 hd h1 h2 h3] at h4
    exact ⟨h1, h2, h3, h4.2⟩
  · rintro ⟨h1, h2, h3, h4⟩
    refine ⟨⟨h1, h2, h3⟩, ?_⟩
    rw [setOf, Finset.mem_filter, actOfId_id3 hd h1 h2 h3]
    exact ⟨by simpa using id3_lt h1 h2 h3, h4⟩

private theorem setOf_mem {P : List ℕ} {d i : ℕ} (hd : d ≤ 256) (hi : i ∈ setOf P d) :
    i < d * d * d ∧ PpgStep P d (actOfId i d).1 (actOfId i d).2.1 (actOfId i d).2.2 := by
  have h0 := Finset.mem_range.1 (Finset.mem_filter.1 hi).1
  obtain ⟨h1, h2, h3, h4⟩ := id3_actOfId hd h0
  exact ⟨h0, (actOf_setOf hd _ _ _).1 ⟨⟨h1, h2, h3⟩, by rw [h4]; exact hi⟩⟩

private theorem table_ext {P Q : List ℕ} {d : ℕ} (hP : PpgTable P d) (hQ : PpgTable Q d)
    (h : ∀ a b c, PpgStep P d a b c ↔ PpgStep Q d a b c) : P = Q := by
  refine List.ext_getElem (by rw [hP.1, hQ.1]) fun i h1 h2 => ?_
  have hi : i < d * d := by rw [← hP.1]; exact h1
  have hpos : 0 < d := by
    rcases Nat.eq_zero_or_pos d with h | h
    · rw [h] at hi; simp at hi
    · exact h
  have hk : i / d < d := by rw [Nat.div_lt_iff_lt_mul hpos]; omega
  have hm := Nat.mod_lt i hpos
  have ei : i / d * d + i % d = i := by rw [Nat.mul_comm]; exact Nat.div_add_mod i d
  have e1 : P[i]? = some P[i] := List.getElem?_eq_getElem h1
  have e2 : Q[i]? = some Q[i] := List.getElem?_eq_getElem h2
  have v1 := hP.2 _ (List.getElem_mem h1)
  have v2 := hQ.2 _ (List.getElem_mem h2)
  rcases Nat.lt_or_ge P[i] d with l1 | l1
  · have := (h (i / d) (i % d) P[i]).1 ⟨hk, hm, l1, by rw [ei]; exact e1⟩
    have := this.2.2.2
    rw [ei, e2, Option.some.injEq] at this
    exact this.symm
  · rcases Nat.lt_or_ge Q[i] d with l2 | l2
    · have := (h (i / d) (i % d) Q[i]).2 ⟨hk, hm, l2, by rw [ei]; exact e2⟩
      have := this.2.2.2
      rw [ei, e1, Option.some.injEq] at this
      exact this
    · omega

/-- Compatible sets with the same table are equal. -/
private theorem set_eq {B B' S S' : Finset ℕ} (hd : o.domsz ≤ 256) (hB : CandOk o B) (hB' : CandOk o B')
    (hS : SetOk o B S) (hS' : SetOk o B' S') (h : initPpgfun o.domsz S = initPpgfun o.domsz S') : S = S' := by
  obtain ⟨-, h1⟩ := initPpgfun_spec hd (hS.determ hd)
  obtain ⟨-, h2⟩ := initPpgfun_spec hd (hS'.determ hd)
  rw [h] at h1
  have key : ∀ a b c, ActOf o.domsz S a b c ↔ ActOf o.domsz S' a b c := fun a b c =>
    (h1 a b c).symm.trans (h2 a b c)
  have half : ∀ {S S' B : Finset ℕ}, CandOk o B → SetOk o B S →
      (∀ a b c, ActOf o.domsz S a b c → ActOf o.domsz S' a b c) → S ⊆ S' := by
    intro S S' B hB hS k x hx
    obtain ⟨g1, g2, g3, g4⟩ := id3_actOfId hd (hS.lt hB x hx)
    have := (k (actOfId x o.domsz).1 (actOfId x o.domsz).2.1 (actOfId x o.domsz).2.2
      ⟨⟨g1, g2, g3⟩, by rw [g4]; exact hx⟩).2
    rwa [g4] at this
  exact Finset.Subset.antisymm (half hB hS fun a b c => (key a b c).1) (half hB' hS' fun a b c => (key a b c).2)

/-- The conditions of a stage on a table. -/
private structure StageOk (o : GenOpt) (aab aba : Bool) (a b c : ℕ) (P : List ℕ) : Prop where
  space : SearchSpace o.nwDisabling P o.domsz
  noAab : aab = true → ∀ a c, ¬ PpgStep P o.domsz a a c
  noAba : aba = true → ∀ a b, ¬ PpgStep P o.domsz a b a
  start : PpgStep P o.domsz a b c
  may : livelockSemick o.maxPeriod o.maxPeriod P o.domsz = some .may
  bands : AllInBands P o.domsz
  canon : canonicalCk P o.domsz = some true

private theorem stage_iff (hd : o.domsz ≤ 256) {aab aba : Bool} (hnw : o.nwDisabling = true → aba = true) {a b c : ℕ}
    (ha : a < o.domsz) (hb : b < o.domsz) (hc : c < o.domsz)
    (hmin : ∀ x ∈ base o.domsz aab aba, x ≠ id3 o.domsz a b c → id3 o.domsz a b c < x) {P : List ℕ} :
    (∃ S, Sol o (base o.domsz aab aba) {id3 o.domsz a b c} (id3 o.domsz a b c) S ∧ initPpgfun o.domsz S = P) ↔
      StageOk o aab aba a b c P := by
  constructor
  · rintro ⟨S, hS, rfl⟩
    have hok := hS.ok
    obtain ⟨hP, hs⟩ := initPpgfun_spec hd (hok.determ hd)
    have hbase : ∀ {a b c}, PpgStep (initPpgfun o.domsz S) o.domsz a b c →
        b ≠ c ∧ (aab = true → a ≠ b) ∧ (aba = true → a ≠ c) := by
      intro a b c h
      have h' := (hs _ _ _).1 h
      exact (mem_base_id3 hd h.1 h.2.1 h.2.2.1).1 (hok.sub h'.2)
    have hrel : ActOf o.domsz S = PpgStep (initPpgfun o.domsz S) o.domsz := by
      funext a b c; exact propext (hs a b c).symm
    refine ⟨⟨hP.1, hP.2, fun a b c h => (hbase h).1, fun h0 a b c h e => (hbase h).2.2 (hnw h0) e.symm, ?_⟩,
      fun h0 a c h => (hbase h).2.1 h0 rfl, fun h0 a b h => (hbase h).2.2 h0 rfl, ?_, hS.good.may, ?_, hS.good.canon⟩
    · intro a b c a' b' c' h h' hne hex
      have k := (hs _ _ _).1 h
      have k' := (hs _ _ _).1 h'
      refine hok.compat _ k.2 _ k'.2 (fun e => hne ?_) ?_
      · obtain ⟨e1, e2, e3⟩ := id3_inj hd h.1 h.2.1 h.2.2.1 h'.1 h'.2.1 h'.2.2.1 e
        rw [e1, e2, e3]
      · unfold Excl
        rw [actOfId_id3 hd h.1 h.2.1 h.2.2.1, actOfId_id3 hd h'.1 h'.2.1 h'.2.2.1]
        exact hex
    · exact (hs _ _ _).2 ⟨⟨ha, hb, hc⟩, hS.sub (by simp)⟩
    · intro a b c h
      rw [← hrel]
      exact hS.good.band a b c ((hs _ _ _).1 h)
  · intro h
    have hact := actOf_setOf (P := P) hd
    have hok : SetOk o (base o.domsz aab aba) (setOf P o.domsz) := by
      refine ⟨fun x hx => ?_, fun x hx y hy hxy hex => ?_⟩
      · obtain ⟨h1, h2⟩ := setOf_mem hd hx
        refine mem_base.2 ⟨h1, h.space.moves _ _ _ h2, fun h0 e => ?_, fun h0 e => ?_⟩
        · rw [← e] at h2; exact h.noAab h0 _ _ h2
        · rw [← e] at h2; exact h.noAba h0 _ _ h2
      · obtain ⟨h1, h2⟩ := setOf_mem hd hx
        obtain ⟨h3, h4⟩ := setOf_mem hd hy
        refine h.space.compat _ _ _ _ _ _ h2 h4 (fun e => hxy ?_) hex
        obtain ⟨-, -, -, e1⟩ := id3_actOfId hd h1
        obtain ⟨-, -, -, e2⟩ := id3_actOfId hd h3
        simp only [Prod.mk.injEq] at e
        rw [← e1, ← e2, e.1, e.2.1, e.2.2]
    obtain ⟨hQ, hq⟩ := initPpgfun_spec hd (hok.determ hd)
    have hrel : ActOf o.domsz (setOf P o.domsz) = PpgStep P o.domsz := by
      funext a b c; exact propext (hact a b c)
    have e : initPpgfun o.domsz (setOf P o.domsz) = P :=
      table_ext hQ ⟨h.space.len, h.space.vals⟩ fun a b c => (hq a b c).trans (hact a b c)
    refine ⟨setOf P o.domsz, ⟨?_, hok, ⟨by rw [e]; exact h.may, ?_, by rw [e]; exact h.canon⟩, fun x hx hne => ?_⟩, e⟩
    · rw [Finset.singleton_subset_iff]
      exact ((hact a b c).2 h.start).2
    · intro a b c hab
      rw [hrel]
      exact h.bands a b c ((hact a b c).1 hab)
    · exact hmin x (hok.sub hx) (by simpa using hne)

/-! ### C71 -/

/-- C71: if only livelocks of one size are searched (`-cutoff`) and the depth is not limited, then the search ends,
and it prints exactly the functions of the search space whose first action is named in order, for which
`livelock_semick` says `Maybe`, whose actions are all in bands, and which `canonical_ck` accepts; each of
them once. -/
theorem C71_search_exact {cfuel fuel : ℕ} (hd : 3 ≤ o.domsz) (h : PlainOpts o cfuel fuel) :
    ∃ out, searchit o cfuel fuel = some out ∧ out.Nodup ∧ ∀ P, P ∈ out ↔
      SearchSpace o.nwDisabling P o.domsz ∧ FirstNamed P o.domsz ∧
        livelockSemick o.maxPeriod o.maxPeriod P o.domsz = some .may ∧ AllInBands P o.domsz ∧
        canonicalCk P o.domsz = some true := by
  have hdom := h.dom
  have h0 : 0 < o.domsz := by omega
  have h1 : 1 < o.domsz := by omega
  have h2 : 2 < o.domsz := by omega
  -- the smallest candidates
  have min1 : ∀ aba, ∀ x ∈ base o.domsz false aba, x ≠ id3 o.domsz 0 0 1 → id3 o.domsz 0 0 1 < x := by
    intro aba x hx hne
    have : x ≠ 0 := by rintro rfl; exact zero_notMem (base_ok false aba) hdom hx
    simp only [id3] at *
    omega
  have ge : ∀ aba, ∀ x ∈ base o.domsz true aba, ∃ a b c, a < o.domsz ∧ b < o.domsz ∧ c < o.domsz ∧ a ≠ b ∧ b ≠ c ∧
      (aba = true → a ≠ c) ∧ x = id3 o.domsz a b c := by
    intro aba x hx
    obtain ⟨g1, g2, g3, g4⟩ := mem_base.1 hx
    obtain ⟨k1, k2, k3, k4⟩ := id3_actOfId hdom g1
    exact ⟨_, _, _, k1, k2, k3, g3 rfl, g2, g4, k4.symm⟩
  have min2 : ∀ x ∈ base o.domsz true false, x ≠ id3 o.domsz 0 1 0 → id3 o.domsz 0 1 0 < x := by
    intro x hx hne
    obtain ⟨a, b, c, ha, hb, hc, hab, hbc, -, rfl⟩ := ge _ x hx
    rw [id3_lt_iff h1 h0 hb hc]
    by_contra hcon
    have : a = 0 ∧ b = 1 ∧ c = 0 := by omega
    obtain ⟨rfl, rfl, rfl⟩ := this
    exact hne rfl
  have min3 : ∀ x ∈ base o.domsz true true, x ≠ id3 o.domsz 0 1 2 → id3 o.domsz 0 1 2 < x := by
    intro x hx hne
    obtain ⟨a, b, c, ha, hb, hc, hab, hbc, hac, rfl⟩ := ge _ x hx
    have hac := hac rfl
    rw [id3_lt_iff h1 h2 hb hc]
    by_contra hcon
    have : a = 0 ∧ b = 1 ∧ c = 2 := by omega
    obtain ⟨rfl, rfl, rfl⟩ := this
    exact hne rfl
  -- stage 1
  have hc0 : (if o.nwDisabling = true then removeActs o.domsz (fun a b => id3 o.domsz a b a)
      (removeActs o.domsz (fun a b => id3 o.domsz a b b) (Finset.range (o.domsz * o.domsz * o.domsz)))
      else removeActs o.domsz (fun a b => id3 o.domsz a b b) (Finset.range (o.domsz * o.domsz * o.domsz))) =
      base o.domsz false o.nwDisabling := by
    rw [remove_abb hdom]
    cases hnw : o.nwDisabling with
    | false => rfl
    | true => rw [if_pos rfl]; exact remove_aba hdom false (fun _ h => h) (fun _ h _ => h)
  obtain ⟨s1, L1, e1, u1, l1, n1, m1⟩ := startAt_spec h (aab := false) (aba := o.nwDisabling) h0 h0 h1
    ((mem_base_id3 hdom h0 h0 h1).2 ⟨by omega, by simp, fun _ => by omega⟩)
  have hc1 : removeActs o.domsz (fun a b => id3 o.domsz a a b) s1 = base o.domsz true o.nwDisabling := by
    refine remove_aab hdom _ u1 fun x hx hne => l1 x hx (min1 _ x hx ?_)
    rintro rfl
    rw [actOfId_id3 hdom h0 h0 h1] at hne
    exact hne rfl
  -- stage 2
  have hst2 : ∃ L2 : List (Finset ℕ), (if !o.nwDisabling then
      (startAt o cfuel fuel (base o.domsz true o.nwDisabling) 0 1 0).map fun r2 =>
        (removeActs o.domsz (fun a b => id3 o.domsz a b a) r2.1, r2.2)
      else some (base o.domsz true o.nwDisabling, [])) =
        some (base o.domsz true true, L2.map (initPpgfun o.domsz)) ∧ L2.Nodup ∧
      ∀ S, S ∈ L2 ↔ o.nwDisabling = false ∧
        Sol o (base o.domsz true false) {id3 o.domsz 0 1 0} (id3 o.domsz 0 1 0) S := by
    cases hnw : o.nwDisabling with
    | true => exact ⟨[], by simp, List.nodup_nil, by simp⟩
    | false =>
      obtain ⟨s2, L2, e2, u2, l2, n2, m2⟩ := startAt_spec h (aab := true) (aba := false) h0 h1 h0
        ((mem_base_id3 hdom h0 h1 h0).2 ⟨by omega, fun _ => by omega, by simp⟩)
      refine ⟨L2, ?_, n2, fun S => by simp [m2]⟩
      rw [e2]
      simp only [Bool.not_false, if_true, Option.map_some]
      rw [remove_aba hdom true u2 fun x hx hne => l2 x hx (min2 x hx ?_)]
      rintro rfl
      rw [actOfId_id3 hdom h0 h1 h0] at hne
      exact hne rfl
  obtain ⟨L2, e2, n2, m2⟩ := hst2
  -- stage 3
  obtain ⟨s3, L3, e3, -, -, n3, m3⟩ := startAt_spec h (aab := true) (aba := true) h0 h1 h2
    ((mem_base_id3 hdom h0 h1 h2).2 ⟨by omega, fun _ => by omega, fun _ => by omega⟩)
  refine ⟨(L1 ++ L2 ++ L3).map (initPpgfun o.domsz), ?_, ?_, fun P => ?_⟩
  · unfold searchit
    simp only
    rw [hc0, e1, Option.bind_some]
    simp only
    rw [hc1, e2, Option.bind_some]
    simp only
    rw [e3]
    simp
  · -- no two sets are equal, and no two have the same function
    have ok : ∀ S ∈ L1 ++ L2 ++ L3, ∃ aab aba, SetOk o (base o.domsz aab aba) S := by
      intro S hS
      rw [List.mem_append, List.mem_append, m1, m2, m3] at hS
      rcases hS with (hS | hS) | hS
      · exact ⟨_, _, hS.ok⟩
      · exact ⟨_, _, hS.2.ok⟩
      · exact ⟨_, _, hS.ok⟩
    refine List.Nodup.map_on (fun S hS S' hS' e => ?_) ?_
    · obtain ⟨_, _, k⟩ := ok S hS
      obtain ⟨_, _, k'⟩ := ok S' hS'
      exact set_eq hdom (base_ok _ _) (base_ok _ _) k k' e
    · refine List.Nodup.append (List.Nodup.append n1 n2 ?_) n3 ?_
      · intro S hS hS'
        have k1 := ((m1 S).1 hS).sub (Finset.mem_singleton_self _)
        have k2 := ((m2 S).1 hS').2.ok.sub k1
        have := (mem_base_id3 hdom h0 h0 h1).1 k2
        exact this.2.1 rfl rfl
      · intro S hS hS'
        have hok := ((m3 S).1 hS').ok
        rcases List.mem_append.1 hS with hS | hS
        · have k1 := ((m1 S).1 hS).sub (Finset.mem_singleton_self _)
          have := (mem_base_id3 hdom h0 h0 h1).1 (hok.sub k1)
          exact this.2.1 rfl rfl
        · have k1 := ((m2 S).1 hS).2.sub (Finset.mem_singleton_self _)
          have := (mem_base_id3 hdom h0 h1 h0).1 (hok.sub k1)
          exact this.2.2 rfl rfl
  · have q1 := stage_iff hdom (aab := false) (aba := o.nwDisabling) (fun h => h) h0 h0 h1 (min1 _) (P := P)
    have q3 := stage_iff hdom (aab := true) (aba := true) (fun _ => rfl) h0 h1 h2 min3 (P := P)
    have key : P ∈ (L1 ++ L2 ++ L3).map (initPpgfun o.domsz) ↔
        StageOk o false o.nwDisabling 0 0 1 P ∨ (o.nwDisabling = false ∧ StageOk o true false 0 1 0 P) ∨
          StageOk o true true 0 1 2 P := by
      rw [← q1, ← q3]
      simp only [List.map_append, List.mem_append, List.mem_map, m1, m2, m3]
      by_cases hnw : o.nwDisabling = false
      · have q2 := stage_iff hdom (aab := true) (aba := false) (fun h => by rw [hnw] at h; cases h) h0 h1 h0 min2
          (P := P)
        rw [← q2]
        simp only [hnw, true_and, or_assoc]
      · rw [Bool.not_eq_false] at hnw
        simp [hnw]
    rw [key]
    constructor
    · rintro (k | ⟨-, k⟩ | k)
      · exact ⟨k.space, .inl k.start, k.may, k.bands, k.canon⟩
      · exact ⟨k.space, .inr ⟨k.noAab rfl, .inl k.start⟩, k.may, k.bands, k.canon⟩
      · exact ⟨k.space, .inr ⟨k.noAab rfl, .inr ⟨k.noAba rfl, k.start⟩⟩, k.may, k.bands, k.canon⟩
    · rintro ⟨sp, fn, my, bd, cn⟩
      rcases fn with k | ⟨k, k' | ⟨k', k''⟩⟩
      · exact .inl ⟨sp, by simp, fun h a b hs => sp.noCopy h a b a hs rfl, k, my, bd, cn⟩
      · refine .inr (.inl ⟨?_, sp, fun _ => k, by simp, k', my, bd, cn⟩)
        by_contra hnw
        exact sp.noCopy (by simpa using hnw) 0 1 0 k' rfl
      · exact .inr (.inr ⟨sp, fun _ => k, fun _ => k', k'', my, bd, cn⟩)

/-- C71: domains of one or two values are not supported: the last start fails in `id_of3`. -/
theorem C71_small_domains {cfuel fuel : ℕ} (hd : o.domsz ≤ 2) : searchit o cfuel fuel = none := by
  have h3 : ∀ c, startAt o cfuel fuel c 0 1 2 = none := by
    intro c
    have : idOf3 0 1 2 o.domsz = none := by
      unfold idOf3
      rw [if_neg (by omega)]
    rw [startAt, this]; rfl
  unfold searchit
  simp only [h3, Option.map_none, Option.bind_none]
  cases startAt o cfuel fuel _ 0 0 1 with
  | none => rfl
  | some r1 =>
    rw [Option.bind_some]
    split
    · cases startAt o cfuel fuel _ 0 1 0 <;> rfl
    · rfl

/-- The options of the sample search. -/
def sampleGen : GenOpt := ⟨3, 9, 1, 1, true, false, 0⟩

theorem sampleGen_plain : PlainOpts sampleGen 60 9 := by
  constructor <;> decide

set_option maxRecDepth 100000 in
/-- The sample search prints five functions. -/
theorem sampleGen_out : searchit sampleGen 60 9 = some [[1, 3, 1, 2, 2, 3, 3, 0, 0], [1, 3, 3, 3, 2, 3, 3, 3, 0],
    [3, 0, 0, 2, 3, 3, 1, 3, 3], [3, 0, 3, 3, 3, 1, 2, 3, 3], [3, 2, 3, 3, 3, 0, 1, 3, 3]] := by decide +kernel

/-- A function with one action is not printed, for its action is in no band; the function of the increments is. -/
example : ¬ AllInBands [1, 3, 3, 3, 3, 3, 3, 3, 3] 3 ∧ AllInBands [1, 3, 3, 3, 2, 3, 3, 3, 0] 3 := by
  obtain ⟨out, e, -, h⟩ := C71_search_exact (o := sampleGen) (le_refl 3) sampleGen_plain
  rw [sampleGen_out, Option.some.injEq] at e
  subst e
  constructor
  · intro hb
    obtain ⟨n, t, m, b, hband, h1, h2⟩ := hb 0 0 1 (by unfold PpgStep; decide)
    have only : ∀ a b c, PpgStep [1, 3, 3, 3, 3, 3, 3, 3, 3] 3 a b c → a = 0 ∧ c = 1 := by
      rintro a b c ⟨ha, hb, hc, e⟩
      interval_cases a <;> interval_cases b <;> simp at e <;> omega
    have k1 := (only _ _ _ (hband.mid 0)).2
    have k2 := (only _ _ _ (hband.mid 1)).1
    simp only [Nat.zero_add] at k1
    omega
  · exact ((h [1, 3, 3, 3, 2, 3, 3, 3, 0]).1 (by simp)).2.2.2.1

/-! ### C72 -/

private theorem printed_of_least {cfuel fuel : ℕ} (hd : 3 ≤ o.domsz) (h : PlainOpts o cfuel fuel) {out : List (List ℕ)}
    (hout : searchit o cfuel fuel = some out) {P : List ℕ} (hP : SearchSpace o.nwDisabling P o.domsz)
    (hne : ∃ a b c, PpgStep P o.domsz a b c) (hband : AllInBands P o.domsz)
    (hfree : ∀ w k T, 1 ≤ w → w ≤ o.maxPeriod → 1 ≤ k → k ≤ o.maxPeriod → ¬ Torus P o.domsz w k T)
    (hnil : ∀ (σ : Equiv.Perm (Fin o.domsz)) (Q : List ℕ), PpgTable Q o.domsz → PpgRenamed σ P Q →
      livelockSemick o.maxPeriod o.maxPeriod Q o.domsz ≠ some .nil) :
    ∃ (σ : Equiv.Perm (Fin o.domsz)) (Q : List ℕ), PpgRenamed σ P Q ∧ Q ∈ out := by
  obtain ⟨out', e, -, hmem⟩ := C71_search_exact hd h
  rw [hout, Option.some.injEq] at e
  subst e
  have hT : PpgTable P o.domsz := ⟨hP.len, hP.vals⟩
  obtain ⟨σ, Q, n, r, hv, hmin⟩ := exists_least_renaming o.domsz (by omega) P hP.len hP.vals
  have hQ := renamed_space hP ⟨n, hv⟩ r
  refine ⟨σ, Q, r, (hmem Q).2 ⟨hQ, ?_, ?_, renamed_bands hT r hband, ?_⟩⟩
  · obtain ⟨a, b, c, hs⟩ := hne
    exact least_firstNamed hd hQ ⟨_, _, _, renamed_step r hs⟩ hmin
  · obtain ⟨v, hv'⟩ := C29_terminates (fuel := o.maxPeriod) (show PpgTable Q o.domsz from ⟨n, hv⟩) h.period le_rfl
    cases v with
    | may => exact hv'
    | nil => exact absurd hv' (hnil σ Q ⟨n, hv⟩ r)
    | yes row col =>
      exfalso
      obtain ⟨w, k, T, h1, h2, h3, h4, ht⟩ := (C59_yes_exact (show PpgTable Q o.domsz from ⟨n, hv⟩) h.period le_rfl).1
        ⟨row, col, hv'⟩
      exact hfree w k _ h1 h2 h3 h4 (renamed_torus (renamed_symm hT r) ht)
  · obtain ⟨b, e, hb⟩ := C34_canonical_ck_partial o.domsz (by omega) Q n hv
    rw [e, hb hmin]

/-- C72: every protocol of the search space that has an infinite execution in some ring but no periodic tiling up to
the limit, and whose actions are all in bands, is printed up to renaming of the values. -/
theorem C72_no_class_missed {cfuel fuel : ℕ} (hd : 3 ≤ o.domsz) (h : PlainOpts o cfuel fuel) {out : List (List ℕ)}
    (hout : searchit o cfuel fuel = some out) {P : List ℕ} (hP : SearchSpace o.nwDisabling P o.domsz) {n : ℕ}
    (hn : 1 ≤ n) (hl : HasLivelock (PpgProtocol P o.domsz : ZMod n → ℕ → ℕ → ℕ → Prop))
    (hband : AllInBands P o.domsz)
    (hfree : ∀ w k T, 1 ≤ w → w ≤ o.maxPeriod → 1 ≤ k → k ≤ o.maxPeriod → ¬ Torus P o.domsz w k T) :
    ∃ (σ : Equiv.Perm (Fin o.domsz)) (Q : List ℕ), PpgRenamed σ P Q ∧ Q ∈ out := by
  refine printed_of_least hd h hout hP ?_ hband hfree fun σ Q hQ r hnil => ?_
  · obtain ⟨e, he⟩ := hl
    obtain ⟨i, c, hs, -⟩ := he 0
    exact ⟨_, _, _, hs⟩
  · exact C30_no_livelock hQ h.period (space_selfDisabling (renamed_space hP hQ r)) hnil hn (renamed_livelock r hl)

/-- C72: of every protocol of the search space that has a periodic tiling, but none up to the limit, the
actions of that tiling are printed as a protocol, up to renaming of the values. -/
theorem C72_tiling_found {cfuel fuel : ℕ} (hd : 3 ≤ o.domsz) (h : PlainOpts o cfuel fuel) {out : List (List ℕ)}
    (hout : searchit o cfuel fuel = some out) {P : List ℕ} (hP : SearchSpace o.nwDisabling P o.domsz) {w k : ℕ}
    {T : ℕ → ℕ → ℕ} (hw : 1 ≤ w) (hk : 1 ≤ k) (ht : Torus P o.domsz w k T)
    (hfree : ∀ w k T, 1 ≤ w → w ≤ o.maxPeriod → 1 ≤ k → k ≤ o.maxPeriod → ¬ Torus P o.domsz w k T) :
    ∃ (P' : List ℕ) (σ : Equiv.Perm (Fin o.domsz)) (Q : List ℕ), PpgTable P' o.domsz ∧
      (∀ a b c, PpgStep P' o.domsz a b c ↔ ∃ i j, a = T (i + 1) j ∧ b = T i (j + 1) ∧ c = T (i + 1) (j + 1)) ∧
      PpgRenamed σ P' Q ∧ Q ∈ out := by
  classical
  let R : ℕ → ℕ → Prop := fun a b => ∃ i j, a = T (i + 1) j ∧ b = T i (j + 1)
  let P' : List ℕ := (List.range (o.domsz * o.domsz)).map fun i =>
    if R (i / o.domsz) (i % o.domsz) then P.getD i o.domsz else o.domsz
  have hT : PpgTable P o.domsz := ⟨hP.len, hP.vals⟩
  have hpos : 0 < o.domsz := by omega
  have hT' : PpgTable P' o.domsz := by
    refine ⟨by simp [P'], fun v hv => ?_⟩
    obtain ⟨i, hi, rfl⟩ := List.mem_map.1 hv
    rw [List.mem_range] at hi
    split
    · rw [List.getD_eq_getElem?_getD, List.getElem?_eq_getElem (by rw [hP.len]; exact hi)]
      exact hP.vals _ (List.getElem_mem _)
    · exact le_rfl
  have hstep : ∀ a b c, PpgStep P' o.domsz a b c ↔ PpgStep P o.domsz a b c ∧ R a b := by
    intro a b c
    unfold PpgStep
    constructor
    · rintro ⟨ha, hb, hc, e⟩
      have hlt := pair_lt ha hb
      have e1 : (a * o.domsz + b) / o.domsz = a := by
        rw [Nat.mul_comm, Nat.mul_add_div hpos, Nat.div_eq_of_lt hb, Nat.add_zero]
      have e2 : (a * o.domsz + b) % o.domsz = b := by
        rw [Nat.mul_comm, Nat.mul_add_mod, Nat.mod_eq_of_lt hb]
      simp only [P', List.getElem?_map, List.getElem?_range hlt, Option.map_some, e1, e2, Option.some.injEq] at e
      split at e
      · rename_i hR
        refine ⟨⟨ha, hb, hc, ?_⟩, hR⟩
        rw [List.getD_eq_getElem?_getD, List.getElem?_eq_getElem (by rw [hP.len]; exact hlt)] at e
        rw [List.getElem?_eq_getElem (by rw [hP.len]; exact hlt)]
        simpa using e
      · omega
    · rintro ⟨⟨ha, hb, hc, e⟩, hR⟩
      have hlt := pair_lt ha hb
      have e1 : (a * o.domsz + b) / o.domsz = a := by
        rw [Nat.mul_comm, Nat.mul_add_div hpos, Nat.div_eq_of_lt hb, Nat.add_zero]
      have e2 : (a * o.domsz + b) % o.domsz = b := by
        rw [Nat.mul_comm, Nat.mul_add_mod, Nat.mod_eq_of_lt hb]
      refine ⟨ha, hb, hc, ?_⟩
      simp only [P', List.getElem?_map, List.getElem?_range hlt, Option.map_some, e1, e2, if_pos hR,
        List.getD_eq_getElem?_getD, e, Option.getD_some]
  have ht' : Torus P' o.domsz w k T := ⟨fun r c => (hstep _ _ _).2 ⟨ht.tile r c, r, c, rfl, rfl⟩, ht.rows, ht.cols⟩
  have hP' : SearchSpace o.nwDisabling P' o.domsz :=
    ⟨hT'.1, hT'.2, fun a b c h => hP.moves _ _ _ ((hstep _ _ _).1 h).1,
      fun hn a b c h => hP.noCopy hn _ _ _ ((hstep _ _ _).1 h).1,
      fun a b c a' b' c' h h' => hP.compat _ _ _ _ _ _ ((hstep _ _ _).1 h).1 ((hstep _ _ _).1 h').1⟩
  have hact : ∀ a b c, PpgStep P' o.domsz a b c ↔
      ∃ i j, a = T (i + 1) j ∧ b = T i (j + 1) ∧ c = T (i + 1) (j + 1) := by
    intro a b c
    constructor
    · intro hs
      obtain ⟨hs, i, j, rfl, rfl⟩ := (hstep _ _ _).1 hs
      refine ⟨i, j, rfl, rfl, ?_⟩
      have := (ht.tile i j).2.2.2
      rw [hs.2.2.2, Option.some.injEq] at this
      exact this
    · rintro ⟨i, j, rfl, rfl, rfl⟩; exact ht'.tile i j
  have hband : AllInBands P' o.domsz := by
    intro a b c hs
    obtain ⟨i, j, rfl, rfl, rfl⟩ := (hact _ _ _).1 hs
    obtain ⟨t, m, bt, hb, h1, h2, -⟩ := band_of_torus hw hk ht' i j
    exact ⟨w, t, m, bt, hb, h1, h2⟩
  obtain ⟨σ, Q, r, hm⟩ := printed_of_least hd h hout hP' ⟨_, _, _, ht'.tile 0 0⟩ hband
    (fun w k T h1 h2 h3 h4 ht2 =>
      hfree w k T h1 h2 h3 h4 ⟨fun r c => ((hstep _ _ _).1 (ht2.tile r c)).1, ht2.rows, ht2.cols⟩)
    fun σ Q hQ r => nil_no_torus hQ h.period hw hk (renamed_torus r ht')
  exact ⟨P', σ, Q, hT', hact, r, hm⟩

/-- The protocol of the decrements. -/
def sampleDec : List ℕ := [2, 3, 3, 3, 0, 3, 3, 3, 1]

private theorem sampleDec_step {a b c : ℕ} (h : PpgStep sampleDec 3 a b c) :
    a = b ∧ ((a = 0 ∧ c = 2) ∨ (a = 1 ∧ c = 0) ∨ (a = 2 ∧ c = 1)) := by
  obtain ⟨ha, hb, hc, e⟩ := h
  unfold sampleDec at e
  interval_cases a <;> interval_cases b <;> simp at e <;> omega

private theorem sampleDec_space : SearchSpace false sampleDec 3 := by
  refine ⟨by decide, by decide, fun a b c h => ?_, by simp, fun a b c a' b' c' h h' hne hex => ?_⟩
  · have := sampleDec_step h; omega
  · have h1 := sampleDec_step h
    have h2 := sampleDec_step h'
    simp only [Exclude, ne_eq, Prod.mk.injEq] at hne hex
    simp only [Bool.false_eq_true, false_and, or_false] at hex
    omega

private theorem sampleDec_torus : Torus sampleDec 3 3 3 fun r c => 2 * (r + c) % 3 := by
  refine ⟨fun r c => ?_, fun r c => by omega, fun r c => by omega⟩
  have h1 : 2 * (r + 1 + c) % 3 = 2 * (r + (c + 1)) % 3 := by omega
  have h2 : 2 * (r + 1 + (c + 1)) % 3 = (2 * (r + (c + 1)) % 3 + 2) % 3 := by omega
  rw [h1, h2]
  have hlt : 2 * (r + (c + 1)) % 3 < 3 := by omega
  generalize 2 * (r + (c + 1)) % 3 = v at *
  unfold PpgStep
  interval_cases v <;> decide

private theorem sampleDec_free (w k : ℕ) (T : ℕ → ℕ → ℕ) (h1 : 1 ≤ w) (h2 : w ≤ 1) (h3 : 1 ≤ k) (h4 : k ≤ 1) :
    ¬ Torus sampleDec 3 w k T := by
  intro ht
  obtain rfl : w = 1 := by omega
  obtain rfl : k = 1 := by omega
  have := sampleDec_space.moves _ _ _ (ht.tile 0 0)
  rw [ht.rows 0 1] at this
  exact this rfl

/-- A case of C72: the decrements are not printed themselves, but they are isomorphic to something printed. -/
example : ∃ (σ : Equiv.Perm (Fin 3)) (Q : List ℕ), PpgRenamed σ sampleDec Q ∧
    Q ∈ [[1, 3, 1, 2, 2, 3, 3, 0, 0], [1, 3, 3, 3, 2, 3, 3, 3, 0], [3, 0, 0, 2, 3, 3, 1, 3, 3],
      [3, 0, 3, 3, 3, 1, 2, 3, 3], [3, 2, 3, 3, 3, 0, 1, 3, 3]] := by
  refine C72_no_class_missed (o := sampleGen) (le_refl 3) sampleGen_plain sampleGen_out sampleDec_space (n := 12)
    (by omega) (torus_livelock (show 1 ≤ 3 by omega) (show 1 ≤ 3 by omega) sampleDec_torus) ?_ sampleDec_free
  intro a b c hs
  have hx : a < 3 ∧ a = b := ⟨hs.1, (sampleDec_step hs).1⟩
  obtain ⟨t, m, bt, hb, h1, h2, -⟩ := band_of_torus (show 1 ≤ 3 by omega) (show 1 ≤ 3 by omega) sampleDec_torus
    (2 * a) 2
  exact ⟨3, t, m, bt, hb, by rw [h1]; show 2 * (2 * a + 1 + 2) % 3 = a; omega,
    by rw [h2]; show 2 * (2 * a + (2 + 1)) % 3 = b; omega⟩

example := C72_tiling_found (o := sampleGen) (le_refl 3) sampleGen_plain sampleGen_out sampleDec_space
    (show 1 ≤ 3 by omega) (show 1 ≤ 3 by omega) sampleDec_torus sampleDec_free

end Verif.Props
