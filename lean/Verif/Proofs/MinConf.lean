import Verif.Model.MinConf
import Verif.Spec.MinConf
import Verif.Proofs.Drive

/-!
Lemmas for property C106: making conflicts smaller.
-/

set_option linter.unusedSectionVars false

namespace Verif.Proofs
open Verif.Model Verif.Spec Verif.Props

/-! ### The order -/

/-- The tables of the conflicts of each size. -/
theorem buckets (l : List (Finset ℕ)) : ∃ N, (∀ b ∈ l, b.card < N) ∧
    l.foldl bucketPush [] = (List.range N).map fun k => l.filter (·.card = k) := by
  induction l using List.reverseRecOn with
  | nil => exact ⟨0, by simp, rfl⟩
  | append_singleton l b ih =>
    obtain ⟨N, h1, h2⟩ := ih
    rw [List.foldl_append, List.foldl_cons, List.foldl_nil, h2]
    have hgrow : ∀ M, N ≤ M → ((List.range N).map fun k => l.filter (·.card = k)) ++ List.replicate (M - N) [] =
        (List.range M).map fun k => l.filter (·.card = k) := by
      intro M hM
      apply List.ext_getElem?
      intro i
      rw [List.getElem?_append]
      simp only [List.length_map, List.length_range, List.getElem?_map]
      split
      · rename_i hi
        rw [List.getElem?_range hi, List.getElem?_range (by omega)]
      · rename_i hi
        by_cases hiM : i < M
        · rw [List.getElem?_range hiM, List.getElem?_replicate, if_pos (by omega)]
          simp only [Option.map_some, Option.some.injEq]
          symm
          rw [List.filter_eq_nil_iff]
          intro a ha
          have := h1 a ha
          simp only [decide_eq_true_eq]
          omega
        · rw [List.getElem?_replicate, if_neg (by omega), List.getElem?_eq_none (by simpa using hiM)]
          rfl
    refine ⟨max N (b.card + 1), ?_, ?_⟩
    · intro a ha
      rcases List.mem_append.1 ha with h | h
      · have := h1 a h; omega
      · rw [List.mem_singleton.1 h]; omega
    · have e : bucketPush ((List.range N).map fun k => l.filter (·.card = k)) b =
          ((List.range (max N (b.card + 1))).map fun k => l.filter (·.card = k)).modify b.card (· ++ [b]) := by
        unfold bucketPush
        simp only [List.length_map, List.length_range]
        split
        · rename_i hN
          rw [← hgrow (max N (b.card + 1)) (by omega)]
          have : 1 + b.card - N = max N (b.card + 1) - N := by omega
          rw [this]
        · rename_i hN
          have : max N (b.card + 1) = N := by omega
          rw [this]
      rw [e]
      apply List.ext_getElem?
      intro i
      rw [List.getElem?_modify]
      simp only [List.getElem?_map]
      by_cases hi : i < max N (b.card + 1)
      · rw [List.getElem?_range hi]
        simp only [Option.map_some, Option.some.injEq, List.filter_append]
        by_cases hb : b.card = i
        · simp [hb]
        · simp [hb]
      · rw [List.getElem?_eq_none (by simpa using hi)]
        rfl

theorem filter_flat (l : List (Finset ℕ)) (k : ℕ) : ∀ (ks : List ℕ), ks.Nodup →
    ((ks.map fun j => l.filter (·.card = j)).flatten).filter (·.card = k) =
      if k ∈ ks then l.filter (·.card = k) else [] := by
  intro ks
  induction ks with
  | nil => intro _; rfl
  | cons j ks ih =>
    intro hn
    rw [List.nodup_cons] at hn
    rw [List.map_cons, List.flatten_cons, List.filter_append, ih hn.2, List.filter_filter]
    by_cases hj : k = j
    · subst hj
      rw [if_neg hn.1, if_pos (List.mem_cons_self ..), List.append_nil]
      congr 1
      funext a
      simp
    · have : l.filter (fun a => decide (a.card = k) && decide (a.card = j)) = [] := by
        rw [List.filter_eq_nil_iff]
        intro a _
        simp only [Bool.and_eq_true, decide_eq_true_eq]
        omega
      rw [this, List.nil_append]
      simp only [List.mem_cons, hj, false_or]

theorem stable_perm {l l' : List (Finset ℕ)} (h : ∀ k, l'.filter (·.card = k) = l.filter (·.card = k)) : l'.Perm l := by
  rw [List.perm_iff_count]
  intro a
  have e : ∀ m : List (Finset ℕ), m.count a = (m.filter (·.card = a.card)).count a := by
    intro m
    rw [List.count_filter]
    simp
  rw [e l', e l, h]

theorem pairwise_flat {r : ℕ → ℕ → Prop} (l : List (Finset ℕ)) (hr : ∀ k, r k k) : ∀ (ks : List ℕ), ks.Pairwise r →
    ((ks.map fun j => l.filter (·.card = j)).flatten).Pairwise fun a b => r a.card b.card := by
  intro ks hk
  rw [List.pairwise_flatten]
  constructor
  · intro m hm
    obtain ⟨j, _, rfl⟩ := List.mem_map.1 hm
    refine List.pairwise_of_forall_mem_list fun a ha b hb => ?_
    have h1 := (List.mem_filter.1 ha).2
    have h2 := (List.mem_filter.1 hb).2
    simp only [decide_eq_true_eq] at h1 h2
    rw [h1, h2]
    exact hr j
  · rw [List.pairwise_map]
    refine hk.imp fun {i j} hij a ha b hb => ?_
    have h1 := (List.mem_filter.1 ha).2
    have h2 := (List.mem_filter.1 hb).2
    simp only [decide_eq_true_eq] at h1 h2
    rw [h1, h2]
    exact hij

theorem sorted_by (l : List (Finset ℕ)) {r : ℕ → ℕ → Prop} (hr : ∀ k, r k k) {ks : List ℕ} (hn : ks.Nodup)
    (hk : ∀ b ∈ l, b.card ∈ ks) (hp : ks.Pairwise r) :
    StableSort Finset.card r l (ks.map fun j => l.filter (·.card = j)).flatten := by
  have key : ∀ k, ((ks.map fun j => l.filter (·.card = j)).flatten).filter (·.card = k) = l.filter (·.card = k) := by
    intro k
    rw [filter_flat l k ks hn]
    split
    · rfl
    · rename_i h
      symm
      rw [List.filter_eq_nil_iff]
      intro a ha hc
      simp only [decide_eq_true_eq] at hc
      exact h (hc ▸ hk a ha)
  exact ⟨stable_perm key, pairwise_flat l hr ks hp, key⟩

/-! ### Making one conflict smaller -/

variable {σ τ : ℕ → Type} [∀ i, Fintype (σ i)] [∀ i, DecidableEq (σ i)] [∀ i, DecidableEq (τ i)] {ρ : Type}

/-- The given actions and `S` are to blame for nothing in the systems that are looked at, and contain no conflict
of `F`. -/
structure Alright (cfg : SynCfg σ τ ρ) (n : ℕ) (F : CFam) (S : Finset ℕ) : Prop where
  blame : ∀ i < n, cfg.noConflict i = false →
    Blameless ((taskOf cfg n).demand i) ((cfg.given.toFinset ∪ S).biUnion (cfg.actXn i))
  free : (∃ i < n, cfg.noConflict i = false) → ¬ Knows F (cfg.given.toFinset ∪ S)

theorem blameless_mono {S : Type} {d : Demand S} {xn xn' : Finset (S × S)} (h : Blameless d xn') (hs : xn ⊆ xn') :
    Blameless d xn := by
  have hc : ∀ s, OnCycle xn s → OnCycle xn' s := fun s hs' =>
    Relation.TransGen.mono (r := Step xn) (p := Step xn') (fun _ _ ht => hs ht) s s hs'
  exact ⟨fun s h1 t h2 => h.closed s h1 t (hs h2), fun s h1 h2 => h.cycles s h1 (hc s h2),
    fun hq s h1 h2 => h.quiet hq s h1 (hc s h2)⟩

theorem Alright.mono {cfg : SynCfg σ τ ρ} {n : ℕ} {F F' : CFam} {S S' : Finset ℕ} (h : Alright cfg n F' S')
    (hs : S ⊆ S') (hF : ∀ B, Knows F B → Knows F' B) : Alright cfg n F S := by
  refine ⟨fun i hi hc => blameless_mono (h.blame i hi hc) ?_, fun he hk => h.free he (hF _ ?_)⟩
  · exact Finset.biUnion_subset_biUnion_of_subset_left _ (Finset.union_subset_union_right hs)
  · obtain ⟨x, h1, h2⟩ := hk
    exact ⟨x, h1, h2.trans (Finset.union_subset_union_right hs)⟩

theorem vok_trans {cfg : SynCfg σ τ ρ} {n : ℕ} {F : CFam} {g g' : SynG ρ} (h : VOk cfg n F g)
    (h' : VOk cfg n g.fam g') : VOk cfg n F g' :=
  ⟨h'.opt, h'.valid, ⟨h'.past.anti, h'.past.imp, fun S hS => h'.past.mono S (h.past.mono S hS)⟩, h'.calm⟩

/-- What the loop of `add_small_conflict_set` leaves: a conflict from which no action can be taken away. -/
theorem smallLoop_min {cfg : SynCfg σ τ ρ} {n : ℕ} (hP : Plain cfg n) (hm : Honest cfg n) (hn : n ≤ 2)
    {base : List (SInst (SRest σ))} (hb : BaseFit cfg n cfg.given.toFinset base)
    (hnp : ∀ x ∈ base, x.noPartial = false) {F : CFam} : ∀ (L : List ℕ) (st : SynG ρ × Finset ℕ),
    L.Nodup → (∀ p ∈ L, p ∈ st.2) → VOk cfg n F st.1 → Knows st.1.fam st.2 → (∀ T, SolOf cfg n T → ¬ st.2 ⊆ T) →
    (∀ e ∈ st.2, MayAdd cfg n e) →
    (smallLoop cfg base L st).stop = true ∨ ∃ C, C ⊆ st.2 ∧ Knows (smallLoop cfg base L st).fam C ∧
      ∀ p ∈ L, p ∈ C → Alright cfg n F (C.erase p) := by
  intro L
  induction L with
  | nil => intro st _ _ hV hK _ _; exact .inr ⟨st.2, Finset.Subset.refl _, hK, by simp⟩
  | cons p L ih =>
    intro st hnd hL hV hK hS hA
    rw [List.nodup_cons] at hnd
    have hpm := hL p (List.mem_cons_self ..)
    have hp := hA p hpm
    have hL' : ∀ q ∈ L, q ∈ st.2.erase p := fun q hq =>
      Finset.mem_erase.2 ⟨fun h => hnd.1 (h ▸ hq), hL q (List.mem_cons_of_mem _ hq)⟩
    obtain ⟨g', ok, ps', m, h1, h2, -, -, h5, h6⟩ := revActions (synCert hP hm cfg.given.toFinset st.1.fam base)
      (g := st.1) (ps := ⟨0, [], smallBase cfg base⟩) (A := st.2.erase p) (D := {p})
      (by simp only [smallBase, List.length_map, hb.len]; exact hn) hV.self (by
        intro i x hx
        obtain ⟨y, hy, e1, e2, e3⟩ := smallBase_get hx
        obtain ⟨st, q1, q2⟩ := hb.w i y hy
        refine ⟨st, e2.trans q1, ?_⟩
        rw [e1]
        exact ⟨q2.lt, q2.nodup, q2.cnodup, q2.act, q2.sup, q2.loF, fun h => q2.lo (e3 h), fun h => q2.hiInv (e3 h),
          fun h => q2.low (e3 h), fun h => q2.up (e3 h)⟩) (by
        obtain ⟨S, hS⟩ := hb.same
        refine ⟨S, fun x hx => ?_⟩
        obtain ⟨i, hi⟩ := List.getElem?_of_mem hx
        obtain ⟨y, hy, e1, _⟩ := smallBase_get hi
        rw [e1]
        exact hS y (List.mem_of_getElem? hy)) (fun e he => hA e (Finset.mem_of_mem_erase he)) (by
        intro i x hx e he
        obtain ⟨y, hy, e1, e2, e3⟩ := smallBase_get hx
        refine hb.act i y hy e ?_
        rw [← e2]
        exact List.mem_toFinset.1 (Finset.mem_sdiff.1 he).1)
      (fuel := candTotal base + 1) (Nat.lt_succ_of_le (candSum_le base))
    unfold smallLoop
    simp only [h1]
    rcases ok with _ | _
    · simp only
      obtain ⟨-, hno'⟩ := h5 rfl
      obtain ⟨p1, p2, p3⟩ := poll_ok hm h2
      rcases hpl : pollG cfg g' with ⟨g2, b⟩
      rw [hpl] at p1 p2 p3
      rcases b with _ | _
      swap
      · exact .inl p3
      have hns : ¬ g'.stop = true := fun h => by
        have := p2 h
        simp at this
      have hno : ∀ T, SolOf cfg n T → ¬ st.2.erase p ⊆ T := by
        intro T hT hsub
        by_cases hpT : p ∈ T
        · apply hS T hT
          intro a ha
          by_cases h : a = p
          · rw [h]; exact hpT
          · exact hsub (Finset.mem_erase.2 ⟨h, ha⟩)
        · refine hno'.resolve_left hns T hT ?_ hsub (by simpa using hpT)
          intro i x hx
          obtain ⟨y, hy, e1, e2, _⟩ := smallBase_get hx
          have := hb.fits T hT i y hy
          unfold FitsInst RedOf at this ⊢
          rw [e1, e2]; exact this
      rcases ih ({ g2 with fam := cfg.learn (st.2.erase p) g2.fam }, st.2.erase p) hnd.2 hL'
        (vok_trans hV (p1.learn hno)) ((addConflict_knows _).2 (.inr (Finset.Subset.refl _))) hno
        (fun e he => hA e (Finset.mem_of_mem_erase he)) with h | ⟨C, c1, c2, c3⟩
      · exact .inl h
      · refine .inr ⟨C, c1.trans (Finset.erase_subset _ _), c2, fun q hq hqC => ?_⟩
        rcases List.mem_cons.1 hq with rfl | hq
        · exact absurd (c1 hqC) (by simp)
        · exact c3 q hq hqC
    · simp only
      obtain ⟨e1, e2, e3, -, -⟩ := h6 rfl
      have hins : insert p (st.2.erase p) = st.2 := Finset.insert_erase hpm
      rw [hins]
      have hal : Alright cfg n st.1.fam (st.2.erase p) := by
        obtain ⟨S, s1, s2, s3⟩ := e3
        have hN : ps'.insts.map SInst.noPartial = (smallBase cfg base).map SInst.noPartial := by
          obtain ⟨S1, hS1⟩ := hb.same
          refine (revise_sup (N := (smallBase cfg base).map SInst.noPartial) (S0 := ∅) ⟨rfl, ?_, S1, by simp, ?_⟩ h1).1
          · intro x hx
            obtain ⟨i, hi⟩ := List.getElem?_of_mem hx
            obtain ⟨y, hy, q1, -, -⟩ := smallBase_get hi
            obtain ⟨st, -, q2⟩ := hb.w i y hy
            rw [q1]; exact q2.nodup
          · intro x hx
            obtain ⟨i, hi⟩ := List.getElem?_of_mem hx
            obtain ⟨y, hy, q1, -, -⟩ := smallBase_get hi
            rw [q1]; exact hS1 y (List.mem_of_getElem? hy)
        have hget : ∀ i < n, cfg.noConflict i = false → ∃ x, ps'.insts[i]? = some x ∧ x.noPartial = false := by
          intro i hi hc
          have hl : i < base.length := by rw [hb.len]; exact hi
          have hl' : i < ps'.insts.length := by
            have := congrArg List.length hN
            simp only [List.length_map, smallBase] at this
            omega
          refine ⟨ps'.insts[i], List.getElem?_eq_getElem hl', ?_⟩
          have h7 := congrArg (fun l : List Bool => l[i]?) hN
          simp only [smallBase, List.map_map, List.getElem?_map, List.getElem?_eq_getElem hl',
            List.getElem?_eq_getElem hl, Option.map_some, Option.some.injEq] at h7
          rw [h7]
          obtain ⟨st, q1, -⟩ := hb.w i base[i] (List.getElem?_eq_getElem hl)
          simp only [Function.comp, q1, hc, Bool.or_false]
          exact hnp _ (List.getElem_mem hl)
        constructor
        · intro i hi hc
          obtain ⟨x, hx, hxn⟩ := hget i hi hc
          obtain ⟨st', q1, q2, -⟩ := e2 i x hx
          have hps := q2.passed hxn
          have hlo := q2.lo hxn
          have hsub : cfg.given.toFinset ∪ st.2.erase p ⊆ x.actions.toFinset := by
            refine Finset.union_subset q2.sup ?_
            rw [s3 x (List.mem_of_getElem? hx)]
            exact s1
          have hB : Blameless ((taskOf cfg n).demand i) st'.lo := by
            refine ⟨hps.closed, fun s hs hcy => ?_, fun hq s hs hcy => ?_⟩
            · exact Finset.mem_inter.2 ⟨hps.scc (mem_sccOf_of_cycle hs hcy), hs⟩
            · have : s ∈ sccOf st'.lo (cfg.sys i).closedAssume := mem_sccOf_of_cycle hs hcy
              rw [hps.silent hq] at this
              simp at this
          refine blameless_mono hB ?_
          rw [hlo]
          exact Finset.biUnion_subset_biUnion_of_subset_left _ hsub
        · rintro ⟨i, hi, hc⟩ ⟨y, hy1, hy2⟩
          obtain ⟨x, hx, hxn⟩ := hget i hi hc
          obtain ⟨st', q1, q2, q3⟩ := e2 i x hx
          refine q3 hxn ⟨y, hy1, hy2.trans (Finset.union_subset q2.sup ?_)⟩
          rw [s3 x (List.mem_of_getElem? hx)]
          exact s1
      rcases ih (g', st.2) hnd.2 (fun q hq => hL q (List.mem_cons_of_mem _ hq)) (vok_trans hV h2)
        (h2.past.mono _ hK) hS hA with h | ⟨C, c1, c2, c3⟩
      · exact .inl h
      · refine .inr ⟨C, c1, c2, fun q hq hqC => ?_⟩
        rcases List.mem_cons.1 hq with rfl | hq
        · exact hal.mono (Finset.erase_subset_erase _ c1) hV.past.mono
        · exact c3 q hq hqC

/-- What is asked of a conflict that a thread takes. -/
structure PartOk (cfg : SynCfg σ τ ρ) (n : ℕ) (F : CFam) (b : Finset ℕ) : Prop where
  valid : ∀ T, SolOf cfg n T → ¬ b ⊆ T
  acts : ∀ a ∈ b, MayAdd cfg n a ∨ Knows F {a}

/-- The limits let conflicts through. -/
structure Effective (cfg : SynCfg σ τ ρ) (n : ℕ) : Prop where
  quiet : ∀ r, (cfg.tick r).2.2 = false
  directly : cfg.directly = false
  looks : ∃ i < n, cfg.noConflict i = false

/-- A conflict has been dealt with: a smaller one is known, or no action can be taken away from it. -/
def DealtWith (cfg : SynCfg σ τ ρ) (n : ℕ) (F fam : CFam) (b : Finset ℕ) : Prop :=
  (∃ C, C ⊆ b ∧ C ≠ b ∧ Knows fam C) ∨ ∀ p ∈ b, Alright cfg n F (b.erase p)

theorem minOne_ok {cfg : SynCfg σ τ ρ} {n : ℕ} (hP : Plain cfg n) (hm : Honest cfg n) (hn : n ≤ 2)
    {base : List (SInst (SRest σ))} (hb : BaseFit cfg n cfg.given.toFinset base)
    (hnp : ∀ x ∈ base, x.noPartial = false) {F : CFam} {g : SynG ρ} {b : Finset ℕ} (hV : VOk cfg n F g)
    (hB : PartOk cfg n F b) :
    VOk cfg n F (minOne cfg base g b) ∧ (Effective cfg n → (cfg.maxConflictSz = 0 ∨ b.card ≤ cfg.maxConflictSz) →
      1 < b.card → DealtWith cfg n F (minOne cfg base g b).fam b) := by
  unfold minOne
  obtain ⟨p1, p2, p3⟩ := poll_ok hm hV
  rcases hpl : pollG cfg g with ⟨g1, done⟩
  rw [hpl] at p1 p2 p3
  rcases done with _ | _
  swap
  · refine ⟨p1, fun hE => ?_⟩
    have := p1.calm hE.quiet
    rw [p3] at this
    cases this
  simp only
  split
  swap
  · rename_i hc
    exact ⟨p1, fun _ _ h => absurd h hc⟩
  rename_i hc
  by_cases hmay : ∀ a ∈ b, MayAdd cfg n a
  · have hpk : ∀ a ∈ arr b, MayAdd cfg n a := fun a ha => hmay a (mem_arr.1 ha)
    obtain ⟨r1, -, -⟩ := smallSet_ok (ps := ⟨0, arr b, base⟩) hP hm hn hb p1 hpk
      (.inr fun T hT hs => hB.valid T hT (by simpa using hs))
    refine ⟨r1, fun hE hz _ => ?_⟩
    have hst := r1.calm hE.quiet
    revert hst
    unfold smallSet
    obtain ⟨q1, q2, q3⟩ := poll_ok hm p1
    rcases hpl2 : pollG cfg g1 with ⟨g2, done⟩
    rw [hpl2] at q1 q2 q3
    rcases done with _ | _
    swap
    · intro hst
      simp only at hst q3
      rw [q3] at hst
      cases hst
    simp only [arr_toFinset, arr_length]
    have h1 : ¬ (base.all fun x => cfg.noConflict x.rest.1) = true := by
      intro h
      obtain ⟨i, hi, hne⟩ := hE.looks
      have hl : i < base.length := by rw [hb.len]; exact hi
      rw [List.all_eq_true] at h
      have := h _ (List.getElem_mem hl)
      obtain ⟨st, e, -⟩ := hb.w i base[i] (List.getElem?_eq_getElem hl)
      rw [e, hne] at this
      cases this
    rw [if_neg h1, if_neg (by omega)]
    split
    · rename_i hk
      intro _
      rw [Bool.and_eq_true, conflictCk_iff] at hk
      obtain ⟨⟨x, hx1, hx2⟩, hne⟩ := hk
      refine .inl ⟨x, hx2, ?_, x, hx1, Finset.Subset.refl _⟩
      rintro rfl
      have : exactConflictCk g2.fam x = true := by
        unfold exactConflictCk
        rw [List.any_eq_true]
        exact ⟨x, hx1, by simp⟩
      rw [this] at hne
      cases hne
    · rw [hE.directly]
      simp only [Bool.false_eq_true, if_false]
      intro hst
      rcases smallLoop_min hP hm hn hb hnp (arr b) ({ g2 with fam := cfg.learn b g2.fam }, b) (arr_nodup b)
        (fun p hp => mem_arr.1 hp) (q1.learn hB.valid) ((addConflict_knows _).2 (.inr (Finset.Subset.refl _)))
        hB.valid hmay with h | ⟨C, c1, c2, c3⟩
      · rw [h] at hst; cases hst
      · by_cases hC : C = b
        · subst hC
          exact .inr fun p hp => c3 p (mem_arr.2 hp) hp
        · exact .inl ⟨C, c1, hC, c2⟩
  · push Not at hmay
    obtain ⟨a, ha, hna⟩ := hmay
    have hka := (hB.acts a ha).resolve_left hna
    unfold smallSet
    obtain ⟨q1, q2, q3⟩ := poll_ok hm p1
    rcases hpl2 : pollG cfg g1 with ⟨g2, done⟩
    rw [hpl2] at q1 q2 q3
    have hsub : {a} ⊆ b := Finset.singleton_subset_iff.2 ha
    have hne : ({a} : Finset ℕ) ≠ b := fun h => by
      rw [← h, Finset.card_singleton] at hc
      omega
    obtain ⟨x, hx1, hx2⟩ := q1.past.mono _ hka
    have hset : DealtWith cfg n F g2.fam b := .inl ⟨{a}, hsub, hne, x, hx1, hx2⟩
    rcases done with _ | _
    swap
    · exact ⟨q1, fun _ _ _ => hset⟩
    simp only [arr_toFinset]
    split
    · exact ⟨q1, fun _ _ _ => hset⟩
    split
    · exact ⟨q1, fun _ _ _ => hset⟩
    have hck : (conflictCk g2.fam b && !exactConflictCk g2.fam b) = true := by
      rw [Bool.and_eq_true, conflictCk_iff]
      refine ⟨⟨x, hx1, hx2.trans hsub⟩, ?_⟩
      rw [Bool.not_eq_true']
      rcases he : exactConflictCk g2.fam b with _ | _
      · rfl
      · unfold exactConflictCk at he
        rw [List.any_eq_true] at he
        obtain ⟨y, hy, hyb⟩ := he
        rw [decide_eq_true_eq] at hyb
        subst hyb
        have := q1.past.anti.anti x hx1 y hy (hx2.trans hsub)
        subst this
        exact absurd (Finset.Subset.antisymm hsub hx2) hne
    rw [if_pos hck]
    exact ⟨q1, fun _ _ _ => hset⟩

theorem dealt_mono {cfg : SynCfg σ τ ρ} {n : ℕ} {F fam fam' : CFam} {b : Finset ℕ} (h : DealtWith cfg n F fam b)
    (hk : ∀ S, Knows fam S → Knows fam' S) : DealtWith cfg n F fam' b :=
  h.imp (fun ⟨C, h1, h2, h3⟩ => ⟨C, h1, h2, hk C h3⟩) id

theorem part_ok {cfg : SynCfg σ τ ρ} {n : ℕ} (hP : Plain cfg n) (hm : Honest cfg n) (hn : n ≤ 2)
    {base : List (SInst (SRest σ))} (hb : BaseFit cfg n cfg.given.toFinset base)
    (hnp : ∀ x ∈ base, x.noPartial = false) {F : CFam} : ∀ (part : List (Finset ℕ)) (g : SynG ρ), VOk cfg n F g →
    (∀ b ∈ part, PartOk cfg n F b) →
    VOk cfg n F (part.foldl (minOne cfg base) g) ∧ (∀ S, Knows g.fam S → Knows (part.foldl (minOne cfg base) g).fam S) ∧
      ∀ b ∈ part, Effective cfg n → (cfg.maxConflictSz = 0 ∨ b.card ≤ cfg.maxConflictSz) → 1 < b.card →
        DealtWith cfg n F (part.foldl (minOne cfg base) g).fam b := by
  intro part
  induction part with
  | nil => intro g hV _; exact ⟨hV, fun _ h => h, by simp⟩
  | cons b part ih =>
    intro g hV hB
    have hb' := hB b (List.mem_cons_self ..)
    obtain ⟨m1, m2⟩ := minOne_ok hP hm hn hb hnp hV hb'
    obtain ⟨m3, -⟩ := minOne_ok hP hm hn hb hnp hV.self
      ⟨hb'.valid, fun a ha => (hb'.acts a ha).imp id (hV.past.mono _)⟩
    obtain ⟨i1, i2, i3⟩ := ih (minOne cfg base g b) m1 fun c hc => hB c (List.mem_cons_of_mem _ hc)
    rw [List.foldl_cons]
    refine ⟨i1, fun S hS => i2 S (m3.past.mono S hS), fun c hc hE hz h1 => ?_⟩
    rcases List.mem_cons.1 hc with rfl | hc
    · exact dealt_mono (m2 hE hz h1) i2
    · exact i3 c hc hE hz h1

/-! ### Threads -/

theorem trim_file {cfg : SynCfg σ τ ρ} {n k : ℕ} {fam : CFam} (h : FileFam cfg n fam) : FileFam cfg n (trim k fam) := by
  by_cases hk : k = 0
  · rw [hk, (C22_trim fam 0).2.2.2]; exact h
  have hsub : (trim k fam).sets.Sublist fam.sets := by
    unfold trim
    rw [if_neg hk]
    exact List.filter_sublist
  refine ⟨fun T hT => ?_, h.anti.sublist hsub, ?_, ?_⟩
  · have := h.valid T hT
    rcases hc : conflictCk (trim k fam) T with _ | _
    · rfl
    · rw [(C22_trim fam k).1 T hc] at this
      cases this
  · intro hno e
    rw [trim_knows (.inr (by simp))] at hno
    rw [trim_knows (.inr (by rw [Finset.card_singleton]; omega)), ← h.imp hno e]
    unfold trim
    rw [if_neg hk]
  · rw [trim_knows (.inr (by simp))]
    exact h.some

/-- What a thread leaves in its database. -/
structure ThreadEnd (cfg : SynCfg σ τ ρ) (n : ℕ) (fam0 fam : CFam) (part : List (Finset ℕ)) : Prop where
  valid : Valid cfg n fam
  mono : ∀ S, Knows (startFrom cfg n fam0) S → Knows fam S
  settled : ∀ b ∈ part, Effective cfg n → (∃ T, SolOf cfg n T) →
    (cfg.maxConflictSz = 0 ∨ b.card ≤ cfg.maxConflictSz) → 1 < b.card →
      DealtWith cfg n (startFrom cfg n fam0) fam b

variable {cfg : SynCfg σ τ ρ} {n : ℕ}

theorem minBad_sol (hS : OpenSetting cfg n) (h1 : 1 ≤ n) (h2 : n ≤ 2) {fam0 : CFam} (h0 : FileFam cfg n fam0)
    {T : Finset ℕ} (hT : SolOf cfg n T) (rng : ρ) : minBad cfg n fam0 rng = false := by
  obtain ⟨g, ok, ps, m, e, hV, hno, -⟩ := startUpFrom_ok (open_calm hS) h1 h2
    (fuel := ((List.range n).map fun i => (cfg.cands i).length).sum + 1) (Nat.lt_succ_self _) rng
    (fam0 := fam0) ⟨h0.valid, h0.anti, h0.imp, h0.some⟩
  unfold minBad minInit
  rw [e]
  rcases ok with _ | _
  · rcases hno rfl with h | h
    · have : g.stop = false := hV.calm fun _ => rfl
      rw [h] at this
      cases this
    · exact absurd ⟨hT.given, hT.offered, hT.apart, hT.allowed, hT.meets⟩ (h T)
  · rfl

theorem minThread_ok (hS : OpenSetting cfg n) (h1 : 1 ≤ n) (h2 : n ≤ 2) {fam0 : CFam} (h0 : FileFam cfg n fam0)
    {done : Bool} {rng : ρ} (hd : done = false → minBad cfg n fam0 rng = false)
    (hd' : (∃ T, SolOf cfg n T) → done = false) {part : List (Finset ℕ)}
    (hp : ∀ b ∈ part, PartOk cfg n (startFrom cfg n fam0) b) :
    ∃ fam, minThread cfg n fam0 done rng part = some fam ∧ ThreadEnd cfg n fam0 fam part := by
  obtain ⟨g, ok, ps, m, e, hV, hno, hyes⟩ := startUpFrom_ok (open_calm hS) h1 h2
    (fuel := ((List.range n).map fun i => (cfg.cands i).length).sum + 1) (Nat.lt_succ_self _) rng
    (fam0 := fam0) ⟨h0.valid, h0.anti, h0.imp, h0.some⟩
  have hst : g.stop = false := hV.calm fun _ => rfl
  have hV' : VOk cfg n (startFrom cfg n fam0) g := ⟨hV.opt, hV.valid, hV.past, fun _ => hst⟩
  unfold minBad minInit at hd
  unfold minThread minInit
  rw [e] at hd ⊢
  simp only [Option.some.injEq, exists_eq_left']
  rcases done with _ | _
  · rcases ok with _ | _
    · cases hd rfl
    have q := hyes rfl
    have hbase : BaseFit cfg n cfg.given.toFinset ps.insts := by
      have := q.base
      rw [← withTick_ban] at this
      have := baseFit_ban (t' := cfg.tick) (R' := []) h1 (by simp) this
      rw [ban_nil rfl] at this
      exact this
    have hnp : ∀ x ∈ ps.insts, x.noPartial = false := by
      intro x hx
      obtain ⟨i, hi⟩ := List.getElem?_of_mem hx
      exact (q.w i x hi).2
    obtain ⟨p1, p2, p3⟩ := part_ok hS.plain hS.msgs h2 hbase hnp part g hV' hp
    exact ⟨p1.valid, p1.past.mono, fun b hb hE _ => p3 b hb hE⟩
  · exact ⟨hV'.valid, hV'.past.mono, fun b _ _ hT => by cases hd' hT⟩

theorem minMerge_ok (hS : OpenSetting cfg n) (h1 : 1 ≤ n) (h2 : n ≤ 2) {fam0 : CFam} (h0 : FileFam cfg n fam0)
    {done : Bool} (hd' : (∃ T, SolOf cfg n T) → done = false) : ∀ (ts : List (ρ × List (Finset ℕ))) (sh : CFam),
    (done = false → ∀ t ∈ ts, minBad cfg n fam0 t.1 = false) →
    (∀ t ∈ ts, ∀ b ∈ t.2, PartOk cfg n (startFrom cfg n fam0) b) → Anti sh.sets → Valid cfg n sh →
    ∃ fam, minMerge cfg n fam0 done ts sh = some fam ∧ Anti fam.sets ∧ Valid cfg n fam ∧
      (∀ S, Knows sh S → Knows fam S) ∧
      (ts ≠ [] → ∀ S, Knows (startFrom cfg n fam0) S → Knows fam S) ∧
      ∀ t ∈ ts, ∀ b ∈ t.2, Effective cfg n → (∃ T, SolOf cfg n T) →
        (cfg.maxConflictSz = 0 ∨ b.card ≤ cfg.maxConflictSz) → 1 < b.card →
          DealtWith cfg n (startFrom cfg n fam0) fam b := by
  intro ts
  induction ts with
  | nil => intro sh _ _ ha hv; exact ⟨sh, rfl, ha, hv, fun _ h => h, fun h => absurd rfl h, by simp⟩
  | cons t ts ih =>
    intro sh hb hp ha hv
    obtain ⟨f, e, hf⟩ := minThread_ok hS h1 h2 h0 (fun h => hb h t (List.mem_cons_self ..)) hd'
      (hp t (List.mem_cons_self ..))
    unfold minMerge
    rw [e]
    simp only
    obtain ⟨fam, i1, i2, i3, i4, i5, i6⟩ := ih (addFamily (fun a b => cfg.le a b = true) f sh)
      (fun h t ht => hb h t (List.mem_cons_of_mem _ ht)) (fun t ht => hp t (List.mem_cons_of_mem _ ht))
      (addAll_anti _ ha) (by
        intro T hT
        rcases hc : conflictCk (addFamily (fun a b => cfg.le a b = true) f sh) T with _ | _
        · rfl
        · rw [conflictCk_iff, family_knows, ← conflictCk_iff, ← conflictCk_iff, hf.valid T hT, hv T hT] at hc
          simp at hc)
    refine ⟨fam, i1, i2, i3, fun S h => i4 S (family_knows.2 (.inr h)),
      fun _ S h => i4 S (family_knows.2 (.inl (hf.mono S h))), fun t' ht' b hb' hE hT hz hc => ?_⟩
    rcases List.mem_cons.1 ht' with rfl | ht'
    · exact dealt_mono (hf.settled b hb' hE hT hz hc) fun S h => i4 S (family_knows.2 (.inl h))
    · exact i6 t' ht' b hb' hE hT hz hc

end Verif.Proofs
