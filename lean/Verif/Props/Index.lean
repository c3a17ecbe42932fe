import Verif.Proofs.Rep

/-! Properties C24 and C25: numbering of actions and representatives of symmetric actions. -/

set_option linter.unusedSectionVars false

namespace Verif.Props
open Verif.Model Verif.Proofs

/-- Specification: all values lie below the corresponding domain sizes. -/
def ValsOk (vals doms : List ℕ) : Prop :=
  vals.length = doms.length ∧ ∀ k < doms.length, vals.getD k 0 < doms.getD k 0

theorem valsOk_iff {vals doms : List ℕ} : ValsOk vals doms ↔ InDoms vals doms := inDoms_iff.symm

/-- **C24, bijection.** For any list of process symmetries: each action (process symmetry and values
within the domains) has an index below the total number of actions from which `act_of` recovers it,
and each index below the total is the index of such an action. -/
theorem C24_action_ids (l : List PcSymm) (net : List PcComm) (ntotal npre : ℕ)
    (hnet : commitPcs 0 0 l = (net, ntotal, npre)) :
    net.map (·.pc) = l ∧
    (∀ c ∈ net, ∀ vals, ValsOk vals c.pc.doms → actId c vals < ntotal ∧
      ∃ act, netActOf net (actId c vals) = some act ∧ act.pcc = c ∧ act.vals = vals) ∧
    (∀ id < ntotal, ∃ c ∈ net, ∃ vals, ValsOk vals c.pc.doms ∧ actId c vals = id) := by
  have e1 : (commitPcs 0 0 l).1 = net := by rw [hnet]
  have e2 : (commitPcs 0 0 l).2.1 = ntotal := by rw [hnet]
  refine ⟨by rw [← e1, commit_pcs], ?_, ?_⟩
  · intro c hc vals hv
    rw [valsOk_iff] at hv
    have hlt := index_lt hv
    have hm := commit_mem (nt := 0) (np := 0) (l := l) (by rw [e1]; exact hc)
    refine ⟨by unfold actId; omega, ?_⟩
    have hp := pcOfAct_eq (nt := 0) (np := 0) (l := l) (c := c) (idx := actId c vals)
      (by rw [e1]; exact hc) (by unfold actId; omega) (by unfold actId; omega)
    rw [e1] at hp
    refine ⟨c.actOf (actId c vals - c.actOff), by simp [netActOf, hp], rfl, ?_⟩
    simp only [PcComm.actOf, actId, Nat.add_sub_cancel_left]
    exact state_index hv
  · intro id hid
    obtain ⟨c, hc, h1, h2⟩ := owner_exists (nt := 0) (np := 0) (l := l) (idx := id) (by omega)
      (by omega)
    rw [e1] at hc
    have hs := index_state (ds := c.pc.doms) (idx := id - c.actOff) (by omega)
    refine ⟨c, hc, _, valsOk_iff.2 hs.1, ?_⟩
    unfold actId
    rw [hs.2]; omega

/-- **C24, precondition and image parts.** For an action with guard values `g` and assigned values
`a`: `action_pre_index` is the index of the guards among all guards of all processes (and determines
process and guards), `action_img_index` the index of the assigned values, `act_of` records the same
two indices, and `pre_idx_of_img` is the index of the guards after performing the assignments. -/
theorem C24_pre_img_index (l : List PcSymm) (net : List PcComm) (ntotal npre : ℕ)
    (hnet : commitPcs 0 0 l = (net, ntotal, npre)) (c : PcComm) (hc : c ∈ net) (g a : List ℕ)
    (hg : ValsOk g c.pc.rdoms) (ha : ValsOk a c.pc.wdoms) :
    (∃ act, netActOf net (actId c (g ++ a)) = some act ∧
      act.preIdx = indexOfState g c.pc.rdoms ∧ act.imgIdx = indexOfState a c.pc.wdoms ∧
      act.preIdxOfImg = indexOfState ((c.pc.wmap.zip a).foldl (fun g p => g.set p.1 p.2) g)
        c.pc.rdoms) ∧
    actionPreIndex net (actId c (g ++ a)) = some (c.preOff + indexOfState g c.pc.rdoms) ∧
    actionImgIndex net (actId c (g ++ a)) = some (indexOfState a c.pc.wdoms) ∧
    c.preOff + indexOfState g c.pc.rdoms < npre ∧
    (∀ c' ∈ net, ∀ g', ValsOk g' c'.pc.rdoms →
      c.preOff + indexOfState g c.pc.rdoms = c'.preOff + indexOfState g' c'.pc.rdoms →
      c' = c ∧ g' = g) := by
  have e1 : (commitPcs 0 0 l).1 = net := by rw [hnet]
  have e3 : (commitPcs 0 0 l).2.2 = npre := by rw [hnet]
  rw [valsOk_iff] at hg ha
  have hga : InDoms (g ++ a) c.pc.doms := List.rel_append hg ha
  have hlt := index_lt hga
  have hlg := index_lt hg
  have hla := index_lt ha
  have hp := pcOfAct_eq (nt := 0) (np := 0) (l := l) (c := c) (idx := actId c (g ++ a))
    (by rw [e1]; exact hc) (by unfold actId; omega) (by unfold actId; omega)
  rw [e1] at hp
  have hsub : actId c (g ++ a) - c.actOff =
      indexOfState g c.pc.rdoms * c.pc.wdoms.prod + indexOfState a c.pc.wdoms := by
    unfold actId
    rw [Nat.add_sub_cancel_left, PcSymm.doms, index_append hg.length_eq ha.length_eq]
  have hdiv : (actId c (g ++ a) - c.actOff) / c.pc.imgDomsz = indexOfState g c.pc.rdoms := by
    rw [hsub, imgDomsz_eq, Nat.add_comm, Nat.add_mul_div_right _ _ (by omega),
      Nat.div_eq_of_lt hla, Nat.zero_add]
  have hmod : (actId c (g ++ a) - c.actOff) % c.pc.imgDomsz = indexOfState a c.pc.wdoms := by
    rw [hsub, imgDomsz_eq, Nat.add_comm, Nat.add_mul_mod_self_right, Nat.mod_eq_of_lt hla]
  refine ⟨⟨c.actOf (actId c (g ++ a) - c.actOff), by simp [netActOf, hp], hdiv, hmod, ?_⟩,
    by simp [actionPreIndex, hp, hdiv, Nat.add_comm], by simp [actionImgIndex, hp, hmod], ?_, ?_⟩
  · have hs : stateOfIndex (actId c (g ++ a) - c.actOff) c.pc.doms = g ++ a := by
      simp only [actId, Nat.add_sub_cancel_left]
      exact state_index hga
    simp only [PcComm.actOf, hs]
    have hgl : g.length = c.pc.access.length := by rw [hg.length_eq, rdoms_length]
    have hal : a.length = c.pc.wmap.length := by rw [ha.length_eq, wdoms_length]
    rw [swapPreImg_take c.pc.wmap c.pc.access.length (g ++ a) le_rfl (fun r hr => wmap_lt hr)
      (by simp [hgl, hal]), ← hgl]
    simp
  · have := (commit_mem (nt := 0) (np := 0) (l := l) (c := c) (by rw [e1]; exact hc)).2.2.2
    omega
  · intro c' hc' g' hg' he
    rw [valsOk_iff] at hg'
    have := preOff_inj (nt := 0) (np := 0) (l := l) (c := c) (c' := c') (by rw [e1]; exact hc)
      (by rw [e1]; exact hc') hlg (index_lt hg') he
    subst this
    exact ⟨rfl, index_inj hg' hg (by omega)⟩

/-- A net with two kinds of processes used in the examples. -/
def sampleNet : List PcSymm :=
  [⟨[⟨.read, .direct, 3⟩, ⟨.read, .direct, 3⟩, ⟨.write, .direct, 3⟩], [⟨2, 1, [0, 1]⟩]⟩,
    ⟨[⟨.write, .puppet, 2⟩, ⟨.write, .puppet, 2⟩, ⟨.yield, .shadow, 2⟩], [⟨2, 1, [0, 1]⟩]⟩]

example : (commitPcs 0 0 sampleNet).2 = (129, 31) := by decide +kernel

example : (netActOf (commitPcs 0 0 sampleNet).1 122).map (fun a => (a.vals, a.preIdxOfImg)) =
    some ([1, 1, 0, 0, 1, 2], 3) := by decide +kernel

/-- Value of a guard, specification side. -/
def guardAt (vals : List ℕ) (r : ℕ) : ℕ := vals.getD r 0

/-- Value assigned to a written access, specification side. -/
def assignAt (pc : PcSymm) (vals : List ℕ) (r : ℕ) : Option ℕ :=
  if r ∈ pc.wmap then some (vals.getD (pc.access.length + pc.wmap.idxOf r) 0) else none

/-- Specification of an exchange of the adjacent links `j` and `j + 1` of a symmetry: guards and
assignments of corresponding accesses trade places, everything else stays. -/
structure Exchanged (pc : PcSymm) (vals vals' : List ℕ) (s : LinkSymm) (j : ℕ) : Prop where
  length : vals'.length = vals.length
  fwd : ∀ v < s.nvbls, guardAt vals' (obD s v j) = guardAt vals (obD s v (j + 1)) ∧
    assignAt pc vals' (obD s v j) = assignAt pc vals (obD s v (j + 1))
  bwd : ∀ v < s.nvbls, guardAt vals' (obD s v (j + 1)) = guardAt vals (obD s v j) ∧
    assignAt pc vals' (obD s v (j + 1)) = assignAt pc vals (obD s v j)
  rest : ∀ r < pc.access.length, (∀ v < s.nvbls, r ≠ obD s v j ∧ r ≠ obD s v (j + 1)) →
    guardAt vals' r = guardAt vals r ∧ assignAt pc vals' r = assignAt pc vals r

/-- Specification: one exchange of adjacent links of some symmetry. -/
def LinkExchange (pc : PcSymm) (vals vals' : List ℕ) : Prop :=
  ∃ s ∈ pc.links, ∃ j, j + 1 < s.nlinks ∧ Exchanged pc vals vals' s j

theorem exchanged_unique {pc : PcSymm} {l l1 l2 : List ℕ} {s : LinkSymm} {j : ℕ}
    (hl : l.length = nvals pc) (h1 : Exchanged pc l l1 s j) (h2 : Exchanged pc l l2 s j) :
    l1 = l2 := by
  have hv : ∀ r < pc.access.length, guardAt l1 r = guardAt l2 r ∧
      assignAt pc l1 r = assignAt pc l2 r := by
    intro r hr
    by_cases c1 : ∃ v < s.nvbls, r = obD s v j
    · obtain ⟨v, hv, rfl⟩ := c1
      rw [(h1.fwd v hv).1, (h2.fwd v hv).1, (h1.fwd v hv).2, (h2.fwd v hv).2]
      exact ⟨rfl, rfl⟩
    · by_cases c2 : ∃ v < s.nvbls, r = obD s v (j + 1)
      · obtain ⟨v, hv, rfl⟩ := c2
        rw [(h1.bwd v hv).1, (h2.bwd v hv).1, (h1.bwd v hv).2, (h2.bwd v hv).2]
        exact ⟨rfl, rfl⟩
      · have hr' : ∀ v < s.nvbls, r ≠ obD s v j ∧ r ≠ obD s v (j + 1) := fun v hv =>
          ⟨fun h => c1 ⟨v, hv, h⟩, fun h => c2 ⟨v, hv, h⟩⟩
        rw [(h1.rest r hr hr').1, (h2.rest r hr hr').1, (h1.rest r hr hr').2,
          (h2.rest r hr hr').2]
        exact ⟨rfl, rfl⟩
  have e1 := h1.length
  have e2 := h2.length
  refine List.ext_getElem (by omega) fun k k1 k2 => ?_
  have hk : l1.getD k 0 = l2.getD k 0 := by
    by_cases hlt : k < pc.access.length
    · exact (hv k hlt).1
    · have hi : k - pc.access.length < pc.wmap.length := by
        unfold nvals at hl; omega
      have hm := List.getElem_mem hi
      have := (hv _ (wmap_lt hm)).2
      simp only [assignAt, hm, if_true, Option.some.injEq] at this
      rw [(wmap_nodup pc).idxOf_getElem _ hi] at this
      have e : pc.access.length + (k - pc.access.length) = k := by omega
      rwa [e] at this
  simpa [List.getD_eq_getElem?_getD, k1, k2] using hk

/-- The model's exchange meets the specification. -/
theorem swapLinks_exchanged {pc : PcSymm} {s : LinkSymm} (h : LinkWf pc s) {j : ℕ}
    (hj : j + 1 < s.nlinks) {l l' : List ℕ} (hl : l.length = nvals pc)
    (e : swapLinks pc s j l = some l') : Exchanged pc l l' s j := by
  obtain ⟨l2, e2, n, g⟩ := swapLinks_spec h hj hl
  rw [e, Option.some.injEq] at e2
  subst e2
  have hn := rowPairs_nodup h hj
  have grow : ∀ v < s.nvbls, (obD s v j, obD s v (j + 1)) ∈ rowPairs pc s j := fun v hv =>
    List.mem_map.2 ⟨fun j => obD s v j, (mem_rows _).2 (Or.inl ⟨v, hv, rfl⟩), rfl⟩
  have wrow : ∀ v < s.nvbls, Wr pc (obD s v 0) →
      (wpos pc (obD s v j), wpos pc (obD s v (j + 1))) ∈ rowPairs pc s j := fun v hv hw =>
    List.mem_map.2 ⟨fun j => wpos pc (obD s v j), (mem_rows _).2 (Or.inr ⟨v, hv, hw, rfl⟩), rfl⟩
  refine ⟨by omega, fun v hv => ⟨?_, ?_⟩, fun v hv => ⟨?_, ?_⟩, fun r hr hne => ⟨?_, ?_⟩⟩
  · unfold guardAt
    rw [g, (permOf_pair hn (grow v hv)).1]
  · by_cases hw : Wr pc (obD s v 0)
    · have w1 : obD s v j ∈ pc.wmap := (h.wr hv (by omega) h.pos).2 hw
      have w2 : obD s v (j + 1) ∈ pc.wmap := (h.wr hv hj h.pos).2 hw
      simp only [assignAt, w1, w2, if_true, Option.some.injEq]
      have := g (wpos pc (obD s v j))
      rw [(permOf_pair hn (wrow v hv hw)).1] at this
      exact this
    · have w1 : ¬ obD s v j ∈ pc.wmap := fun h' => hw ((h.wr hv (by omega) h.pos).1 h')
      have w2 : ¬ obD s v (j + 1) ∈ pc.wmap := fun h' => hw ((h.wr hv hj h.pos).1 h')
      simp [assignAt, w1, w2]
  · unfold guardAt
    rw [g, (permOf_pair hn (grow v hv)).2]
  · by_cases hw : Wr pc (obD s v 0)
    · have w1 : obD s v j ∈ pc.wmap := (h.wr hv (by omega) h.pos).2 hw
      have w2 : obD s v (j + 1) ∈ pc.wmap := (h.wr hv hj h.pos).2 hw
      simp only [assignAt, w1, w2, if_true, Option.some.injEq]
      have := g (wpos pc (obD s v (j + 1)))
      rw [(permOf_pair hn (wrow v hv hw)).2] at this
      exact this
    · have w1 : ¬ obD s v j ∈ pc.wmap := fun h' => hw ((h.wr hv (by omega) h.pos).1 h')
      have w2 : ¬ obD s v (j + 1) ∈ pc.wmap := fun h' => hw ((h.wr hv hj h.pos).1 h')
      simp [assignAt, w1, w2]
  · unfold guardAt
    rw [g, permOf_fix]
    intro hk
    obtain ⟨p, hp, hk⟩ := entries_mem.1 hk
    obtain ⟨row, hrow, rfl⟩ := List.mem_map.1 hp
    rcases (mem_rows row).1 hrow with ⟨v, hv, rfl⟩ | ⟨v, hv, hw, rfl⟩
    · rcases hk with hk | hk
      · exact (hne v hv).1 hk
      · exact (hne v hv).2 hk
    · simp only [wpos] at hk; omega
  · by_cases hm : r ∈ pc.wmap
    · simp only [assignAt, hm, if_true, Option.some.injEq]
      have := g (wpos pc r)
      rw [permOf_fix] at this
      · exact this
      · intro hk
        obtain ⟨p, hp, hk⟩ := entries_mem.1 hk
        obtain ⟨row, hrow, rfl⟩ := List.mem_map.1 hp
        rcases (mem_rows row).1 hrow with ⟨v, hv, rfl⟩ | ⟨v, hv, hw, rfl⟩
        · have b1 := h.lt hv (j := j) (by omega)
          have b2 := h.lt hv hj
          simp only [wpos] at hk; omega
        · rcases hk with hk | hk
          · exact (hne v hv).1 (wpos_inj hm ((h.wr hv (by omega) h.pos).2 hw) hk)
          · exact (hne v hv).2 (wpos_inj hm ((h.wr hv hj h.pos).2 hw) hk)
    · simp [assignAt, hm]

theorem exchange_iff {pc : PcSymm} (h : LinksWf pc) {l l' : List ℕ} (hl : l.length = nvals pc) :
    LinkExchange pc l l' ↔ SwapStep pc l l' := by
  constructor
  · rintro ⟨s, hs, j, hj, e⟩
    obtain ⟨l2, e2, -, -⟩ := swapLinks_spec (h s hs) hj hl
    have := exchanged_unique hl e (swapLinks_exchanged (h s hs) hj hl e2)
    subst this
    exact ⟨s, hs, j, hj, e2⟩
  · rintro ⟨s, hs, j, hj, e⟩
    exact ⟨s, hs, j, hj, swapLinks_exchanged (h s hs) hj hl e⟩

theorem steps_length {pc : PcSymm} (h : LinksWf pc) {l l' : List ℕ} (hl : l.length = nvals pc)
    (hr : Relation.ReflTransGen (SwapStep pc) l l') :
    Relation.ReflTransGen (LinkExchange pc) l l' ∧ l'.length = nvals pc := by
  induction hr with
  | refl => exact ⟨.refl, hl⟩
  | tail _ hs ih =>
    have hx := (exchange_iff h ih.2).2 hs
    obtain ⟨s, _, j, _, hx'⟩ := id hx
    exact ⟨ih.1.tail hx, by rw [hx'.length, ih.2]⟩

/-- Working of `representative_action_index` on one index. -/
theorem rep_core (l : List PcSymm) (net : List PcComm) (ntotal npre : ℕ)
    (hnet : commitPcs 0 0 l = (net, ntotal, npre)) (hwf : ∀ pc ∈ l, LinksWf pc)
    (c : PcComm) (hc : c ∈ net) (vals : List ℕ) (hv : InDoms vals c.pc.doms) :
    ∃ vals', (∀ fuel, ntotal ≤ fuel → repActIdx net fuel (actId c vals) = some (actId c vals')) ∧
      InDoms vals' c.pc.doms ∧ Relation.ReflTransGen (SwapStep c.pc) vals vals' ∧
      RepFixed c.pc vals' ∧ actId c vals' ≤ actId c vals := by
  have hl : c.pc ∈ l := by
    rw [← (C24_action_ids l net ntotal npre hnet).1]
    exact List.mem_map.2 ⟨c, hc, rfl⟩
  have hid := ((C24_action_ids l net ntotal npre hnet).2.1 c hc vals (valsOk_iff.2 hv))
  obtain ⟨hidlt, act, hact, rfl, rfl⟩ := hid
  obtain ⟨vals', e, hd, hr, hf, hle⟩ := repLoop_spec (hwf _ hl) ntotal hv (by unfold actId at hidlt; omega)
  have hle' : actId act.pcc vals' ≤ actId act.pcc act.vals :=
    Nat.add_le_add_left (index_le hd hv hle) _
  refine ⟨vals', fun fuel hfu => ?_, hd, hr, hf, hle'⟩
  unfold repActIdx
  rw [hact, Option.bind_some, e fuel hfu, Option.bind_some, if_neg]
  · simp only [hle', if_true]
  · rintro ⟨i, hi, hsh, hne⟩
    rw [List.getElem?_eq_getElem hi] at hsh
    have hdi := (inDoms_iff.1 hd).2 i (by rw [doms_length]; unfold nvals; omega)
    rw [doms_guard (List.getElem?_eq_getElem hi)] at hdi
    have : (act.pcc.pc.access[i]).rdomsz = 1 := by
      have hsh : (act.pcc.pc.access[i]).pureShadowCk = true := by simpa using hsh
      unfold Access.pureShadowCk at hsh
      have hsh : (act.pcc.pc.access[i]).role = .shadow := by simpa using hsh
      simp [Access.rdomsz, Access.syntReadCk, Access.puppetCk, hsh]
    omega

/-- **C25.** For processes whose link symmetries exchange accesses of the same kind,
`representative_action_index` terminates without failing a `Claim` on every action; the result is
no larger than the argument, is an action of the same process whose values come from exchanging the
values of symmetric links, and is its own representative. -/
theorem C25_representative (l : List PcSymm) (net : List PcComm) (ntotal npre : ℕ)
    (hnet : commitPcs 0 0 l = (net, ntotal, npre)) (hwf : ∀ pc ∈ l, LinksWf pc)
    (c : PcComm) (hc : c ∈ net) (vals : List ℕ) (hv : ValsOk vals c.pc.doms) :
    ∃ vals', ValsOk vals' c.pc.doms ∧
      (∀ fuel, ntotal ≤ fuel → repActIdx net fuel (actId c vals) = some (actId c vals') ∧
        repActIdx net fuel (actId c vals') = some (actId c vals')) ∧
      actId c vals' ≤ actId c vals ∧ Relation.ReflTransGen (LinkExchange c.pc) vals vals' := by
  rw [valsOk_iff] at hv
  have hl : c.pc ∈ l := by
    rw [← (C24_action_ids l net ntotal npre hnet).1]
    exact List.mem_map.2 ⟨c, hc, rfl⟩
  obtain ⟨vals', e, hd, hr, hf, hle⟩ := rep_core l net ntotal npre hnet hwf c hc vals hv
  obtain ⟨vals2, e2, hd2, hr2, hf2, hle2⟩ := rep_core l net ntotal npre hnet hwf c hc vals' hd
  have : vals2 = vals' := by
    -- a round on a fixed table changes nothing
    have hid := ((C24_action_ids l net ntotal npre hnet).2.1 c hc vals' (valsOk_iff.2 hd))
    obtain ⟨hidlt, act, hact, rfl, rfl⟩ := hid
    have h1 := e2 (ntotal + 1) (by omega)
    unfold repActIdx at h1
    rw [hact, Option.bind_some, repLoop_fixed (hwf _ hl) hd hf, Option.bind_some] at h1
    split at h1
    · simp at h1
    · simp only [le_refl, if_true, Option.some.injEq] at h1
      have := Nat.add_left_cancel h1
      exact index_inj hd2 hd this.symm
  subst this
  have hvl := hv.length_eq
  rw [doms_length] at hvl
  exact ⟨vals2, valsOk_iff.2 hd, fun fuel hfu => ⟨e fuel hfu, e2 fuel hfu⟩, hle,
    (steps_length (hwf _ hl) hvl hr).1⟩

/-- **C25, canonical.** If moreover the accesses of a symmetry are numbered as the parser numbers
them, two actions that are equal up to exchanging symmetric links have the same representative, so
representatives stand for exactly the classes of symmetric actions. -/
theorem C25_canonical (l : List PcSymm) (net : List PcComm) (ntotal npre : ℕ)
    (hnet : commitPcs 0 0 l = (net, ntotal, npre)) (hwf : ∀ pc ∈ l, LinksWf pc)
    (hord : ∀ pc ∈ l, LinksOrdered pc) (c : PcComm) (hc : c ∈ net) (vals vals' : List ℕ)
    (hv : ValsOk vals c.pc.doms) (hv' : ValsOk vals' c.pc.doms)
    (hsym : Relation.EqvGen (LinkExchange c.pc) vals vals') (fuel : ℕ) (hf : ntotal ≤ fuel) :
    repActIdx net fuel (actId c vals) = repActIdx net fuel (actId c vals') := by
  rw [valsOk_iff] at hv hv'
  have hl : c.pc ∈ l := by
    rw [← (C24_action_ids l net ntotal npre hnet).1]
    exact List.mem_map.2 ⟨c, hc, rfl⟩
  obtain ⟨r1, e1, d1, t1, f1, -⟩ := rep_core l net ntotal npre hnet hwf c hc vals hv
  obtain ⟨r2, e2, d2, t2, f2, -⟩ := rep_core l net ntotal npre hnet hwf c hc vals' hv'
  have lenEq : ∀ {a b : List ℕ}, Relation.EqvGen (LinkExchange c.pc) a b → a.length = b.length := by
    intro a b h
    induction h with
    | rel _ _ h => obtain ⟨s, _, j, _, h⟩ := h; exact h.length.symm
    | refl => rfl
    | symm _ _ _ ih => exact ih.symm
    | trans _ _ _ _ _ ih1 ih2 => exact ih1.trans ih2
  have same : ∀ {a b : List ℕ}, Relation.EqvGen (LinkExchange c.pc) a b → a.length = nvals c.pc →
      SameLinks c.pc a b := by
    intro a b h
    induction h with
    | rel _ _ h => intro hl'; exact ((exchange_iff (hwf _ hl) hl').1 h).same (hwf _ hl) (hord _ hl) hl'
    | refl => intro _; exact SameLinks.refl _
    | symm _ _ h ih => intro hl'; exact (ih (by rw [lenEq h]; exact hl')).symm
    | trans _ _ _ h1 h2 ih1 ih2 =>
      intro hl'
      exact (ih1 hl').trans (ih2 (by rw [← lenEq h1]; exact hl'))
  have samer : ∀ {a b : List ℕ}, Relation.ReflTransGen (SwapStep c.pc) a b →
      a.length = nvals c.pc → SameLinks c.pc a b := by
    intro a b h hl'
    have := (steps_length (hwf _ hl) hl' h).1
    have eqv : Relation.EqvGen (LinkExchange c.pc) a b := by
      clear * - this
      induction this with
      | refl => exact .refl _
      | tail _ h ih => exact ih.trans _ _ _ (.rel _ _ h)
    exact same eqv hl'
  have n1 := hv.length_eq
  rw [doms_length] at n1
  have n2 := hv'.length_eq
  rw [doms_length] at n2
  have n3 := d1.length_eq
  rw [doms_length] at n3
  have := fixed_unique (hwf _ hl) (hord _ hl) n3 f1 f2
    (((samer t1 n1).symm).trans ((same hsym n1).trans (samer t2 n2)))
  rw [e1 fuel hf, e2 fuel hf, this]

/-- The numbering made by the parser (src/prot-xfile.cc:313-357): the accesses of a symmetry are
consecutive, row after row. -/
theorem C25_parser_order (pc : PcSymm)
    (h : ∀ s ∈ pc.links, ∃ base, s.t = List.range' base (s.nvbls * s.nlinks))
    (hd : ∀ s ∈ pc.links, ∀ s' ∈ pc.links, s ≠ s' → ∀ r ∈ s.t, r ∉ s'.t) : LinksOrdered pc := by
  have ob : ∀ s ∈ pc.links, ∃ base, ∀ v < s.nvbls, ∀ j < s.nlinks,
      obD s v j = base + (v * s.nlinks + j) := by
    intro s hs
    obtain ⟨base, e⟩ := h s hs
    refine ⟨base, fun v hv j hj => ?_⟩
    have : v * s.nlinks + j < s.nvbls * s.nlinks := by
      calc v * s.nlinks + j < v * s.nlinks + s.nlinks := by omega
        _ = (v + 1) * s.nlinks := by ring
        _ ≤ _ := Nat.mul_le_mul_right _ hv
    simp [obD, e, List.getD_eq_getElem?_getD, this]
  refine ⟨fun s hs v hv j hj => ?_, fun s hs v v' hlt hv j hj => ?_, hd⟩
  · obtain ⟨base, e⟩ := ob s hs
    rw [e v hv j (by omega), e v hv (j + 1) hj]; omega
  · obtain ⟨base, e⟩ := ob s hs
    rw [e v (by omega) j hj, e v' hv j hj]
    have : v * s.nlinks < v' * s.nlinks := Nat.mul_lt_mul_of_pos_right hlt (by omega)
    omega

example : ∀ pc ∈ sampleNet, LinksWf pc ∧ LinksOrdered pc := by
  intro pc hpc
  have h : pc.links = [⟨2, 1, [0, 1]⟩] ∧
      ∃ a : Access, pc.access[0]? = some a ∧ pc.access[1]? = some a := by
    simp only [sampleNet, List.mem_cons, List.not_mem_nil, or_false] at hpc
    rcases hpc with rfl | rfl
    · exact ⟨rfl, _, rfl, rfl⟩
    · exact ⟨rfl, _, rfl, rfl⟩
  obtain ⟨hL, a, h0, h1⟩ := h
  constructor
  · intro s hs
    rw [hL, List.mem_singleton] at hs
    subst hs
    refine ⟨by decide, by decide, by decide, ?_⟩
    intro v hv j hj
    have : v = 0 := by simpa using hv
    subst this
    have : j = 0 ∨ j = 1 := by simp only at hj; omega
    rcases this with rfl | rfl
    · exact ⟨a, h0, h0⟩
    · exact ⟨a, h1, h0⟩
  · apply C25_parser_order
    · intro s hs
      rw [hL, List.mem_singleton] at hs
      subst hs
      exact ⟨0, rfl⟩
    · intro s hs s' hs' hne
      rw [hL, List.mem_singleton] at hs hs'
      exact absurd (hs.trans hs'.symm) hne

example : ((List.range 129).map fun i => (repActIdx (commitPcs 0 0 sampleNet).1 129 i).isSome) =
    List.replicate 129 true := by decide +kernel

example : repActIdx (commitPcs 0 0 sampleNet).1 129 (actId ⟨sampleNet[0], 0, 0⟩ [2, 1, 0, 2]) =
    some (actId ⟨sampleNet[0], 0, 0⟩ [1, 2, 0, 2]) := by decide +kernel

/-- **C25, table of represented actions.** Entry `rep` of `represented_actions` lists exactly the
actions whose representative is `rep`, in ascending order. -/
theorem C25_represented_actions (l : List PcSymm) (net : List PcComm) (ntotal npre : ℕ)
    (hnet : commitPcs 0 0 l = (net, ntotal, npre)) (hwf : ∀ pc ∈ l, LinksWf pc) :
    ∃ tab, representedActions net ntotal ntotal = some tab ∧ tab.length = ntotal ∧
      ∀ rep < ntotal, tab[rep]? = some ((List.range ntotal).filter fun i =>
        repActIdx net ntotal i = some rep) := by
  have hrep : ∀ i < ntotal, ∃ r, repActIdx net ntotal i = some r ∧ r < ntotal := by
    intro i hi
    obtain ⟨c, hc, vals, hv, rfl⟩ := (C24_action_ids l net ntotal npre hnet).2.2 i hi
    obtain ⟨vals', hv', e, hle, -⟩ := C25_representative l net ntotal npre hnet hwf c hc vals hv
    exact ⟨_, (e ntotal le_rfl).1, by omega⟩
  have key : ∀ (L : List ℕ), (∀ i ∈ L, i < ntotal) → ∀ tab : List (List ℕ), tab.length = ntotal →
      ∃ tab', L.foldlM (fun tab actidx => (repActIdx net ntotal actidx).bind fun rep =>
        if rep < tab.length then some (tab.modify rep (· ++ [actidx])) else none) tab = some tab' ∧
        tab'.length = ntotal ∧ ∀ rep < ntotal, tab'[rep]? = (tab[rep]?).map
          (· ++ L.filter fun i => repActIdx net ntotal i = some rep) := by
    intro L
    induction L with
    | nil =>
      intro _ tab ht
      exact ⟨tab, rfl, ht, fun rep hr => by simp⟩
    | cons i L ih =>
      intro hL tab ht
      obtain ⟨r, e, hr⟩ := hrep i (hL i (by simp))
      obtain ⟨tab', e', n', g'⟩ := ih (fun i hi => hL i (by simp [hi])) (tab.modify r (· ++ [i]))
        (by simp [ht])
      refine ⟨tab', ?_, n', fun rep hrep => ?_⟩
      · rw [List.foldlM_cons, e, Option.bind_some, if_pos (by omega)]
        exact e'
      · rw [g' rep hrep, List.getElem?_modify]
        have hb : rep < tab.length := by omega
        rw [List.getElem?_eq_getElem hb, List.filter_cons, e]
        by_cases hx : r = rep
        · subst hx; simp
        · simp [hx]
  obtain ⟨tab, e, n, g⟩ := key (List.range ntotal) (fun i hi => List.mem_range.1 hi)
    (List.replicate ntotal []) (by simp)
  refine ⟨tab, e, n, fun rep hr => ?_⟩
  rw [g rep hr]
  simp [hr]

end Verif.Props
