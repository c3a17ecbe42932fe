import Verif.Proofs.ActXn
import Mathlib.Data.Fin.VecNotation

/-! Property C102: the transitions kept for an action are those of the actions it represents, whatever
the mode of the system. -/

set_option linter.unusedSectionVars false

namespace Verif.Props
open Verif.Model Verif.Proofs Verif.Spec

variable {V : Type} [Fintype V] [DecidableEq V] {dom : V → ℕ}

/-- A process with the actions represented by `a` that belong to its symmetry; its steps may change
the variables it writes and the random ones. -/
def procFor (net : ANet V dom) (a : ℕ) (p : PcComm × SPc V dom) : LocalProc V where
  vbls := mayChange net p.2
  acts := (repsOf net a).filterMap fun b =>
    match netActOf net.comms b with
    | some act => if act.pcc = p.1 then some (actOf p.2 act.vals) else none
    | none => none

theorem mem_procFor {net : ANet V dom} {a : ℕ} {p : PcComm × SPc V dom} {x : LocalAct V} :
    x ∈ (procFor net a p).acts ↔ ∃ b ∈ repsOf net a, ∃ act, netActOf net.comms b = some act ∧
      act.pcc = p.1 ∧ x = actOf p.2 act.vals := by
  unfold procFor
  simp only [List.mem_filterMap]
  constructor
  · rintro ⟨b, hb, h⟩
    refine ⟨b, hb, ?_⟩
    split at h
    · rename_i act hact
      split at h
      · rename_i hc
        exact ⟨act, hact, hc, (Option.some.inj h).symm⟩
      · simp at h
    · simp at h
  · rintro ⟨b, hb, act, h1, h2, rfl⟩
    exact ⟨b, hb, by simp [h1, h2]⟩

theorem plain_iff {net : ANet V dom} (hok : ANetOk net) {a : ℕ} {p : PcComm × SPc V dom} (hp : p ∈ net.pcs)
    {s t : VSt V dom} :
    (s, t) ∈ plain net a p ↔ ∃ x ∈ (procFor net a p).acts, x.Enabled s ∧ x.Effect s t := by
  rw [mem_plain]
  constructor
  · rintro ⟨b, hb, h⟩
    obtain ⟨act, h1, h2, h3⟩ := (mem_part hok (mem_repsOf.1 hb).1 hp).1 h
    exact ⟨_, mem_procFor.2 ⟨b, hb, act, h1, h2, rfl⟩, h3⟩
  · rintro ⟨x, hx, h⟩
    obtain ⟨b, hb, act, h1, h2, rfl⟩ := mem_procFor.1 hx
    exact ⟨b, hb, (mem_part hok (mem_repsOf.1 hb).1 hp).2 ⟨act, h1, h2, h⟩⟩

theorem plain_mask_iff {net : ANet V dom} (hok : ANetOk net) {a : ℕ} {p : PcComm × SPc V dom}
    (hp : p ∈ net.pcs) {s t : VSt V dom} :
    (s, t) ∈ plain net a p ∧ (s, t) ∈ net.mask p.2 ↔ (procFor net a p).Step s t := by
  rw [plain_iff hok hp, mem_mask (hok.pcs p hp)]
  rfl

theorem sd_plain {net : ANet V dom} (hok : ANetOk net) {a : ℕ} (h : SameAssign net a)
    {p : PcComm × SPc V dom} (hp : p ∈ net.pcs) : sdOf net p (plain net a p) = plain net a p := by
  apply sdOf_of_noChain
  intro s t u h1 h2 h3
  obtain ⟨b, hb, h1⟩ := mem_plain.1 h1
  obtain ⟨c, hc, h3⟩ := mem_plain.1 h3
  exact noChain_of_sameAssign hok h hp b hb c hc s t u h1 h2 h3

theorem falseXn_eq (net : ANet V dom) : net.falseXn = net.pcs.map fun _ => ∅ := rfl

theorem actXfmlae_eq {net : ANet V dom} (hok : ANetOk net) {a : ℕ} (ha : a < net.n)
    (h : SameAssign net a) : net.actXfmlae a = some (net.pcs.map (plain net a)) := by
  unfold ANet.actXfmlae
  split
  · rw [table_get hok ha]
    congr 1
    apply List.map_congr_left
    intro p hp
    exact cum_of_noChain (noChain_of_sameAssign hok h hp)
  · obtain ⟨act, r, h1, -⟩ := hok.act ha
    rw [repd_eq hok ha, Option.bind_some, falseXn_eq, orAll_eq hok _ _ (fun b hb => (mem_repsOf.1 hb).1),
      Option.bind_some, netActOf_pcc h1, Option.map_some]
    split
    · rfl
    · rw [selfDisable_map]
      congr 1
      apply List.map_congr_left
      intro p hp
      exact sd_plain hok h hp

/-- **C102, transitions of the processes.** If the actions represented by `a` assign the same values,
`action_xfmlae` gives with and without `lightweight`, for each process, exactly the
transitions of the represented actions. -/
theorem C102_action_xfmlae (net : ANet V dom) (hok : ANetOk net) (a : ℕ) (ha : a < net.n)
    (h : SameAssign net a) :
    ∃ x, net.actXfmlae a = some x ∧ x.length = net.pcs.length ∧
      ∀ (i : ℕ) p X, net.pcs[i]? = some p → x[i]? = some X → ∀ s t : VSt V dom,
        (s, t) ∈ X ↔ ∃ α ∈ (procFor net a p).acts, α.Enabled s ∧ α.Effect s t := by
  refine ⟨_, actXfmlae_eq hok ha h, by simp, fun i p X hp hX s t => ?_⟩
  rw [List.getElem?_map, hp] at hX
  cases hX
  exact plain_iff hok (List.mem_of_getElem? hp)

/-- **C102, transitions of one process.** The same for `represented_xns_of_pc`. -/
theorem C102_represented_xns_of_pc (net : ANet V dom) (hok : ANetOk net) (a : ℕ) (ha : a < net.n)
    (h : SameAssign net a) (i : ℕ) (p : PcComm × SPc V dom) (hp : net.pcs[i]? = some p)
    (act : ActSymm) (hact : netActOf net.comms a = some act) (hpc : p.1 = act.pcc) :
    ∃ X, net.repXnsOfPc a i = some X ∧ ∀ s t : VSt V dom,
      (s, t) ∈ X ↔ ∃ α ∈ (procFor net a p).acts, α.Enabled s ∧ α.Effect s t := by
  have hpm := List.mem_of_getElem? hp
  refine ⟨plain net a p, ?_, fun s t => plain_iff hok hpm⟩
  unfold ANet.repXnsOfPc
  rw [hp, Option.bind_some]
  split
  · rw [table_get hok ha, Option.bind_some, List.getElem?_map, hp, Option.map_some,
      cum_of_noChain (noChain_of_sameAssign hok h hpm)]
  · have key : ∀ (bs : List ℕ), (∀ b ∈ bs, b ∈ repsOf net a) → ∀ f : PairSet V dom,
        bs.foldlM (fun xn b => (netActOf net.comms b).bind fun act =>
          (xnOfPc p.2 act.vals).map (xn ∪ ·)) f =
        some (bs.foldl (fun f b => f ∪ part net b p) f) := by
      intro bs
      induction bs with
      | nil => intro _ f; rfl
      | cons b bs ih =>
        intro hb f
        obtain ⟨hbn, hbr⟩ := mem_repsOf.1 (hb b (by simp))
        obtain ⟨actb, r, e1, -, e2, -, -, act', e3, e4⟩ := hok.act hbn
        rw [hbr] at e2; cases e2
        rw [hact] at e3; cases e3
        rw [List.foldlM_cons, e1, Option.bind_some,
          part_get hok hbn e1 hpm (by rw [hpc, e4])]
        exact ih (fun c hc => hb c (by simp [hc])) _
    rw [repd_eq hok ha, Option.bind_some, key _ (fun b hb => hb), Option.bind_some, hact, Option.map_some]
    split
    · rfl
    · exact congrArg some (sd_plain hok h hpm)

theorem xfmla_plain {net : ANet V dom} (hok : ANetOk net) {a : ℕ} {s t : VSt V dom} :
    (s, t) ∈ net.xfmla (net.pcs.map (plain net a)) ↔
      SomeStep (net.pcs.map (procFor net a)) s t := by
  rw [mem_xfmla]
  unfold SomeStep
  simp only [List.mem_map, exists_exists_and_eq_and]
  exact exists_congr fun p => and_congr_right fun hp => plain_mask_iff hok hp

/-- **C102, transitions of the system.** Without `lightweight`, `action_pfmla` gives exactly
the steps in which some process takes one of the represented actions. -/
theorem C102_action_pfmla (net : ANet V dom) (hok : ANetOk net) (a : ℕ) (ha : a < net.n)
    (h : SameAssign net a) (hl : net.light = false) :
    ∃ R, net.actPfmla a = some R ∧ ∀ s t : VSt V dom,
      (s, t) ∈ R ↔ SomeStep (net.pcs.map (procFor net a)) s t := by
  have h1 := actXfmlae_eq hok ha h
  unfold ANet.actXfmlae at h1
  rw [hl] at h1
  simp only [Bool.not_false, if_true] at h1
  refine ⟨_, by unfold ANet.actPfmla; rw [hl]; simp only [Bool.not_false, if_true]; rw [h1]; rfl, ?_⟩
  intro s t
  exact xfmla_plain hok

/-- **C102, `lightweight` (partial).** With `lightweight`, `action_pfmla` gives those of these steps that
do not start where a step of any process with the action ends.  The full statement, that it gives all
of them, is false: see `C102_lightweight_loses`. -/
theorem C102_action_pfmla_light_partial (net : ANet V dom) (hok : ANetOk net) (a : ℕ) (ha : a < net.n)
    (hl : net.light = true) (act : ActSymm) (hact : netActOf net.comms a = some act)
    (hr : act.pcc.pc.randomWriteCk = false) :
    ∃ R, net.actPfmla a = some R ∧ ∀ s t : VSt V dom,
      (s, t) ∈ R ↔ SomeStep (net.pcs.map (procFor net a)) s t ∧
        ∀ s', ¬ SomeStep (net.pcs.map (procFor net a)) s' s := by
  have key : ∀ (bs : List ℕ), (∀ b ∈ bs, b ∈ repsOf net a) → ∀ f : PairSet V dom,
      ∃ R, bs.foldlM (fun xn b => (net.make b).map fun tmp => xn ∪ net.xfmla tmp) f = some R ∧
        ∀ e, e ∈ R ↔ e ∈ f ∨ ∃ p ∈ net.pcs, ∃ b ∈ bs, e ∈ part net b p ∧ e ∈ net.mask p.2 := by
    intro bs
    induction bs with
    | nil => intro _ f; exact ⟨f, rfl, by simp⟩
    | cons b bs ih =>
      intro hb f
      obtain ⟨R, h1, h2⟩ := ih (fun c hc => hb c (by simp [hc])) (f ∪ net.xfmla (net.pcs.map (part net b)))
      refine ⟨R, ?_, fun e => ?_⟩
      · rw [List.foldlM_cons, make_eq hok (mem_repsOf.1 (hb b (by simp))).1]
        exact h1
      · rw [h2, Finset.mem_union, mem_xfmla, or_assoc]
        apply or_congr_right
        constructor
        · rintro (⟨p, hp, h⟩ | ⟨p, hp, c, hc, h⟩)
          · exact ⟨p, hp, b, by simp, h⟩
          · exact ⟨p, hp, c, by simp [hc], h⟩
        · rintro ⟨p, hp, c, hc, h⟩
          rcases List.mem_cons.1 hc with rfl | hc
          · exact Or.inl ⟨p, hp, h⟩
          · exact Or.inr ⟨p, hp, c, hc, h⟩
  obtain ⟨R, h1, h2⟩ := key (repsOf net a) (fun b hb => hb) ∅
  have h3 : ∀ s t, (s, t) ∈ R ↔ SomeStep (net.pcs.map (procFor net a)) s t := by
    intro s t
    rw [← xfmla_plain hok, mem_xfmla, h2]
    simp only [Finset.notMem_empty, false_or, mem_plain]
    refine exists_congr fun p => and_congr_right fun _ => ?_
    constructor
    · rintro ⟨b, hb, h, h'⟩; exact ⟨⟨b, hb, h⟩, h'⟩
    · rintro ⟨⟨b, hb, h⟩, h'⟩; exact ⟨b, hb, h, h'⟩
  refine ⟨dropFrom R (imgOf R), ?_, fun s t => ?_⟩
  · unfold ANet.actPfmla
    rw [hl]
    simp only [Bool.not_true, Bool.false_eq_true, if_false]
    rw [repd_eq hok ha, Option.bind_some, h1, Option.bind_some, netActOf_pcc hact, Option.map_some, hr]
    rfl
  · unfold dropFrom imgOf
    rw [Finset.mem_filter, h3, Finset.mem_image]
    refine and_congr_right fun _ => ⟨fun h s' hs => h ⟨(s', s), (h3 _ _).2 hs, rfl⟩, ?_⟩
    rintro h ⟨⟨s', t'⟩, h4, h5⟩
    simp only at h5
    subst h5
    exact h s' ((h3 _ _).1 h4)

/-- **C102, relation that is checked.** If each of the actions represents actions with the same
assignments, the relation built by `stabilization_ck` from them is with and without `lightweight` the
union of the transitions of the represented actions. -/
theorem C102_stabilization_relation (net : ANet V dom) (hok : ANetOk net) (acts : List ℕ)
    (hlt : ∀ a ∈ acts, a < net.n) (h : ∀ a ∈ acts, SameAssign net a) :
    ∃ x, net.stabXn acts = some x ∧ x.length = net.pcs.length ∧
      ∀ (i : ℕ) p X, net.pcs[i]? = some p → x[i]? = some X → ∀ s t : VSt V dom,
        (s, t) ∈ X ↔ ∃ a ∈ acts, ∃ α ∈ (procFor net a p).acts, α.Enabled s ∧ α.Effect s t := by
  have key : ∀ (acts : List ℕ), (∀ a ∈ acts, a < net.n) → (∀ a ∈ acts, SameAssign net a) →
      ∀ F : PcComm × SPc V dom → PairSet V dom, ∃ G : PcComm × SPc V dom → PairSet V dom,
        acts.foldlM (fun x a => if !net.light then (net.actXfmlae a).map (orXn x)
          else (net.repd a).bind fun bs => net.orAll x bs) (net.pcs.map F) = some (net.pcs.map G) ∧
        ∀ p e, e ∈ G p ↔ e ∈ F p ∨ ∃ a ∈ acts, e ∈ plain net a p := by
    intro acts
    induction acts with
    | nil => intro _ _ F; exact ⟨F, rfl, by simp⟩
    | cons a acts ih =>
      intro hlt h F
      have hstep : ∃ F', (if !net.light then (net.actXfmlae a).map (orXn (net.pcs.map F))
          else (net.repd a).bind fun bs => net.orAll (net.pcs.map F) bs) = some (net.pcs.map F') ∧
          ∀ p e, e ∈ F' p ↔ e ∈ F p ∨ e ∈ plain net a p := by
        split
        · rw [actXfmlae_eq hok (hlt a (by simp)) (h a (by simp)), Option.map_some, orXn_map]
          exact ⟨_, rfl, fun p e => Finset.mem_union⟩
        · rw [repd_eq hok (hlt a (by simp)), Option.bind_some,
            orAll_eq hok _ _ (fun b hb => (mem_repsOf.1 hb).1)]
          exact ⟨_, rfl, fun p e => by rw [mem_foldl_parts, mem_plain]⟩
      obtain ⟨F', h1, h2⟩ := hstep
      obtain ⟨G, h3, h4⟩ := ih (fun b hb => hlt b (by simp [hb])) (fun b hb => h b (by simp [hb])) F'
      refine ⟨G, ?_, fun p e => ?_⟩
      · rw [List.foldlM_cons, h1]; exact h3
      · rw [h4, h2]
        simp [or_assoc]
  obtain ⟨G, h1, h2⟩ := key acts hlt h fun _ => ∅
  refine ⟨_, h1, by simp, fun i p X hp hX s t => ?_⟩
  rw [List.getElem?_map, hp] at hX
  cases hX
  rw [h2]
  simp only [Finset.notMem_empty, false_or]
  exact exists_congr fun a => and_congr_right fun _ => plain_iff hok (List.mem_of_getElem? hp)

/-- The assignments of an action do not change when links are exchanged none of whose accesses is written. -/
theorem drop_of_exchange {pc : PcSymm} {vals vals' : List ℕ} (hv : vals.length = pc.doms.length)
    (hro : ∀ s ∈ pc.links, ∀ v < s.nvbls, ∀ j < s.nlinks, obD s v j ∉ pc.wmap)
    (h : LinkExchange pc vals vals') :
    vals'.length = pc.doms.length ∧
      vals'.drop pc.access.length = vals.drop pc.access.length := by
  obtain ⟨s, hs, j, hj, hx⟩ := h
  refine ⟨by rw [hx.length, hv], ?_⟩
  have hall : ∀ r ∈ pc.wmap, assignAt pc vals' r = assignAt pc vals r := by
    intro r hr
    refine (hx.rest r (wmap_lt hr) fun v hv => ⟨?_, ?_⟩).2
    · rintro rfl; exact hro s hs v hv j (by omega) hr
    · rintro rfl; exact hro s hs v hv (j + 1) hj hr
  have hdl : pc.doms.length = pc.access.length + pc.wmap.length := by
    rw [PcSymm.doms, List.length_append, rdoms_length, wdoms_length]
  apply List.ext_getElem
  · simp [hx.length]
  · intro k h1 h2
    rw [List.length_drop] at h1 h2
    have hk : k < pc.wmap.length := by omega
    have hkk := hall pc.wmap[k] (List.getElem_mem hk)
    unfold assignAt at hkk
    rw [if_pos (List.getElem_mem hk), if_pos (List.getElem_mem hk),
      List.Nodup.idxOf_getElem (wmap_nodup pc) k hk, Option.some.injEq] at hkk
    rw [List.getElem_drop, List.getElem_drop]
    rw [List.getD_eq_getElem?_getD, List.getD_eq_getElem?_getD, List.getElem?_eq_getElem (by omega),
      List.getElem?_eq_getElem (by omega)] at hkk
    exact hkk

/-- **C102, when the condition holds.** If no access of a symmetric link of the action's process is
written, the actions represented by `a` assign the same values. -/
theorem C102_read_only_links (net : ANet V dom) (hok : ANetOk net) (a : ℕ) (act : ActSymm)
    (hact : netActOf net.comms a = some act)
    (hro : ∀ s ∈ act.pcc.pc.links, ∀ v < s.nvbls, ∀ j < s.nlinks, obD s v j ∉ act.pcc.pc.wmap) :
    SameAssign net a := by
  have key : ∀ b ∈ repsOf net a, ∀ actb, netActOf net.comms b = some actb →
      actb.vals.drop actb.pcc.pc.access.length = act.vals.drop act.pcc.pc.access.length := by
    intro b hb actb hactb
    obtain ⟨hbn, hbr⟩ := mem_repsOf.1 hb
    obtain ⟨l, npre, h1, h2⟩ := hok.comm
    obtain ⟨-, h3, h4⟩ := C24_action_ids l _ _ _ h1
    obtain ⟨c, hc, vals, hv, rfl⟩ := h4 b hbn
    obtain ⟨-, act1, h5, h6, h7⟩ := h3 c hc vals hv
    rw [hactb] at h5; cases h5
    obtain ⟨vals', hv', h8, -, h9⟩ := C25_representative l _ _ _ h1 h2 c hc vals hv
    rw [(h8 _ le_rfl).1] at hbr
    cases hbr
    obtain ⟨-, act2, h10, h11, h12⟩ := h3 c hc vals' hv'
    rw [hact] at h10; cases h10
    rw [h6, h7, h11, h12]
    rw [h11] at hro
    have : ∀ w, Relation.ReflTransGen (LinkExchange c.pc) vals w → w.length = c.pc.doms.length ∧
        w.drop c.pc.access.length = vals.drop c.pc.access.length := by
      intro w hw
      induction hw with
      | refl => exact ⟨hv.1, rfl⟩
      | tail _ h ih =>
        obtain ⟨e1, e2⟩ := drop_of_exchange ih.1 hro h
        exact ⟨e1, e2.trans ih.2⟩
    exact (this vals' h9).2.symm
  intro b hb b' hb' act1 act2 h1 h2
  rw [key b hb act1 h1, key b' hb' act2 h2]

/-- A process symmetry with two symmetric read accesses and one written access. -/
def spotSymm : PcSymm := ⟨[⟨.read, .direct, 2⟩, ⟨.read, .direct, 2⟩, ⟨.write, .direct, 2⟩], [⟨2, 1, [0, 1]⟩]⟩

/-- Three processes, each reading the variables of the two others. -/
def spotNet (light : Bool) : ANet (Fin 3) fun _ => 2 where
  comms := (commitPcs 0 0 [spotSymm]).1
  n := 16
  pcs := [(⟨spotSymm, 0, 0⟩, ⟨0, spotSymm, [2, 1, 0], ∅⟩), (⟨spotSymm, 0, 0⟩, ⟨0, spotSymm, [0, 2, 1], ∅⟩),
    (⟨spotSymm, 0, 0⟩, ⟨0, spotSymm, [1, 0, 2], ∅⟩)]
  light := light

theorem linksWf_two {pc : PcSymm} (hL : pc.links = [⟨2, 1, [0, 1]⟩]) {a : Access}
    (h0 : pc.access[0]? = some a) (h1 : pc.access[1]? = some a) : LinksWf pc := by
  intro s hs
  rw [hL, List.mem_singleton] at hs
  subst hs
  refine ⟨by decide, by decide, by decide, ?_⟩
  intro v hv j hj
  have : v = 0 := by simpa using hv
  subst this
  have : j = 0 ∨ j = 1 := by simp only at hj; omega
  rcases this with rfl | rfl
  · exact ⟨a, h0, h0⟩
  · exact ⟨a, h1, h0⟩

theorem spotNet_ok (light : Bool) : ANetOk (spotNet light) where
  comm := ⟨[spotSymm], 8, by cases light <;> decide +kernel, by
    intro pc hpc
    rw [List.mem_singleton] at hpc
    subst hpc
    exact linksWf_two rfl rfl rfl⟩
  spec := by
    intro p hp
    simp only [spotNet, List.mem_cons, List.not_mem_nil, or_false] at hp
    rcases hp with rfl | rfl | rfl <;> rfl
  pcs := by
    intro p hp
    simp only [spotNet, List.mem_cons, List.not_mem_nil, or_false] at hp
    have key : ∀ x y z : Fin 3, PcOk (⟨0, spotSymm, [x, y, z], ∅⟩ : SPc (Fin 3) fun _ => 2) := by
      intro x y z
      refine ⟨rfl, ?_, show ∀ a ∈ spotSymm.access, a.randomWriteCk = false by decide⟩
      intro r v a h1 h2
      have h3 : ∀ a ∈ spotSymm.access, a.domsz = 2 := by decide
      exact (h3 a (List.mem_of_getElem? h2)).symm
    rcases hp with rfl | rfl | rfl <;> exact key _ _ _

/-- Action 5 (one of the others is 1, the own variable changes from 0 to 1) stands for two actions that
assign the same value: the theorems above apply to it in both modes. -/
example (light : Bool) : repsOf (spotNet light) 5 = [5, 9] ∧ 5 < (spotNet light).n ∧
    SameAssign (spotNet light) 5 := by
  refine ⟨by cases light <;> decide +kernel, by cases light <;> decide, ?_⟩
  refine C102_read_only_links _ (spotNet_ok light) 5 ⟨⟨spotSymm, 0, 0⟩, [0, 1, 0, 1], 2, 1, 3⟩
    (by cases light <;> decide +kernel) (by decide)

/-- A process symmetry that reads one variable and writes another. -/
def hopSymm : PcSymm := ⟨[⟨.read, .direct, 2⟩, ⟨.write, .direct, 2⟩], []⟩

/-- A ring of three processes. -/
def hopNet (light : Bool) : ANet (Fin 3) fun _ => 2 where
  comms := (commitPcs 0 0 [hopSymm]).1
  n := 8
  pcs := [(⟨hopSymm, 0, 0⟩, ⟨0, hopSymm, [2, 0], ∅⟩), (⟨hopSymm, 0, 0⟩, ⟨0, hopSymm, [0, 1], ∅⟩),
    (⟨hopSymm, 0, 0⟩, ⟨0, hopSymm, [1, 2], ∅⟩)]
  light := light

/-- **C102, transitions lost.** In a ring where 1 is copied to the right, `action_pfmla` with
`lightweight` lacks the step of process 2 from `1, 1, 0` because process 1 can lead there; without
`lightweight` it is there. -/
theorem C102_lightweight_loses :
    ((hopNet true).actPfmla 5).map (fun R => decide ((![1, 1, 0], ![1, 1, 1]) ∈ R)) = some false ∧
    ((hopNet false).actPfmla 5).map (fun R => decide ((![1, 1, 0], ![1, 1, 1]) ∈ R)) = some true := by
  constructor <;> decide +kernel

/-- A process symmetry with two symmetric written accesses. -/
def flipSymm : PcSymm := ⟨[⟨.write, .direct, 2⟩, ⟨.write, .direct, 2⟩], [⟨2, 1, [0, 1]⟩]⟩

/-- One process that writes two variables. -/
def flipNet (light : Bool) : ANet (Fin 2) fun _ => 2 where
  comms := (commitPcs 0 0 [flipSymm]).1
  n := 16
  pcs := [(⟨flipSymm, 0, 0⟩, ⟨0, flipSymm, [0, 1], ∅⟩)]
  light := light

/-- **C102, written links.** The action `0, 1 → 1, 0` also stands for `1, 0 → 0, 1`.  With `lightweight` the
relation that is checked for stabilization has both transitions and so a cycle; without it has none. -/
theorem C102_exchange_differs :
    ((flipNet true).stabXn [6]).map (·.map fun R =>
      decide ((![0, 1], ![1, 0]) ∈ R ∧ (![1, 0], ![0, 1]) ∈ R)) = some [true] ∧
    (flipNet false).stabXn [6] = some [∅] := by
  constructor <;> decide +kernel

/-- A process symmetry with three symmetric written accesses. -/
def rotSymm : PcSymm :=
  ⟨[⟨.write, .direct, 3⟩, ⟨.write, .direct, 3⟩, ⟨.write, .direct, 3⟩], [⟨3, 1, [0, 1, 2]⟩]⟩

/-- The process of the following system. -/
def rotPc : PcComm × SPc (Fin 3) fun _ => 3 := (⟨rotSymm, 0, 0⟩, ⟨0, rotSymm, [0, 1, 2], ∅⟩)

/-- One process that writes three variables. -/
def rotNet (light : Bool) : ANet (Fin 3) fun _ => 3 where
  comms := (commitPcs 0 0 [rotSymm]).1
  n := 729
  pcs := [rotPc]
  light := light

theorem rotPc_ok : PcOk rotPc.2 := by
  refine ⟨rfl, ?_, show ∀ a ∈ rotSymm.access, a.randomWriteCk = false by decide⟩
  intro r v a h1 h2
  have h3 : ∀ a ∈ rotSymm.access, a.domsz = 3 := by decide
  exact (h3 a (List.mem_of_getElem? h2)).symm

theorem rotNet_ok (light : Bool) : ANetOk (rotNet light) where
  comm := ⟨[rotSymm], 27, by cases light <;> decide +kernel, by
    intro pc hpc
    rw [List.mem_singleton] at hpc
    subst hpc
    intro s hs
    have hs : s = ⟨3, 1, [0, 1, 2]⟩ := by simpa [rotSymm] using hs
    subst hs
    refine ⟨by decide, by decide, by decide, fun v hv j hj => ⟨⟨.write, .direct, 3⟩, ?_⟩⟩
    have hv : v = 0 := by simpa using hv
    subst hv
    have : ∀ j < 3, rotSymm.access[obD ⟨3, 1, [0, 1, 2]⟩ 0 j]? = some ⟨.write, .direct, 3⟩ := by decide
    exact ⟨this j hj, this 0 (by decide)⟩⟩
  spec := by
    intro p hp
    have hp : p = rotPc := by simpa [rotNet] using hp
    subst hp
    rfl
  pcs := by
    intro p hp
    have hp : p = rotPc := by simpa [rotNet] using hp
    subst hp
    exact rotPc_ok

theorem rot_part {light : Bool} {b : ℕ} (hb : b < 729) {act : ActSymm}
    (hact : netActOf (rotNet light).comms b = some act) (hpcc : act.pcc = rotPc.1) (G A : Fin 3 → Fin 3)
    (hv : act.vals = [(G 0).val, (G 1).val, (G 2).val, (A 0).val, (A 1).val, (A 2).val])
    (hne : G 0 ≠ A 0) : part (rotNet light) b rotPc = {(G, A)} := by
  have hA : ∀ i, (A i).val ≠ 3 := fun i => by have := (A i).isLt; omega
  have hg : (actOf rotPc.2 act.vals).guards = [(0, (G 0).val), (1, (G 1).val), (2, (G 2).val)] := by
    rw [hv]; rfl
  have hw : (actOf rotPc.2 act.vals).writes =
      [(0, some (A 0).val), (1, some (A 1).val), (2, some (A 2).val)] := by
    have : (actOf rotPc.2 act.vals).writes = [(0, if (A 0).val = 3 then none else some (A 0).val),
        (1, if (A 1).val = 3 then none else some (A 1).val),
        (2, if (A 2).val = 3 then none else some (A 2).val)] := by rw [hv]; rfl
    rw [this, if_neg (hA 0), if_neg (hA 1), if_neg (hA 2)]
  ext ⟨s, t⟩
  rw [mem_part (rotNet_ok light) hb (by simp [rotNet]), Finset.mem_singleton, Prod.mk.injEq]
  constructor
  · rintro ⟨act', h1, -, ⟨h2, -⟩, h3⟩
    rw [hact] at h1; cases h1
    unfold LocalAct.Effect at h3
    rw [hg] at h2
    rw [hw] at h3
    have e0 := h2 (0, (G 0).val) (by simp)
    have e1 := h2 (1, (G 1).val) (by simp)
    have e2 := h2 (2, (G 2).val) (by simp)
    have f0 := h3 (0, some (A 0).val) (by simp)
    have f1 := h3 (1, some (A 1).val) (by simp)
    have f2 := h3 (2, some (A 2).val) (by simp)
    constructor
    · funext i
      match i with
      | 0 => exact Fin.ext e0
      | 1 => exact Fin.ext e1
      | 2 => exact Fin.ext e2
    · funext i
      match i with
      | 0 => exact Fin.ext f0
      | 1 => exact Fin.ext f1
      | 2 => exact Fin.ext f2
  · rintro ⟨rfl, rfl⟩
    refine ⟨act, hact, hpcc, ⟨?_, ?_⟩, ?_⟩
    · rw [hg]
      intro g hg
      simp only [List.mem_cons, List.not_mem_nil, or_false] at hg
      rcases hg with rfl | rfl | rfl <;> rfl
    · rw [hw]
      exact ⟨_, List.mem_cons_self .., _, rfl, fun h => hne (Fin.ext h)⟩
    · unfold LocalAct.Effect
      rw [hw]
      intro w hw
      simp only [List.mem_cons, List.not_mem_nil, or_false] at hw
      rcases hw with rfl | rfl | rfl <;> rfl

theorem rot_reps (light : Bool) : repsOf (rotNet light) 150 = [150, 200, 318, 424, 518, 574] := by
  cases light <;> decide +kernel

theorem rot_parts (light : Bool) :
    part (rotNet light) 150 rotPc = {(![0, 1, 2], ![1, 2, 0])} ∧
    part (rotNet light) 200 rotPc = {(![0, 2, 1], ![1, 0, 2])} ∧
    part (rotNet light) 318 rotPc = {(![1, 0, 2], ![2, 1, 0])} ∧
    part (rotNet light) 424 rotPc = {(![1, 2, 0], ![2, 0, 1])} ∧
    part (rotNet light) 518 rotPc = {(![2, 0, 1], ![0, 1, 2])} ∧
    part (rotNet light) 574 rotPc = {(![2, 1, 0], ![0, 2, 1])} := by
  have key : ∀ b < 729, ∀ G A : Fin 3 → Fin 3, G 0 ≠ A 0 →
      (netActOf (rotNet light).comms b).map (fun act => (act.pcc, act.vals)) =
        some (rotPc.1, [(G 0).val, (G 1).val, (G 2).val, (A 0).val, (A 1).val, (A 2).val]) →
      part (rotNet light) b rotPc = {(G, A)} := by
    intro b hb G A hne h
    obtain ⟨act, h1, h2⟩ := Option.map_eq_some_iff.1 h
    rw [Prod.mk.injEq] at h2
    exact rot_part hb h1 h2.1 G A h2.2 hne
  refine ⟨?_, ?_, ?_, ?_, ?_, ?_⟩ <;>
    exact key _ (by decide) _ _ (by decide) (by cases light <;> decide +kernel)

theorem rot_mask (light : Bool) : (rotNet light).mask rotPc.2 = Finset.univ := by
  ext ⟨s, t⟩
  rw [mem_mask rotPc_ok]
  simp only [Finset.mem_univ, iff_true]
  intro v hv
  have hw : ∀ v, v ∈ writtenOf rotPc.2 := by decide
  exact absurd (List.mem_append.2 (Or.inl (hw v))) hv

/-- **C102, order of the actions.** With three symmetric written links, `0, 1, 2 → 1, 2, 0` stands for six
actions.  Without `lightweight` the table keeps the transitions of two of them, because
`self_disable` is applied after each action; with `lightweight`, where it is applied once, `action_xfmlae`
is empty. -/
theorem C102_order_matters :
    (rotNet false).actXfmlae 150 = some [{(![2, 0, 1], ![0, 1, 2]), (![2, 1, 0], ![0, 2, 1])}] ∧
    (rotNet true).actXfmlae 150 = some [∅] := by
  constructor
  · unfold ANet.actXfmlae
    rw [show (!(rotNet false).light) = true from rfl, if_pos rfl, table_get (rotNet_ok false) (by decide),
      rot_reps]
    obtain ⟨h1, h2, h3, h4, h5, h6⟩ := rot_parts false
    have hr : ∀ b ∈ [150, 200, 318, 424, 518, 574], isRnd (rotNet false) b = false := by decide +kernel
    have hs : ∀ b ∈ [150, 200, 318, 424, 518, 574], ∀ f, sdUnless (rotNet false) b rotPc f =
        dropFrom f (imgOf f) := by
      intro b hb f
      unfold sdUnless sdOf
      rw [hr b hb, rot_mask, Finset.inter_univ]
      rfl
    show some [cum (rotNet false) rotPc _] = _
    unfold cum
    simp only [List.foldl_cons, List.foldl_nil, h1, h2, h3, h4, h5, h6]
    rw [hs 150 (by simp), hs 200 (by simp), hs 318 (by simp), hs 424 (by simp), hs 518 (by simp),
      hs 574 (by simp)]
    decide +kernel
  · obtain ⟨h1, h2, h3, h4, h5, h6⟩ := rot_parts true
    unfold ANet.actXfmlae
    rw [show (!(rotNet true).light) = false from rfl, if_neg (by decide),
      repd_eq (rotNet_ok true) (by decide), Option.bind_some, falseXn_eq,
      orAll_eq (rotNet_ok true) _ _ (fun b hb => (mem_repsOf.1 hb).1), Option.bind_some,
      show pcOfAct? 150 (rotNet true).comms = some rotPc.1 by decide +kernel, Option.map_some,
      show rotPc.1.pc.randomWriteCk = false by decide, if_neg (by decide), selfDisable_map, rot_reps]
    show some [sdOf (rotNet true) rotPc _] = _
    unfold sdOf
    rw [rot_mask, Finset.inter_univ]
    simp only [List.foldl_cons, List.foldl_nil, h1, h2, h3, h4, h5, h6]
    decide +kernel

end Verif.Props
