import Verif.Proofs.SysInit

/-! Property C103: the actions of a system stand for its transitions, so that `stabilization_ck` checks the
same relation whether or not information about the result is asked for. -/

set_option linter.unusedSectionVars false

namespace Verif.Props
open Verif.Model Verif.Proofs Verif.Spec

variable {V : Type} [Fintype V] [DecidableEq V] {dom : V → ℕ}

/-- The processes of the system with the actions `A` of their symmetries. -/
def sysProcs (sys : ISys V dom) (A : PcComm → List (List ℕ)) : List (LocalProc V) :=
  sys.groups.flatMap fun g => g.2.map fun p => ⟨mayChange sys.net p.pc, (A g.1).map (actOf p.pc)⟩

theorem sysProcs_step {sys : ISys V dom} {A : PcComm → List (List ℕ)} {s t : VSt V dom} :
    SomeStep (sysProcs sys A) s t ↔ ∃ g ∈ sys.groups, ∃ p ∈ g.2, ∃ w ∈ A g.1,
      ((actOf p.pc w).Enabled s ∧ (actOf p.pc w).Effect s t) ∧ ∀ v, v ∉ mayChange sys.net p.pc → t v = s v := by
  unfold SomeStep sysProcs LocalProc.Step
  simp only [List.mem_flatMap, List.mem_map]
  constructor
  · rintro ⟨_, ⟨g, hg, p, hp, rfl⟩, ⟨α, hα, h1⟩, h2⟩
    obtain ⟨w, hw, rfl⟩ := List.mem_map.1 hα
    exact ⟨g, hg, p, hp, w, hw, h1, h2⟩
  · rintro ⟨g, hg, p, hp, w, hw, h1, h2⟩
    exact ⟨_, ⟨g, hg, p, hp, rfl⟩, ⟨_, List.mem_map.2 ⟨w, hw, rfl⟩, h1⟩, h2⟩

/-- **C103, the relation of the processes.** `direct_pfmla` contains exactly the steps in which some process
takes one of the actions its symmetry was given. -/
theorem C103_direct (sys : ISys V dom) (hok : ISysOk sys) (A : PcComm → List (List ℕ))
    (hA : Uniform sys A) (s t : VSt V dom) :
    (s, t) ∈ sys.directXn ↔ SomeStep (sysProcs sys A) s t := by
  rw [mem_directXn, sysProcs_step]
  refine exists_congr fun g => and_congr_right fun hg => exists_congr fun p => and_congr_right fun hp => ?_
  have h1 : (g.1, p.pc) ∈ sys.net.pcs := mem_pcs.2 ⟨g, hg, p, hp, rfl⟩
  have hpok := hok.net.pcs _ h1
  have hval : ∀ w ∈ A g.1, List.Forall₂ (· < ·) w p.pc.spec.doms := by
    rw [hok.net.spec _ h1]; exact hA.valid g hg
  rw [hA.puppet g hg p hp, mem_mask hpok]
  constructor
  · rintro ⟨⟨w, hw, x, hx, hst⟩, -, hm⟩
    obtain ⟨y, hy, hiff⟩ := xnOfPc_spec hpok (hval w hw)
    rw [hx] at hy; cases hy
    exact ⟨w, hw, (hiff s t).1 hst, hm⟩
  · rintro ⟨w, hw, hst, hm⟩
    obtain ⟨y, hy, hiff⟩ := xnOfPc_spec hpok (hval w hw)
    exact ⟨⟨w, hw, y, hy, (hiff s t).2 hst⟩, hA.closed g hg p hp s, hm⟩

/-- **C103, the actions.** `actions` lists exactly the representatives of those of the given actions that
some process can take in some state. -/
theorem C103_actions (sys : ISys V dom) (hok : ISysOk sys) (A : PcComm → List (List ℕ))
    (hA : Uniform sys A) (pk : Picker V dom) (hpk : Picker.Ok pk) :
    ∃ l, sys.actions pk = some l ∧ ∀ a, a ∈ l ↔ ∃ g ∈ sys.groups, ∃ w ∈ A g.1,
      repActIdx sys.net.comms sys.n (actId g.1 w) = some a ∧
      ∃ p ∈ g.2, ∃ s t : VSt V dom, (actOf p.pc w).Enabled s ∧ (actOf p.pc w).Effect s t :=
  actions_uniform hok hA hpk

/-- The relation built from `actions`: the actions of all symmetric actions. -/
theorem actions_relation {sys : ISys V dom} (hok : ISysOk sys) {A : PcComm → List (List ℕ)}
    (hA : Uniform sys A) {pk : Picker V dom} (hpk : Picker.Ok pk)
    (hasg : ∀ g ∈ sys.groups, ∀ w ∈ A g.1, ∀ a, repActIdx sys.net.comms sys.n (actId g.1 w) = some a →
      SameAssign sys.net a) :
    ∃ R, ((sys.actions pk).bind fun l => (sys.net.stabXn l).map sys.net.xfmla) = some R ∧
      ∀ s t : VSt V dom, (s, t) ∈ R ↔ ∃ g ∈ sys.groups, ∃ p ∈ g.2, ∃ w ∈ A g.1, ∃ w',
        List.Forall₂ (· < ·) w' g.1.pc.doms ∧
        repActIdx sys.net.comms sys.n (actId g.1 w') = repActIdx sys.net.comms sys.n (actId g.1 w) ∧
        (∃ q ∈ g.2, ∃ u z : VSt V dom, (actOf q.pc w).Enabled u ∧ (actOf q.pc w).Effect u z) ∧
        ((actOf p.pc w').Enabled s ∧ (actOf p.pc w').Effect s t) ∧
        ∀ v, v ∉ mayChange sys.net p.pc → t v = s v := by
  obtain ⟨l, h1, h2⟩ := actions_uniform hok hA hpk
  have hlt : ∀ a ∈ l, a < sys.net.n := by
    intro a ha
    obtain ⟨g, hg, w, hw, h3, -⟩ := (h2 a).1 ha
    obtain ⟨h4, -⟩ := actId_facts hok hg (hA.valid g hg w hw)
    obtain ⟨act, r, -, -, h5, h6, -⟩ := hok.net.act h4
    have h3' : repActIdx sys.net.comms sys.net.n (actId g.1 w) = some a := h3
    rw [h3'] at h5; cases h5
    exact lt_of_le_of_lt h6 h4
  obtain ⟨x, h3, h4, h5⟩ := C102_stabilization_relation sys.net hok.net l hlt (by
    intro a ha
    obtain ⟨g, hg, w, hw, h3, -⟩ := (h2 a).1 ha
    exact hasg g hg w hw a h3)
  refine ⟨sys.net.xfmla x, by rw [h1, Option.bind_some, h3]; rfl, fun s t => ?_⟩
  rw [mem_xfmla_get _ h4]
  constructor
  · rintro ⟨i, p, X, hp, hX, hst, hm⟩
    obtain ⟨a, ha, α, hα, hen⟩ := (h5 i p X hp hX s t).1 hst
    obtain ⟨b, hb, act, e1, e2, rfl⟩ := mem_procFor.1 hα
    have hpm := List.mem_of_getElem? hp
    obtain ⟨g, hg, q, hq, rfl⟩ := mem_pcs.1 hpm
    obtain ⟨g', hg', w, hw, e3, q', hq', u, hu⟩ := (h2 a).1 ha
    -- both belong to the same symmetry
    obtain ⟨hbn, hbr⟩ := mem_repsOf.1 hb
    obtain ⟨act1, r1, f1, f1v, f2, -, -, act1', f3, f4⟩ := hok.net.act hbn
    rw [hbr] at f2; cases f2
    rw [e1] at f1; cases f1
    obtain ⟨hwn, act2, k1, k2, k3⟩ := actId_facts hok hg' (hA.valid g' hg' w hw)
    obtain ⟨act3, r3, m1, -, m2, -, -, act3', m3, m4⟩ := hok.net.act (b := actId g'.1 w) hwn
    rw [k1] at m1; cases m1
    have e3' : repActIdx sys.net.comms sys.net.n (actId g'.1 w) = some a := e3
    rw [e3'] at m2; cases m2
    rw [f3] at m3; cases m3
    have hgg : g'.1 = g.1 := by rw [← k2, ← m4, f4, e2]
    rw [e2] at f1v
    -- the number of the action
    have hbid : b = actId g.1 act.vals := by
      obtain ⟨l', npre, c1, -⟩ := hok.net.comm
      obtain ⟨c, hc, vals, hv, rfl⟩ := (C24_action_ids l' _ _ _ c1).2.2 b hbn
      obtain ⟨-, act5, o1, o2, o3⟩ := (C24_action_ids l' _ _ _ c1).2.1 c hc vals hv
      rw [e1] at o1; cases o1
      rw [← e2, ← o2, o3]
    obtain rfl := hok.distinct g' hg' g hg hgg
    refine ⟨g', hg', q, hq, w, hw, act.vals, f1v, ?_, ⟨q', hq', u, hu⟩, hen, (mem_mask (hok.net.pcs _ hpm)).1 hm⟩
    rw [← hbid, e3]
    exact hbr
  · rintro ⟨g, hg, p, hp, w, hw, w', hw', hr, hu, hen, hm⟩
    have hpm : (g.1, p.pc) ∈ sys.net.pcs := mem_pcs.2 ⟨g, hg, p, hp, rfl⟩
    obtain ⟨i, hi⟩ := List.mem_iff_getElem?.1 hpm
    have hil : i < x.length := by rw [h4]; exact (List.getElem?_eq_some_iff.1 hi).1
    refine ⟨i, _, x[i], hi, List.getElem?_eq_getElem hil, ?_, (mem_mask (hok.net.pcs _ hpm)).2 hm⟩
    rw [h5 i _ _ hi (List.getElem?_eq_getElem hil)]
    obtain ⟨hwn, act, k1, k2, k3⟩ := actId_facts hok hg hw'
    obtain ⟨act3, a, m1, -, m2, -⟩ := hok.net.act (b := actId g.1 w') hwn
    refine ⟨a, (h2 a).2 ⟨g, hg, w, hw, by rw [← hr]; exact m2, hu⟩, actOf p.pc w', ?_, hen⟩
    exact mem_procFor.2 ⟨_, mem_repsOf.2 ⟨hwn, m2⟩, act, k1, k2, by rw [k3]⟩

/-- **C103, the relation from the actions is not smaller.** Every step of the processes is in the relation
built from `actions`. -/
theorem C103_included (sys : ISys V dom) (hok : ISysOk sys) (A : PcComm → List (List ℕ))
    (hA : Uniform sys A) (pk : Picker V dom) (hpk : Picker.Ok pk) (hl : sys.light = false)
    (hasg : ∀ g ∈ sys.groups, ∀ w ∈ A g.1, ∀ a, repActIdx sys.net.comms sys.n (actId g.1 w) = some a →
      SameAssign sys.net a) :
    ∃ R, sys.checkedXn pk true = some R ∧ sys.checkedXn pk false = some sys.directXn ∧
      sys.directXn ⊆ R := by
  obtain ⟨R, h1, h2⟩ := actions_relation hok hA hpk hasg
  refine ⟨R, ?_, rfl, ?_⟩
  · unfold ISys.checkedXn
    rw [hl]
    exact h1
  · rintro ⟨s, t⟩ hst
    rw [C103_direct sys hok A hA, sysProcs_step] at hst
    obtain ⟨g, hg, p, hp, w, hw, hen, hm⟩ := hst
    exact (h2 s t).2 ⟨g, hg, p, hp, w, hw, w, hA.valid g hg w hw, rfl, ⟨p, hp, s, t, hen⟩, hen, hm⟩

/-- **C103 (partial).** If all processes of a symmetry have the transitions of the same actions, the set of these
actions contains with each action the symmetric ones, and symmetric actions assign the same values,
then `stabilization_ck` checks exactly the steps of the processes, whether or not information is asked
for and in both modes.  Without the first two conditions the full statement is false:
`C103_index_guard`, `C103_one_order`. -/
theorem C103_same_relation_partial (sys : ISys V dom) (hok : ISysOk sys) (A : PcComm → List (List ℕ))
    (hA : Uniform sys A) (pk : Picker V dom) (hpk : Picker.Ok pk) (info : Bool)
    (hasg : ∀ g ∈ sys.groups, ∀ w ∈ A g.1, ∀ a, repActIdx sys.net.comms sys.n (actId g.1 w) = some a →
      SameAssign sys.net a)
    (hsym : ∀ g ∈ sys.groups, ∀ w ∈ A g.1, ∀ w', List.Forall₂ (· < ·) w' g.1.pc.doms →
      repActIdx sys.net.comms sys.n (actId g.1 w') = repActIdx sys.net.comms sys.n (actId g.1 w) →
      w' ∈ A g.1) :
    ∃ R, sys.checkedXn pk info = some R ∧
      ∀ s t : VSt V dom, (s, t) ∈ R ↔ SomeStep (sysProcs sys A) s t := by
  by_cases hi : (!info || sys.light) = true
  · refine ⟨sys.directXn, ?_, C103_direct sys hok A hA⟩
    unfold ISys.checkedXn
    rw [if_pos hi]
  · obtain ⟨R, h1, h2⟩ := actions_relation hok hA hpk hasg
    refine ⟨R, ?_, fun s t => ?_⟩
    · unfold ISys.checkedXn
      rw [if_neg hi]
      exact h1
    · rw [h2, sysProcs_step]
      constructor
      · rintro ⟨g, hg, p, hp, w, hw, w', hw', hr, -, hen, hm⟩
        exact ⟨g, hg, p, hp, w', hsym g hg w hw w' hw' hr, hen, hm⟩
      · rintro ⟨g, hg, p, hp, w, hw, hen, hm⟩
        exact ⟨g, hg, p, hp, w, hw, w, hA.valid g hg w hw, rfl, ⟨p, hp, s, t, hen⟩, hen, hm⟩

/-! ### Examples and witnesses -/

/-- A process whose transitions are those of the actions `A`. -/
def withActs (pc : SPc V dom) (A : List (List ℕ)) : PcXn V dom :=
  ⟨pc, A.foldl (fun x w => x ∪ (xnOfPc pc w).getD ∅) ∅, Finset.univ⟩

theorem withActs_puppet {pc : SPc V dom} {A : List (List ℕ)} {e : VSt V dom × VSt V dom} :
    e ∈ (withActs pc A).puppet ↔ ∃ w ∈ A, ∃ x, xnOfPc pc w = some x ∧ e ∈ x := by
  unfold withActs
  rw [mem_foldl_sup]
  simp only [Finset.notMem_empty, false_or]
  refine exists_congr fun w => and_congr_right fun _ => ?_
  cases xnOfPc pc w <;> simp

/-- A system with one symmetry. -/
def oneGroup (spec : PcSymm) (n : ℕ) (light : Bool) (ps : List (List V × List (List ℕ))) : ISys V dom where
  groups := [(⟨spec, 0, 0⟩, ps.map fun p => withActs ⟨0, spec, p.1, ∅⟩ p.2)]
  n := n
  light := light

theorem oneGroup_ok {spec : PcSymm} {n npre : ℕ} {light : Bool} {ps : List (List V × List (List ℕ))}
    (hn : commitPcs 0 0 [spec] = ([⟨spec, 0, 0⟩], n, npre)) (hwf : LinksWf spec)
    (hpc : ∀ p ∈ ps, PcOk (⟨0, spec, p.1, ∅⟩ : SPc V dom)) (hkeep : NoKeep spec)
    (hnd : ∀ p ∈ ps, AliasOk (⟨0, spec, p.1, ∅⟩ : SPc V dom)) :
    ISysOk (oneGroup (dom := dom) spec n light ps) where
  net := by
    refine ⟨⟨[spec], npre, hn, ?_⟩, ?_, ?_⟩
    · intro pc h
      rw [List.mem_singleton] at h
      subst h
      exact hwf
    all_goals
      intro p hp
      obtain ⟨g, hg, q, hq, rfl⟩ := mem_pcs.1 hp
      simp only [oneGroup, List.mem_singleton] at hg
      subst hg
      obtain ⟨x, hx, rfl⟩ := List.mem_map.1 hq
    · rfl
    · exact hpc x hx
  distinct := by
    intro g hg g' hg' _
    simp only [oneGroup, List.mem_singleton] at hg hg'
    rw [hg, hg']
  keep := by
    intro g hg
    simp only [oneGroup, List.mem_singleton] at hg
    subst hg
    exact hkeep
  rep := by
    intro g hg
    simp only [oneGroup, List.mem_singleton] at hg
    subst hg
    right
    intro p hp
    obtain ⟨x, hx, rfl⟩ := List.mem_map.1 hp
    exact hnd x hx

theorem oneGroup_uniform {spec : PcSymm} {n : ℕ} {light : Bool} {ps : List (List V × List (List ℕ))}
    {A : List (List ℕ)} (hv : ∀ w ∈ A, List.Forall₂ (· < ·) w spec.doms) (hA : ∀ p ∈ ps, p.2 = A) :
    Uniform (oneGroup (dom := dom) spec n light ps) fun _ => A where
  valid := by
    intro g hg
    simp only [oneGroup, List.mem_singleton] at hg
    subst hg
    exact hv
  closed := by
    intro g hg p hp s
    simp only [oneGroup, List.mem_singleton] at hg
    subst hg
    obtain ⟨x, hx, rfl⟩ := List.mem_map.1 hp
    exact Finset.mem_univ _
  puppet := by
    intro g hg p hp e
    simp only [oneGroup, List.mem_singleton] at hg
    subst hg
    obtain ⟨x, hx, rfl⟩ := List.mem_map.1 hp
    rw [withActs_puppet, hA x hx]
    rfl

/-- Two processes in a ring; each reads the variable of the other one. -/
def duoSys (acts0 acts1 : List (List ℕ)) (light : Bool) : ISys (Fin 2) ringDom :=
  oneGroup hopSymm 8 light [([1, 0], acts0), ([0, 1], acts1)]

theorem duoSys_ok (acts0 acts1 : List (List ℕ)) (light : Bool) : ISysOk (duoSys acts0 acts1 light) := by
  refine oneGroup_ok (npre := 4) (by decide +kernel) (fun s hs => ?_) ?_
    (show ∀ acc ∈ hopSymm.access, acc.wdomsz ≠ acc.domsz + 1 by decide) ?_
  · exact absurd hs (List.not_mem_nil)
  · have key : ∀ x y : Fin 2, PcOk (⟨0, hopSymm, [x, y], ∅⟩ : SPc (Fin 2) ringDom) := by
      intro x y
      refine ⟨rfl, ?_, show ∀ a ∈ hopSymm.access, a.randomWriteCk = false by decide⟩
      intro r v a h1 h2
      have h3 : ∀ a ∈ hopSymm.access, a.domsz = 2 := by decide
      exact (h3 a (List.mem_of_getElem? h2)).symm
    intro p hp
    simp only [List.mem_cons, List.not_mem_nil, or_false] at hp
    rcases hp with rfl | rfl <;> exact key _ _
  · intro p hp
    simp only [List.mem_cons, List.not_mem_nil, or_false] at hp
    rcases hp with rfl | rfl
    · exact aliasOk_of_nodup (show ([1, 0] : List (Fin 2)).Nodup by decide)
    · exact aliasOk_of_nodup (show ([0, 1] : List (Fin 2)).Nodup by decide)

/-- Both processes copy a 1: the hypotheses hold, and there are steps. -/
example (light : Bool) :
    ISysOk (duoSys [[1, 0, 1]] [[1, 0, 1]] light) ∧
    Uniform (duoSys [[1, 0, 1]] [[1, 0, 1]] light) (fun _ => [[1, 0, 1]]) ∧
    (duoSys [[1, 0, 1]] [[1, 0, 1]] light).actions ringPick = some [5] ∧
    (∀ w', List.Forall₂ (· < ·) w' hopSymm.doms →
      repActIdx [⟨hopSymm, 0, 0⟩] 8 (actId ⟨hopSymm, 0, 0⟩ w') =
        repActIdx [⟨hopSymm, 0, 0⟩] 8 (actId ⟨hopSymm, 0, 0⟩ [1, 0, 1]) → w' = [1, 0, 1]) ∧
    SameAssign (duoSys [[1, 0, 1]] [[1, 0, 1]] light).net 5 := by
  refine ⟨duoSys_ok _ _ _, oneGroup_uniform ?_ ?_, by cases light <;> decide +kernel, ?_, ?_⟩
  · intro w hw
    rw [List.mem_singleton] at hw
    subst hw
    exact show List.Forall₂ (· < ·) [1, 0, 1] [2, 2, 2] by decide
  · intro p hp
    simp only [List.mem_cons, List.not_mem_nil, or_false] at hp
    rcases hp with rfl | rfl <;> rfl
  · intro w' hw' h
    have hw' : List.Forall₂ (· < ·) w' [2, 2, 2] := hw'
    obtain ⟨a, _, ha, h1, rfl⟩ := List.forall₂_cons_right_iff.1 hw'
    obtain ⟨b, _, hb, h2, rfl⟩ := List.forall₂_cons_right_iff.1 h1
    obtain ⟨c, _, hc, h3, rfl⟩ := List.forall₂_cons_right_iff.1 h2
    rw [List.forall₂_nil_right_iff] at h3
    subst h3
    have key : ∀ a < 2, ∀ b < 2, ∀ c < 2, repActIdx [⟨hopSymm, 0, 0⟩] 8 (actId ⟨hopSymm, 0, 0⟩ [a, b, c]) =
        repActIdx [⟨hopSymm, 0, 0⟩] 8 (actId ⟨hopSymm, 0, 0⟩ [1, 0, 1]) → [a, b, c] = [1, 0, 1] := by
      decide +kernel
    exact key a ha b hb c hc h
  · refine C102_read_only_links _ (duoSys_ok _ _ _).net 5 ⟨⟨hopSymm, 0, 0⟩, [1, 0, 1], 2, 1, 3⟩
      (by cases light <;> decide +kernel) (by decide)

/-- A ring of size one, where both accesses mean the same variable: there is no representative, the hypotheses
hold, and the action is found. -/
example (light : Bool) :
    ISysOk (oneGroup hopSymm 8 light [([0, 0], [[1, 1, 0]])] : ISys (Fin 2) ringDom) ∧
    Uniform (oneGroup hopSymm 8 light [([0, 0], [[1, 1, 0]])] : ISys (Fin 2) ringDom) (fun _ => [[1, 1, 0]]) ∧
    (oneGroup hopSymm 8 light [([0, 0], [[1, 1, 0]])] : ISys (Fin 2) ringDom).actions ringPick = some [6] := by
  have key : ∀ x y : Fin 2, PcOk (⟨0, hopSymm, [x, y], ∅⟩ : SPc (Fin 2) ringDom) := by
    intro x y
    refine ⟨rfl, ?_, show ∀ a ∈ hopSymm.access, a.randomWriteCk = false by decide⟩
    intro r v a h1 h2
    have h3 : ∀ a ∈ hopSymm.access, a.domsz = 2 := by decide
    exact (h3 a (List.mem_of_getElem? h2)).symm
  refine ⟨oneGroup_ok (npre := 4) (by decide +kernel) (fun s hs => absurd hs List.not_mem_nil) ?_
    (show ∀ acc ∈ hopSymm.access, acc.wdomsz ≠ acc.domsz + 1 by decide) ?_, oneGroup_uniform ?_ (by simp),
    by cases light <;> decide +kernel⟩
  · intro p hp
    rw [List.mem_singleton] at hp
    subst hp
    exact key 0 0
  · intro p _ r r' v a _ _ _ h
    have : ∀ a ∈ hopSymm.access, a.syntReadCk = true ∧ a.wdomsz ≠ a.domsz + 1 := by decide
    exact this a (List.mem_of_getElem? h)
  · intro w hw
    rw [List.mem_singleton] at hw
    subst hw
    exact show List.Forall₂ (· < ·) [1, 1, 0] [2, 2, 2] by decide

/-- The first variable is 1, the second 0. -/
def duoFrom : VSt (Fin 2) ringDom := fun i => if i = 0 then (1 : Fin 2) else (0 : Fin 2)

/-- Both variables are 1. -/
def duoTo : VSt (Fin 2) ringDom := fun _ => (1 : Fin 2)

/-- **C103, actions that depend on the process.** If only the second process has a transition, as with
the guard `i == 1 && ...` in a file, `actions` of the system is empty: asked for information,
`stabilization_ck` checks a relation without the transition that is in `direct_pfmla`. -/
theorem C103_index_guard :
    (duoSys [] [[1, 0, 1]] false).actions ringPick = some [] ∧
    (duoSys [] [[1, 0, 1]] false).checkedXn ringPick true = some ∅ ∧
    (duoFrom, duoTo) ∈
      (duoSys [] [[1, 0, 1]] false).directXn ∧
    (duoSys [] [[1, 0, 1]] false).checkedXn ringPick false = some (duoSys [] [[1, 0, 1]] false).directXn := by
  refine ⟨by decide +kernel, by decide +kernel, by decide +kernel, rfl⟩

/-- One process that reads two variables through symmetric links and writes a third. -/
def orderSys : ISys (Fin 3) fun _ => 2 := oneGroup spotSymm 16 false [([2, 1, 0], [[0, 1, 0, 1]])]

theorem orderSys_ok : ISysOk orderSys := by
  refine oneGroup_ok (npre := 8) (by decide +kernel) (linksWf_two rfl rfl rfl) ?_
    (show ∀ acc ∈ spotSymm.access, acc.wdomsz ≠ acc.domsz + 1 by decide) ?_
  · intro p hp
    rw [List.mem_singleton] at hp
    subst hp
    exact (spotNet_ok false).pcs (⟨spotSymm, 0, 0⟩, ⟨0, spotSymm, [2, 1, 0], ∅⟩) (by simp [spotNet])
  · intro p hp
    rw [List.mem_singleton] at hp
    subst hp
    exact aliasOk_of_nodup (show ([2, 1, 0] : List (Fin 3)).Nodup by decide)

/-- **C103, an action for one order of the links.** The process acts if its first neighbor is 0 and its second
is 1.  Asked for information, `stabilization_ck` also lets it act if the first is 1 and the second
is 0, which it does not otherwise. -/
theorem C103_one_order (pk : Picker (Fin 3) fun _ => 2) (hpk : Picker.Ok pk) :
    ∃ R, orderSys.checkedXn pk true = some R ∧ orderSys.checkedXn pk false = some orderSys.directXn ∧
      ((![0, 0, 1] : VSt (Fin 3) fun _ => 2), (![1, 0, 1] : VSt (Fin 3) fun _ => 2)) ∈ R ∧
      ((![0, 0, 1] : VSt (Fin 3) fun _ => 2), (![1, 0, 1] : VSt (Fin 3) fun _ => 2)) ∉ orderSys.directXn := by
  have hU : Uniform orderSys fun _ => [[0, 1, 0, 1]] := oneGroup_uniform (by
    intro w hw
    rw [List.mem_singleton] at hw
    subst hw
    exact show List.Forall₂ (· < ·) [0, 1, 0, 1] [2, 2, 2, 2] by decide) (by simp)
  obtain ⟨R, h1, h2⟩ := actions_relation orderSys_ok hU hpk (by
    intro g hg w hw a ha
    simp only [orderSys, oneGroup, List.mem_singleton] at hg
    subst hg
    rw [List.mem_singleton] at hw
    subst hw
    have h5 : repActIdx orderSys.net.comms orderSys.n (actId ⟨spotSymm, 0, 0⟩ [0, 1, 0, 1]) = some 5 := by
      decide +kernel
    rw [h5] at ha
    cases ha
    exact C102_read_only_links _ orderSys_ok.net 5 ⟨⟨spotSymm, 0, 0⟩, [0, 1, 0, 1], 2, 1, 3⟩
      (by decide +kernel) (by decide))
  refine ⟨R, h1, rfl, ?_, by decide +kernel⟩
  rw [h2]
  refine ⟨_, List.mem_singleton.2 rfl, _, List.mem_singleton.2 rfl, [0, 1, 0, 1], List.mem_singleton.2 rfl,
    [1, 0, 0, 1], show List.Forall₂ (· < ·) [1, 0, 0, 1] [2, 2, 2, 2] by decide, by decide +kernel,
    ⟨_, List.mem_singleton.2 rfl, ![0, 1, 0], ![1, 1, 0], ?_⟩, ?_, ?_⟩
  · refine ⟨⟨show ∀ g ∈ [((2 : Fin 3), 0), (1, 1), (0, 0)],
        ((![0, 1, 0] : Fin 3 → Fin 2) g.1).val = g.2 by decide,
      (0, some 1), show _ ∈ [((0 : Fin 3), some 1)] by decide, 1, rfl, by decide⟩, ?_⟩
    intro w hw
    have hw : w ∈ [((0 : Fin 3), some 1)] := hw
    rw [List.mem_singleton] at hw
    subst hw
    rfl
  · refine ⟨⟨show ∀ g ∈ [((2 : Fin 3), 1), (1, 0), (0, 0)],
        ((![0, 0, 1] : Fin 3 → Fin 2) g.1).val = g.2 by decide,
      (0, some 1), show _ ∈ [((0 : Fin 3), some 1)] by decide, 1, rfl, by decide⟩, ?_⟩
    intro w hw
    have hw : w ∈ [((0 : Fin 3), some 1)] := hw
    rw [List.mem_singleton] at hw
    subst hw
    rfl
  · intro v hv
    have hv : v ∉ [(0 : Fin 3)] := hv
    revert hv
    revert v
    decide

end Verif.Props
