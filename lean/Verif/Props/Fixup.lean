import Verif.Model.Fixup
import Mathlib.Logic.Relation

/-!
C119: what processes with random writes may do.
-/

set_option linter.unusedSectionVars false

namespace Verif.Props

open Verif.Model

variable {V : Type} [Fintype V] [DecidableEq V] {dom : V → ℕ}

/-- A process writes some variable randomly. -/
def FixRandom (pc : FixPc V dom) : Prop := ∃ r ∈ pc.spec.wmap, ∃ a, pc.spec.access[r]? = some a ∧ a.type = .randomWrite

/-- A process writes some puppet variable randomly. -/
def FixRandomPuppet (pc : FixPc V dom) : Prop :=
  ∃ r ∈ pc.spec.wmap, ∃ a, pc.spec.access[r]? = some a ∧ a.type = .randomWrite ∧ a.puppetCk = true

/-- A step that keeps the assumption, is not forbidden, and is permitted if any step is. -/
def OkStep (pc : FixPc V dom) (s t : VSt V dom) : Prop :=
  s ∈ pc.assume ∧ t ∈ pc.assume ∧ (s, t) ∉ pc.forbid ∧ ((∃ e, e ∈ pc.permit) → (s, t) ∈ pc.permit)

/-- A step changes only variables that the process writes, and random variables. -/
def OwnStep (rand : Finset V) (pc : FixPc V dom) (s t : VSt V dom) : Prop :=
  ∀ v, v ∉ pc.wvbls → v ∉ rand → t v = s v

theorem fix_probabilistic (pc : FixPc V dom) : pc.probabilistic = true ↔ FixRandom pc := by
  simp only [FixPc.probabilistic, List.any_eq_true, List.mem_range, PcSymm.wacc, PcSymm.acc, FixRandom]
  constructor
  · rintro ⟨i, hi, h⟩
    refine ⟨pc.spec.wmap.getD i 0, ?_, ?_⟩
    · have e : pc.spec.wmap.getD i 0 = pc.spec.wmap[i] := by simp [hi]
      rw [e]
      exact List.getElem_mem hi
    · cases ha : pc.spec.access[pc.spec.wmap.getD i 0]? with
      | none => rw [ha] at h; simp at h
      | some a => rw [ha] at h; exact ⟨a, rfl, by simpa [Access.randomWriteCk] using h⟩
  · rintro ⟨r, hr, a, ha, ht⟩
    obtain ⟨i, hi, rfl⟩ := List.getElem_of_mem hr
    refine ⟨i, hi, ?_⟩
    have e : pc.spec.wmap.getD i 0 = pc.spec.wmap[i] := by simp [hi]
    rw [e, ha]
    simp [Access.randomWriteCk, ht]

theorem mem_okayXn {rand : Finset V} {pc : FixPc V dom} {s t : VSt V dom} (h : OwnStep rand pc s t) :
    (s, t) ∈ pc.okayXn rand ↔ OkStep pc s t := by
  have e : (fun v => if v ∈ pc.wvbls.toFinset ∪ rand then t v else s v) = t := by
    funext v
    split_ifs with hv
    · rfl
    · simp only [Finset.mem_union, List.mem_toFinset, not_or] at hv
      exact (h v hv.1 hv.2).symm
  have hs : (s, t) ∈ substToImg (pc.wvbls.toFinset ∪ rand) pc.assume ↔ t ∈ pc.assume := by
    rw [substToImg, Finset.mem_filter]
    simp only [Finset.mem_univ, true_and]
    rw [e]
  simp only [FixPc.okayXn, OkStep]
  split_ifs with hp
  · have : ∃ e, e ∈ pc.permit := hp
    simp only [Finset.mem_inter, Finset.mem_sdiff, hs, Finset.mem_filter, Finset.mem_univ, true_and, this, forall_const]
    tauto
  · have : ¬∃ e, e ∈ pc.permit := hp
    simp only [Finset.mem_inter, Finset.mem_sdiff, hs, Finset.mem_filter, Finset.mem_univ, true_and, this,
      false_imp_iff, and_true]
    tauto

/-- **C119**, transitions: of a process with random writes exactly the steps remain that keep its assumption, are not
forbidden, and are permitted if any are; other processes and everything else are unchanged. -/
theorem C119_fixup (rand : Finset V) (pcs : List (FixPc V dom)) (k : ℕ) :
    (fixupPcXns rand pcs).length = pcs.length ∧ ∀ pc, pcs[k]? = some pc → ∃ xn,
      (fixupPcXns rand pcs)[k]? = some { pc with puppet := xn } ∧ (¬FixRandom pc → xn = pc.puppet) ∧
      ∀ s t, OwnStep rand pc s t → ((s, t) ∈ xn ↔ (s, t) ∈ pc.puppet ∧ (FixRandom pc → OkStep pc s t)) := by
  refine ⟨by simp [fixupPcXns], fun pc hk => ?_⟩
  by_cases hr : FixRandom pc
  · refine ⟨pc.puppet ∩ pc.okayXn rand, ?_, fun h => absurd hr h, fun s t h => ?_⟩
    · simp [fixupPcXns, hk, FixPc.fixup, (fix_probabilistic pc).2 hr]
    · rw [Finset.mem_inter, mem_okayXn h]
      simp [hr]
  · refine ⟨pc.puppet, ?_, fun _ => rfl, fun s t _ => by simp [hr]⟩
    have : ¬pc.probabilistic = true := fun h => hr ((fix_probabilistic pc).1 h)
    simp [fixupPcXns, hk, FixPc.fixup, this]

/-- **C119**, executions: in every execution of the remaining steps of a process with random writes that has a step,
the assumption holds from the first state to the last, and no step is forbidden. -/
theorem C119_runs {rand : Finset V} {pcs : List (FixPc V dom)} {k : ℕ} {pc pc' : FixPc V dom} (hk : pcs[k]? = some pc)
    (hk' : (fixupPcXns rand pcs)[k]? = some pc') (hr : FixRandom pc) {s t : VSt V dom}
    (h : Relation.TransGen (fun s t => OwnStep rand pc s t ∧ (s, t) ∈ pc'.puppet) s t) :
    s ∈ pc.assume ∧ t ∈ pc.assume ∧
      Relation.TransGen (fun s t => (s, t) ∈ pc.puppet ∧ (s, t) ∉ pc.forbid ∧ s ∈ pc.assume ∧ t ∈ pc.assume) s t := by
  obtain ⟨-, hf⟩ := C119_fixup rand pcs k
  obtain ⟨xn, h1, -, h2⟩ := hf pc hk
  obtain rfl : pc' = { pc with puppet := xn } := Option.some.inj (hk'.symm.trans h1)
  have step : ∀ s t, (OwnStep rand pc s t ∧ (s, t) ∈ xn) →
      (s, t) ∈ pc.puppet ∧ (s, t) ∉ pc.forbid ∧ s ∈ pc.assume ∧ t ∈ pc.assume := by
    rintro s t ⟨ho, hx⟩
    obtain ⟨hp, hok⟩ := (h2 s t ho).1 hx
    obtain ⟨a, b, c, -⟩ := hok hr
    exact ⟨hp, c, a, b⟩
  induction h with
  | single h => exact ⟨(step _ _ h).2.2.1, (step _ _ h).2.2.2, .single (step _ _ h)⟩
  | tail _ h ih => exact ⟨ih.1, (step _ _ h).2.2.2, ih.2.2.tail (step _ _ h)⟩

/-- **C119**, twice: to restrict the processes again changes nothing. -/
theorem C119_twice (rand : Finset V) (pcs : List (FixPc V dom)) :
    fixupPcXns rand (fixupPcXns rand pcs) = fixupPcXns rand pcs := by
  simp only [fixupPcXns, List.map_map]
  refine List.map_congr_left fun pc _ => ?_
  by_cases h : pc.probabilistic = true
  · have h' : ∀ x, FixPc.probabilistic { pc with puppet := x } = true := fun _ => h
    have ho : ∀ x, FixPc.okayXn rand { pc with puppet := x } = pc.okayXn rand := fun _ => rfl
    simp [FixPc.fixup, h, h', ho, Finset.inter_assoc]
  · simp [FixPc.fixup, h]

theorem foldl_read_inter (O : Finset (VSt V dom × VSt V dom)) : ∀ (rs : List (V × Access × ℕ)) (X : Finset (VSt V dom × VSt V dom)),
    rs.foldl (fun xn r => if r.2.1.syntReadonlyCk then xn ∩ Finset.univ.filter fun e => (e.1 r.1).val = r.2.2 else xn) (X ∩ O) =
    rs.foldl (fun xn r => if r.2.1.syntReadonlyCk then xn ∩ Finset.univ.filter fun e => (e.1 r.1).val = r.2.2 else xn) X ∩ O
  | [], _ => rfl
  | r :: rs, X => by
    simp only [List.foldl_cons]
    split_ifs
    · rw [Finset.inter_right_comm, foldl_read_inter O rs]
    · exact foldl_read_inter O rs X

theorem fix_mapM {α β : Type} {f : α → Option β} : ∀ {l : List α} {ys : List β}, l.mapM f = some ys →
    ∀ x ∈ l, ∃ y ∈ ys, f x = some y
  | [], _, _, x, hx => by simp at hx
  | a :: l, ys, h, x, hx => by
    simp only [List.mapM_cons, Option.bind_eq_bind, Option.bind_eq_some_iff, Option.pure_def, Option.some.injEq] at h
    obtain ⟨b, hb, bs, hbs, rfl⟩ := h
    rcases List.mem_cons.1 hx with rfl | hx
    · exact ⟨b, List.mem_cons_self, hb⟩
    · obtain ⟨y, hy, e⟩ := fix_mapM hbs x hx
      exact ⟨y, List.mem_cons_of_mem _ hy, e⟩

theorem wEnts_any {pc : SPc V dom} {vals : List ℕ} {ws : List (WEnt V)} (h : pc.wEnts vals = some ws) {r : ℕ} {a : Access}
    (hr : r ∈ pc.spec.wmap) (ha : pc.spec.access[r]? = some a) : ∃ w ∈ ws, w.acc = a := by
  obtain ⟨i, hi, rfl⟩ := List.getElem_of_mem hr
  obtain ⟨w, hw, e⟩ := fix_mapM h (pc.spec.wmap[i], i) (by simp [List.mk_mem_zipIdx_iff_getElem?])
  simp only [ha, Option.bind_eq_some_iff, Option.map_eq_some_iff, Option.some.injEq] at e
  obtain ⟨v, -, a', rfl, g, -, b, -, e⟩ := e
  exact ⟨w, hw, by rw [← e]⟩

/-- The process without the restriction. -/
def freeSPc (pc : FixPc V dom) : SPc V dom := ⟨pc.symm, pc.spec, pc.rvbls, Finset.univ⟩

/-- **C119**, actions: if some puppet variable is written randomly, the steps of an action of the process are exactly
those of the action without the restriction that keep the assumption, are not forbidden, and are permitted if any are.
The full statement is for processes that write any variable randomly; it is false (`C119_shadow_random`). -/
theorem C119_action_partial {rand : Finset V} {pc : FixPc V dom} (hr : FixRandomPuppet pc) (vals : List ℕ) :
    ((xnOfPc (pc.toSPc rand) vals).isSome ↔ (xnOfPc (freeSPc pc) vals).isSome) ∧
    ∀ xn xn0, xnOfPc (pc.toSPc rand) vals = some xn → xnOfPc (freeSPc pc) vals = some xn0 →
      ∀ s t, OwnStep rand pc s t → ((s, t) ∈ xn ↔ (s, t) ∈ xn0 ∧ OkStep pc s t) := by
  have hw : (freeSPc pc).wEnts vals = (pc.toSPc rand).wEnts vals := rfl
  have hrr : (freeSPc pc).rEnts vals = (pc.toSPc rand).rEnts vals := rfl
  simp only [xnOfPc, hw, hrr]
  cases h1 : (pc.toSPc rand).wEnts vals with
  | none => simp
  | some ws =>
    cases h2 : (pc.toSPc rand).rEnts vals with
    | none => simp
    | some rs =>
      obtain ⟨r, hr, a, ha, ht, hp⟩ := hr
      obtain ⟨w, hw, rfl⟩ := wEnts_any h1 hr ha
      have hany : (ws.any fun w => w.acc.syntReadCk && w.acc.randomWriteCk) = true := by
        rw [List.any_eq_true]
        exact ⟨w, hw, by simp [Access.syntReadCk, Access.randomWriteCk, Access.readCk, ht, hp]⟩
      by_cases hc : ∀ w ∈ ws, w.acc.randomWriteCk = false → w.assign = w.acc.domsz → w.acc.syntWriteonlyCk
      · simp only [hany, if_true, Bool.not_true, Bool.false_and, Bool.false_eq_true, if_false]
        rw [if_pos hc, if_pos hc]
        refine ⟨by simp, ?_⟩
        rintro _ _ ⟨rfl⟩ ⟨rfl⟩ s t ho
        rw [foldl_read_inter, foldl_read_inter, Finset.mem_inter, Finset.mem_inter]
        have := mem_okayXn ho
        simp only [FixPc.toSPc, freeSPc, this, Finset.mem_univ, and_true]
      · simp only [if_neg hc]
        simp

/-- One variable with two values that is written randomly; the assumption is that it is 1. -/
def fixEx (role : Role) (permit : Finset (VSt (Fin 1) (fun _ => 2) × VSt (Fin 1) (fun _ => 2))) :
    FixPc (Fin 1) (fun _ => 2) :=
  ⟨0, ⟨[⟨.randomWrite, role, 2⟩], []⟩, [0], {fun _ => 1}, ∅, permit, Finset.univ⟩

/-- **C119** fails for variables that are only shadows: `fixup_pc_xns` restricts the process (src/xnsys.cc:103), but
`xn_of_pc` does not (src/xnsys.cc:912-915), so an action has a step that leaves the assumption. -/
theorem C119_shadow_random : FixRandom (fixEx .shadow ∅) ∧ ∃ xn s t,
    xnOfPc ((fixEx .shadow ∅).toSPc ∅) [0, 0] = some xn ∧ OwnStep ∅ (fixEx .shadow ∅) s t ∧ (s, t) ∈ xn ∧
      s ∈ (fixEx .shadow ∅).assume ∧ t ∉ (fixEx .shadow ∅).assume ∧ ¬OkStep (fixEx .shadow ∅) s t := by
  refine ⟨⟨0, by decide, _, rfl, rfl⟩, _, fun _ => 1, fun _ => 0, rfl, ?_, by decide, by decide, by decide, ?_⟩
  · intro v hv
    exact absurd (by revert v; decide) hv
  · exact fun h => absurd h.2.1 (by decide)

/-- The puppet process keeps only the step from 1 to 1, and so does its action; with a permission that has only the
step from 0 to 1, nothing remains. -/
example : (((fixupPcXns ∅ [fixEx .puppet ∅])[0]?).map FixPc.puppet) = some {(fun _ => 1, fun _ => 1)} ∧
    xnOfPc ((fixEx .puppet ∅).toSPc ∅) [1, 0] = some {(fun _ => 1, fun _ => 1)} ∧
    (((fixupPcXns ∅ [fixEx .puppet {(fun _ => 0, fun _ => 1)}])[0]?).map FixPc.puppet) = some ∅ ∧
    FixRandomPuppet (fixEx .puppet ∅) :=
  ⟨by decide, by decide, by decide, 0, by decide, _, rfl, rfl, rfl⟩

/-- An execution as in `C119_runs`. -/
example : Relation.TransGen (fun s t => OwnStep ∅ (fixEx .puppet ∅) s t ∧
    (s, t) ∈ ((fixEx .puppet ∅).fixup ∅).puppet) (fun _ => 1) (fun _ => 1) :=
  .single ⟨fun _ _ _ => rfl, by decide⟩

end Verif.Props
