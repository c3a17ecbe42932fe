import Verif.Proofs.Sync

/-! Property C16: synchronous and semi-synchronous transition relations. -/

set_option linter.unusedSectionVars false

namespace Verif.Props
open Verif.Model Verif.Proofs Verif.Spec

variable {V : Type} [Fintype V] [DecidableEq V] {dom : V → ℕ}

/-- The actions of a process: those of its symmetry among the actions represented by `acts`. -/
def procActs (net : SNet V dom) (acts : List ℕ) (pc : SPc V dom) : List (LocalAct V) :=
  (acts.flatMap net.represented).filterMap fun a =>
    match net.action a with
    | some (k, vals) => if k = pc.symm then some (actOf pc vals) else none
    | none => none

/-- The processes as guarded commands. -/
def procsOf (net : SNet V dom) (acts : List ℕ) : List (LocalProc V) :=
  net.pcs.map fun pc => ⟨writtenOf pc, procActs net acts pc⟩

/-- A system as the parser builds it, without random variables: processes have one variable per access
with its domain, `identity_xn` is the identity, actions have values in the domains of their
process symmetry. -/
structure SNetOk (net : SNet V dom) (acts : List ℕ) : Prop where
  pcs : ∀ pc ∈ net.pcs, PcOk pc
  ident : ∀ s t, (s, t) ∈ net.ident ↔ s = t
  acts : ∀ a ∈ acts.flatMap net.represented, ∃ k vals, net.action a = some (k, vals) ∧
    ∀ pc ∈ net.pcs, pc.symm = k → List.Forall₂ (· < ·) vals pc.spec.doms

theorem mem_procActs {net : SNet V dom} {acts : List ℕ} {pc : SPc V dom} {x : LocalAct V} :
    x ∈ procActs net acts pc ↔ ∃ a ∈ acts.flatMap net.represented, ∃ vals,
      net.action a = some (pc.symm, vals) ∧ x = actOf pc vals := by
  unfold procActs
  rw [List.mem_filterMap]
  constructor
  · rintro ⟨a, ha, h⟩
    refine ⟨a, ha, ?_⟩
    split at h
    · rename_i k vals hk
      split at h
      · rename_i hks
        subst hks
        simp only [Option.some.injEq] at h
        exact ⟨vals, hk, h.symm⟩
      · simp at h
    · simp at h
  · rintro ⟨a, ha, vals, hk, rfl⟩
    exact ⟨a, ha, by simp [hk]⟩

/-- Actions of well-formed processes write exactly the variables of the process, with values in
the domains. -/
theorem procActs_facts {net : SNet V dom} {acts : List ℕ} (hok : SNetOk net acts) {pc : SPc V dom}
    (hpc : pc ∈ net.pcs) {x : LocalAct V} (hx : x ∈ procActs net acts pc) :
    x.writes.map Prod.fst = writtenOf pc ∧ ∀ v y, (v, some y) ∈ x.writes → y < dom v := by
  obtain ⟨a, ha, vals, hk, rfl⟩ := mem_procActs.1 hx
  obtain ⟨k, vals', h1, h2⟩ := hok.acts a ha
  rw [hk] at h1
  cases h1
  have hv := h2 pc hpc rfl
  exact ⟨actOf_writes_fst (hok.pcs pc hpc) hv, fun v y h => actOf_write_lt (hok.pcs pc hpc) hv h⟩

/-- **C16.** If no variable is written by two processes, `sync_xn` succeeds and denotes exactly the
steps in which one or more processes each perform one of their enabled actions at once and the
others keep their variables; fully synchronous steps move every enabled process. -/
theorem C16_sync (net : SNet V dom) (acts : List ℕ) (full : Bool) (hok : SNetOk net acts)
    (hdis : (net.pcs.flatMap writtenOf).Nodup) :
    ∃ R, syncXn net acts full = some R ∧
      ∀ s t, (s, t) ∈ R ↔ SyncStep full (procsOf net acts) s t := by
  have hall : ∀ a, a ∈ arr (acts.flatMap net.represented).toFinset ↔
      a ∈ acts.flatMap net.represented := by
    intro a; rw [mem_arr, List.mem_toFinset]
  have hX : ∀ pc ∈ net.pcs, ∃ x, pcXn net pc (arr (acts.flatMap net.represented).toFinset) ∅ = some x ∧
      ∀ s t, (s, t) ∈ x ↔ ∃ a ∈ procActs net acts pc, a.Enabled s ∧ a.Effect s t := by
    intro pc hpc
    obtain ⟨x, h1, h2⟩ := pcXn_spec (net := net) (hok.pcs pc hpc)
      (arr (acts.flatMap net.represented).toFinset) ∅ (by
        intro a ha
        obtain ⟨k, vals, h1, h2⟩ := hok.acts a ((hall a).1 ha)
        exact ⟨k, vals, h1, h2 pc hpc⟩)
    refine ⟨x, h1, fun s t => ?_⟩
    rw [h2]
    simp only [Finset.notMem_empty, false_or]
    constructor
    · rintro ⟨a, ha, vals, hk, h⟩
      exact ⟨_, mem_procActs.2 ⟨a, (hall a).1 ha, vals, hk, rfl⟩, h⟩
    · rintro ⟨x, hx, h⟩
      obtain ⟨a, ha, vals, hk, rfl⟩ := mem_procActs.1 hx
      exact ⟨a, (hall a).2 ha, vals, hk, h⟩
  -- the transitions of the processes
  let X : SPc V dom → Finset (VSt V dom × VSt V dom) := fun pc =>
    (pcXn net pc (arr (acts.flatMap net.represented).toFinset) ∅).getD ∅
  have hX1 : ∀ pc ∈ net.pcs, pcXn net pc (arr (acts.flatMap net.represented).toFinset) ∅ = some (X pc) := by
    intro pc hpc
    obtain ⟨x, h1, -⟩ := hX pc hpc
    simp only [X, h1, Option.getD_some]
  have hX2 : ∀ pc ∈ net.pcs, ∀ s t, (s, t) ∈ X pc ↔
      ∃ a ∈ procActs net acts pc, a.Enabled s ∧ a.Effect s t := by
    intro pc hpc
    obtain ⟨x, h1, h2⟩ := hX pc hpc
    have : X pc = x := by simp only [X, h1, Option.getD_some]
    rw [this]
    exact h2
  have hwv : ∀ pc ∈ net.pcs, pc.wvbls = writtenOf pc := fun pc hpc => wvbls_eq (hok.pcs pc hpc).len
  have hwv' : net.pcs.flatMap SPc.wvbls = net.pcs.flatMap writtenOf := by
    rw [List.flatMap_def, List.flatMap_def, List.map_congr_left hwv]
  obtain ⟨w', xn', h1, h2, h3⟩ := syncLoop_spec (net := net) (full := full) X net.pcs ∅ Finset.univ hX1
    (by rw [hwv']; exact hdis) (by simp)
  -- a process is disabled iff it has no transition
  have hpre : ∀ pc ∈ net.pcs, ∀ s, (∀ t', (s, t') ∉ X pc) ↔
      ∀ a ∈ procActs net acts pc, ¬ a.Enabled s := by
    intro pc hpc s
    constructor
    · intro h a ha hen
      obtain ⟨f1, f2⟩ := procActs_facts hok hpc ha
      have hnd : (writtenOf pc).Nodup := (List.nodup_flatMap.1 hdis).1 pc hpc
      obtain ⟨t, ht, -⟩ := writes_exist s a.writes (by rw [f1]; exact hnd) f2
      exact h t ((hX2 pc hpc s t).2 ⟨a, ha, hen, ht⟩)
    · intro h t' ht'
      obtain ⟨a, ha, hen, -⟩ := (hX2 pc hpc s t').1 ht'
      exact h a ha hen
  unfold syncXn
  simp only [h1]
  refine ⟨_, rfl, fun s t => ?_⟩
  rw [Finset.mem_sdiff, Finset.mem_filter, h3, hok.ident]
  simp only [Finset.mem_univ, true_and, mem_pcPart]
  have hunw : (∀ v, v ∉ w' → t v = s v) ↔
      ∀ v, (∀ p ∈ procsOf net acts, v ∉ p.vbls) → t v = s v := by
    apply forall_congr'
    intro v
    apply imp_congr_left
    rw [h2]
    simp only [Finset.notMem_empty, false_or, not_exists, not_and, procsOf, List.forall_mem_map]
    exact forall₂_congr fun pc hpc => by rw [hwv pc hpc]
  constructor
  · rintro ⟨⟨hp, hu⟩, hne⟩
    classical
    refine ⟨fun i => match net.pcs[i]? with
      | some pc => if h : ∃ a ∈ procActs net acts pc, a.Enabled s ∧ a.Effect s t then some h.choose else none
      | none => none, ?_, hunw.1 hu, ?_⟩
    · intro i p hi
      simp only [procsOf, List.getElem?_map, Option.map_eq_some_iff] at hi
      obtain ⟨pc, hi, rfl⟩ := hi
      have hpc := List.mem_of_getElem? hi
      simp only [hi]
      by_cases h : ∃ a ∈ procActs net acts pc, a.Enabled s ∧ a.Effect s t
      · simp only [dif_pos h]
        exact h.choose_spec
      · simp only [dif_neg h]
        rcases hp pc hpc with h' | ⟨h', h''⟩
        · exact absurd ((hX2 pc hpc s t).1 h') h
        · rw [hwv pc hpc] at h'
          exact ⟨h', fun hf => (hpre pc hpc s).1 (h'' hf)⟩
    · obtain ⟨v, hv⟩ : ∃ v, s v ≠ t v := by
        by_contra hc
        push Not at hc
        exact hne (funext hc)
      have hvw : v ∈ w' := by
        by_contra hc
        exact hv (hu v hc).symm
      obtain ⟨pc, hpc, hvp⟩ := ((h2 v).1 hvw).resolve_left (by simp)
      obtain ⟨i, hi⟩ := List.mem_iff_getElem?.1 hpc
      refine ⟨i, ?_, ?_⟩
      · simp only [procsOf, List.length_map]
        exact (List.getElem?_eq_some_iff.1 hi).1
      · simp only [hi]
        rcases hp pc hpc with h' | ⟨h', -⟩
        · rw [dif_pos ((hX2 pc hpc s t).1 h')]
          rfl
        · exact absurd (h' v hvp).symm hv
  · rintro ⟨sel, hs, hu, i, hi, hsi⟩
    refine ⟨⟨?_, hunw.2 hu⟩, ?_⟩
    · intro pc hpc
      obtain ⟨j, hj⟩ := List.mem_iff_getElem?.1 hpc
      have := hs j ⟨writtenOf pc, procActs net acts pc⟩ (by simp [procsOf, hj])
      cases hsel : sel j with
      | none =>
        rw [hsel] at this
        right
        rw [hwv pc hpc]
        exact ⟨this.1, fun hf => (hpre pc hpc s).2 (this.2 hf)⟩
      | some a =>
        rw [hsel] at this
        left
        exact (hX2 pc hpc s t).2 ⟨a, this⟩
    · rintro rfl
      obtain ⟨a, ha⟩ := Option.isSome_iff_exists.1 hsi
      have := hs i _ (List.getElem?_eq_getElem hi)
      rw [ha] at this
      obtain ⟨-, ⟨-, w, hw, x, hx, hne⟩, heff⟩ := this
      have := heff w hw
      rw [hx] at this
      exact hne this

/-- **C16, rejection.** If a variable is written twice, `sync_xn` stops with an error. -/
theorem C16_rejects (net : SNet V dom) (acts : List ℕ) (full : Bool)
    (hlen : ∀ pc ∈ net.pcs, pc.rvbls.length = pc.spec.access.length)
    (hdis : ¬ (net.pcs.flatMap writtenOf).Nodup) : syncXn net acts full = none := by
  have hwv' : net.pcs.flatMap SPc.wvbls = net.pcs.flatMap writtenOf := by
    rw [List.flatMap_def, List.flatMap_def, List.map_congr_left fun pc hpc => wvbls_eq (hlen pc hpc)]
  unfold syncXn
  simp only
  rw [syncLoop_fail]
  rintro ⟨h, -⟩
  rw [hwv'] at h
  exact hdis h

/-- **C16, every choice is possible.** For any choice of enabled actions by one or more processes
(by all enabled ones if fully synchronous) there is exactly one transition that performs it. -/
theorem C16_every_choice (net : SNet V dom) (acts : List ℕ) (full : Bool) (hok : SNetOk net acts)
    (hdis : (net.pcs.flatMap writtenOf).Nodup) (s : VState V dom) (sel : ℕ → Option (LocalAct V))
    (hsel : ∀ (i : ℕ) (p : LocalProc V), (procsOf net acts)[i]? = some p → match sel i with
      | some a => a ∈ p.acts ∧ a.Enabled s
      | none => full = true → ∀ a ∈ p.acts, ¬ a.Enabled s)
    (hsome : ∃ i < (procsOf net acts).length, (sel i).isSome) :
    ∃ R, syncXn net acts full = some R ∧ ∃! t, (s, t) ∈ R ∧
      ∀ (i : ℕ) (p : LocalProc V), (procsOf net acts)[i]? = some p → match sel i with
        | some a => a.Effect s t
        | none => ∀ v ∈ p.vbls, t v = s v := by
  obtain ⟨R, hR, hmem⟩ := C16_sync net acts full hok hdis
  refine ⟨R, hR, ?_⟩
  -- all the writes of the step
  let W1 : LocalProc V × ℕ → List (V × Option ℕ) := fun e => match sel e.2 with
    | some a => a.writes
    | none => e.1.vbls.map fun v => (v, none)
  let W : List (V × Option ℕ) := (procsOf net acts).zipIdx.flatMap W1
  have hget : ∀ e ∈ (procsOf net acts).zipIdx, (procsOf net acts)[e.2]? = some e.1 := by
    rintro ⟨p, i⟩ he
    exact List.mk_mem_zipIdx_iff_getElem?.1 he
  have hproc : ∀ (i : ℕ) (p : LocalProc V), (procsOf net acts)[i]? = some p →
      ∃ pc ∈ net.pcs, p = ⟨writtenOf pc, procActs net acts pc⟩ := by
    intro i p hi
    simp only [procsOf, List.getElem?_map, Option.map_eq_some_iff] at hi
    obtain ⟨pc, hi, rfl⟩ := hi
    exact ⟨pc, List.mem_of_getElem? hi, rfl⟩
  have hW1 : ∀ e ∈ (procsOf net acts).zipIdx, (W1 e).map Prod.fst = e.1.vbls ∧
      ∀ v x, (v, some x) ∈ W1 e → x < dom v := by
    rintro ⟨p, i⟩ he
    obtain ⟨pc, hpc, rfl⟩ := hproc i p (hget _ he)
    have h := hsel i _ (hget _ he)
    simp only [W1]
    cases hs : sel i with
    | none =>
      refine ⟨?_, by simp⟩
      rw [List.map_map]
      exact List.map_id _
    | some a =>
      rw [hs] at h
      exact procActs_facts hok hpc h.1
  have hWf : W.map Prod.fst = (procsOf net acts).flatMap LocalProc.vbls := by
    simp only [W, List.map_flatMap]
    rw [List.flatMap_def, List.map_congr_left (fun e he => (hW1 e he).1)]
    rw [show (fun e : LocalProc V × ℕ => e.1.vbls) = LocalProc.vbls ∘ Prod.fst from rfl, ← List.map_map,
      List.zipIdx_map_fst, List.flatMap_def]
  have hvb : (procsOf net acts).flatMap LocalProc.vbls = net.pcs.flatMap writtenOf := by
    simp only [procsOf, List.flatMap_def, List.map_map]
    rfl
  obtain ⟨t, ht1, ht2⟩ := writes_exist s W (by rw [hWf, hvb]; exact hdis) (by
    intro v x h
    obtain ⟨e, he, h⟩ := List.mem_flatMap.1 h
    exact (hW1 e he).2 v x h)
  have hdo : ∀ (i : ℕ) (p : LocalProc V), (procsOf net acts)[i]? = some p → match sel i with
        | some a => a.Effect s t
        | none => ∀ v ∈ p.vbls, t v = s v := by
    intro i p hi
    have hm : ∀ w ∈ W1 (p, i), w ∈ W := fun w hw =>
      List.mem_flatMap.2 ⟨(p, i), List.mk_mem_zipIdx_iff_getElem?.2 hi, hw⟩
    simp only [W1] at hm
    cases hs : sel i with
    | none =>
      rw [hs] at hm
      intro v hv
      exact ht1 (v, none) (hm _ (List.mem_map.2 ⟨v, hv, rfl⟩))
    | some a =>
      rw [hs] at hm
      intro w hw
      exact ht1 w (hm w hw)
  have hunw : ∀ v, (∀ p ∈ procsOf net acts, v ∉ p.vbls) → t v = s v := by
    intro v hv
    apply ht2
    rw [hWf, List.mem_flatMap]
    rintro ⟨p, hp, hvp⟩
    exact hv p hp hvp
  refine ⟨t, ⟨(hmem s t).2 ⟨sel, ?_, hunw, hsome⟩, hdo⟩, ?_⟩
  · intro i p hi
    have h1 := hsel i p hi
    have h2 := hdo i p hi
    cases hs : sel i with
    | none => rw [hs] at h1 h2; exact ⟨h2, h1⟩
    | some a => rw [hs] at h1 h2; exact ⟨h1.1, h1.2, h2⟩
  · rintro t' ⟨hr, hdo'⟩
    obtain ⟨-, -, hu', -⟩ := (hmem s t').1 hr
    funext v
    by_cases hv : ∀ p ∈ procsOf net acts, v ∉ p.vbls
    · rw [hu' v hv, hunw v hv]
    · push Not at hv
      obtain ⟨p, hp, hvp⟩ := hv
      obtain ⟨i, hi⟩ := List.mem_iff_getElem?.1 hp
      have h2 := hdo i p hi
      have h2' := hdo' i p hi
      have h1 := hsel i p hi
      cases hs : sel i with
      | none =>
        rw [hs] at h2 h2'
        rw [h2 v hvp, h2' v hvp]
      | some a =>
        rw [hs] at h1 h2 h2'
        obtain ⟨pc, hpc, rfl⟩ := hproc i p hi
        have hf := (procActs_facts hok hpc h1.1).1
        have hva : v ∈ a.writes.map Prod.fst := by rw [hf]; exact hvp
        obtain ⟨⟨v', o⟩, hw, rfl⟩ := List.mem_map.1 hva
        have e1 := h2 _ hw
        have e2 := h2' _ hw
        cases o with
        | none => simp only at e1 e2 ⊢; rw [e1, e2]
        | some x => simp only at e1 e2 ⊢; exact Fin.ext (by rw [e1, e2])

/-- **C16, deadlocks.** The (semi-)synchronous relation has a transition from a state iff some process
has an enabled action there. -/
theorem C16_progress (net : SNet V dom) (acts : List ℕ) (full : Bool) (hok : SNetOk net acts)
    (hdis : (net.pcs.flatMap writtenOf).Nodup) :
    ∃ R, syncXn net acts full = some R ∧ ∀ s : VState V dom,
      (∃ t, (s, t) ∈ R) ↔ ∃ p ∈ procsOf net acts, ∃ a ∈ p.acts, a.Enabled s := by
  obtain ⟨R, hR, hmem⟩ := C16_sync net acts full hok hdis
  refine ⟨R, hR, fun s => ?_⟩
  constructor
  · rintro ⟨t, ht⟩
    obtain ⟨sel, h1, -, i, hi, h2⟩ := (hmem s t).1 ht
    obtain ⟨a, ha⟩ := Option.isSome_iff_exists.1 h2
    have := h1 i _ (List.getElem?_eq_getElem hi)
    rw [ha] at this
    exact ⟨_, List.getElem_mem hi, a, this.1, this.2.1⟩
  · rintro ⟨p, hp, a, ha, hen⟩
    classical
    obtain ⟨i, hi, rfl⟩ := List.mem_iff_getElem.1 hp
    obtain ⟨R', hR', t, ⟨ht, -⟩, -⟩ := C16_every_choice net acts full hok hdis s
      (fun j => match (procsOf net acts)[j]? with
        | some p => if h : ∃ a ∈ p.acts, a.Enabled s then some h.choose else none
        | none => none) (by
        intro j p hj
        simp only [hj]
        by_cases h : ∃ a ∈ p.acts, a.Enabled s
        · simp only [dif_pos h]; exact h.choose_spec
        · simp only [dif_neg h]
          intro _ a ha hen
          exact h ⟨a, ha, hen⟩) ⟨i, hi, by
        simp only [List.getElem?_eq_getElem hi]
        rw [dif_pos ⟨a, ha, hen⟩]; rfl⟩
    rw [hR] at hR'
    cases hR'
    exact ⟨t, ht⟩

/-! ### A concrete case

Two processes with one Boolean variable each, `x[i]`, on a ring of two: process `i` reads the other's
variable and writes its own.  The only action copies a 1 from the neighbour. -/

/-- Reads `x[i-1]` and writes `x[i]`. -/
def exCopy : PcSymm := ⟨[⟨.read, .direct, 2⟩, ⟨.write, .direct, 2⟩], []⟩

def exSyncNet : SNet (Fin 2) (fun _ => 2) where
  pcs := [⟨0, exCopy, [1, 0], ∅⟩, ⟨0, exCopy, [0, 1], ∅⟩]
  action := fun a => if a = 0 then some (0, [1, 0, 1]) else some (0, [0, 1, 0])
  represented := fun a => [a]
  ident := Finset.univ.filter fun e => e.1 = e.2

theorem exSyncOk : SNetOk exSyncNet [0, 1] where
  pcs := by
    intro pc hpc
    simp only [exSyncNet, List.mem_cons, List.not_mem_nil, or_false] at hpc
    rcases hpc with rfl | rfl <;> refine ⟨rfl, ?_, by decide⟩ <;> intro r v a _ h <;>
      (have := List.mem_of_getElem? h; simp [exCopy] at this; rcases this with rfl | rfl <;> rfl)
  ident := by simp [exSyncNet]
  acts := by
    intro a ha
    have ha : a = 0 ∨ a = 1 := by simpa [exSyncNet] using ha
    have hd : exCopy.doms = [2, 2, 2] := by decide
    have hpc : ∀ pc ∈ exSyncNet.pcs, pc.spec = exCopy := by simp [exSyncNet]
    rcases ha with rfl | rfl
    · refine ⟨0, [1, 0, 1], rfl, fun pc hp _ => ?_⟩
      rw [hpc pc hp, hd]; simp
    · refine ⟨0, [0, 1, 0], rfl, fun pc hp _ => ?_⟩
      rw [hpc pc hp, hd]; simp

theorem exSyncDisj : (exSyncNet.pcs.flatMap writtenOf).Nodup := by decide

/-- Fully synchronous: both processes swap their values for ever. -/
example : ∃ R, syncXn exSyncNet [0, 1] true = some R ∧
    ∀ s t, (s, t) ∈ R ↔ SyncStep true (procsOf exSyncNet [0, 1]) s t :=
  C16_sync _ _ _ exSyncOk exSyncDisj

example : (syncXn exSyncNet [0, 1] true).map (fun R => R.image fun e => ((e.1 0, e.1 1), (e.2 0, e.2 1))) =
    some {((0, 1), (1, 0)), ((1, 0), (0, 1))} := by decide +kernel

/-- Semi-synchronous: one of them alone may move, too. -/
example : (syncXn exSyncNet [0, 1] false).map (fun R => R.image fun e => ((e.1 0, e.1 1), (e.2 0, e.2 1))) =
    some {((0, 1), (1, 0)), ((1, 0), (0, 1)), ((0, 1), (1, 1)), ((0, 1), (0, 0)),
      ((1, 0), (1, 1)), ((1, 0), (0, 0))} := by decide +kernel

/-- Two writers of one variable are rejected. -/
example : syncXn { exSyncNet with pcs := [⟨0, exCopy, [1, 0], ∅⟩, ⟨0, exCopy, [1, 0], ∅⟩] } [0] true = none :=
  C16_rejects _ _ _ (by simp [exCopy]) (by decide)

end Verif.Props
