import Verif.Spec.Udp
import Mathlib.Data.List.Nodup
import Mathlib.Tactic.Push
import Mathlib.Tactic.NormNum
import Mathlib.Tactic.SplitIfs

/-!
What one round of the main loop of the UDP implementation does to a process.
-/

set_option linter.unusedSectionVars false

namespace Verif.Proofs
open Verif.Model Verif.Spec

variable {P C S PV : Type} [DecidableEq C] [DecidableEq S] [DecidableEq P] [DecidableEq PV]

theorem cmdSeq_same (c : C) (st : UState C S) :
    ∃ s, (cmdSeq c st).chans c = { st.chans c with
      seq := s, ack := false, reply := true, log := s :: (st.chans c).log } :=
  ⟨⟨((st.chans c).seq.idx + 1) % 65536, st.tape 0 % 65536⟩, by simp only [cmdSeq, Function.update_self]⟩

theorem cmdSeq_ne {c d : C} (h : d ≠ c) (st : UState C S) : (cmdSeq c st).chans d = st.chans d := by
  simp only [cmdSeq]; rw [Function.update_of_ne h]

theorem seqAll_spec (l : List C) (st : UState C S) :
    (cmdSeqAll l st).enabled = st.enabled ∧ (cmdSeqAll l st).vals = st.vals ∧
    ∀ c, ((cmdSeqAll l st).chans c).adj = (st.chans c).adj ∧
      (c ∉ l → (cmdSeqAll l st).chans c = st.chans c) ∧
      (c ∈ l → ((cmdSeqAll l st).chans c).ack = false ∧ ∃ l', ((cmdSeqAll l st).chans c).log =
        ((cmdSeqAll l st).chans c).seq :: l' ++ (st.chans c).log) := by
  induction l generalizing st with
  | nil => exact ⟨rfl, rfl, fun c => ⟨rfl, fun _ => rfl, fun h => absurd h (by simp)⟩⟩
  | cons a l ih =>
    have e : cmdSeqAll (a :: l) st = cmdSeqAll l (cmdSeq a st) := rfl
    rw [e]
    obtain ⟨h1, h2, h3⟩ := ih (cmdSeq a st)
    refine ⟨h1, h2, fun c => ?_⟩
    obtain ⟨k1, k2, k3⟩ := h3 c
    obtain ⟨s, hs⟩ := cmdSeq_same a st
    by_cases hc : c = a
    · subst hc
      refine ⟨by rw [k1, hs], fun h => absurd (List.mem_cons_self) h, fun _ => ?_⟩
      by_cases hl : c ∈ l
      · obtain ⟨m1, l', m2⟩ := k3 hl
        exact ⟨m1, l' ++ [s], by rw [m2, hs]; simp⟩
      · rw [k2 hl, hs]
        exact ⟨rfl, [], by simp⟩
    · have hn := cmdSeq_ne hc st
      refine ⟨by rw [k1, hn], fun h => ?_, fun h => ?_⟩
      · rw [k2 (fun h' => h (List.mem_cons_of_mem _ h')), hn]
      · have hl : c ∈ l := by
          rcases List.mem_cons.1 h with h | h
          · exact absurd h hc
          · exact h
        obtain ⟨m1, l', m2⟩ := k3 hl
        exact ⟨m1, l', by rw [m2, hn]⟩

/-- The state `st` compared with the state `st0` at the start of the handler: `gain` are the channels on which
an acknowledgement may be new. -/
structure Mid (pr : UProto C S PV) (gain : C → Prop) (st0 st : UState C S) : Prop where
  ext : ∀ c ∈ pr.chs, ∃ l, (st.chans c).log = l ++ (st0.chans c).log
  head : ∀ c ∈ pr.chs, (st.chans c).log.head? = some (st.chans c).seq
  keep : st.enabled ≠ 0 → ∀ c ∈ pr.chs, (st.chans c).log = (st0.chans c).log →
    st.enabled = st0.enabled ∧ ((st.chans c).ack = true → (st0.chans c).ack = true ∨ gain c)
  fresh : st.enabled ≠ 0 → ∀ c ∈ pr.chs, (st.chans c).log ≠ (st0.chans c).log → (st.chans c).ack = false

theorem Mid.refl (pr : UProto C S PV) (gain : C → Prop) (st : UState C S)
    (h : ∀ c ∈ pr.chs, (st.chans c).log.head? = some (st.chans c).seq) : Mid pr gain st st :=
  ⟨fun _ _ => ⟨[], rfl⟩, h, fun _ _ _ _ => ⟨rfl, Or.inl⟩, fun _ _ _ h => absurd rfl h⟩

/-- Fields that only differ in what does not matter. -/
structure SameCore (st st' : UState C S) : Prop where
  en : st'.enabled = st.enabled
  vals : st'.vals = st.vals
  seq : ∀ c, (st'.chans c).seq = (st.chans c).seq
  adj : ∀ c, (st'.chans c).adj = (st.chans c).adj
  log : ∀ c, (st'.chans c).log = (st.chans c).log
  ack : st.enabled ≠ 0 → ∀ c, (st'.chans c).ack = (st.chans c).ack

theorem SameCore.refl (st : UState C S) : SameCore st st :=
  ⟨rfl, rfl, fun _ => rfl, fun _ => rfl, fun _ => rfl, fun _ _ => rfl⟩

theorem SameCore.trans {a b c : UState C S} (h : SameCore a b) (k : SameCore b c) : SameCore a c :=
  ⟨k.en.trans h.en, k.vals.trans h.vals, fun x => (k.seq x).trans (h.seq x), fun x => (k.adj x).trans (h.adj x),
    fun x => (k.log x).trans (h.log x), fun hx x => (k.ack (by rw [h.en]; exact hx) x).trans (h.ack hx x)⟩

theorem sameCore_set (st : UState C S) (c : C) (ch : UChan) (h1 : ch.seq = (st.chans c).seq)
    (h2 : ch.adj = (st.chans c).adj) (h3 : ch.log = (st.chans c).log)
    (h4 : st.enabled ≠ 0 → ch.ack = (st.chans c).ack) : SameCore st (st.setChan c ch) := by
  refine ⟨rfl, rfl, fun d => ?_, fun d => ?_, fun d => ?_, fun he d => ?_⟩ <;>
    (by_cases hd : d = c
     · subst hd; simp only [UState.setChan, Function.update_self]; first | assumption | exact h4 he
     · simp only [UState.setChan]; rw [Function.update_of_ne hd])

theorem Mid.core {pr : UProto C S PV} {gain : C → Prop} {st0 st st' : UState C S} (h : Mid pr gain st0 st)
    (k : SameCore st st') : Mid pr gain st0 st' := by
  refine ⟨fun c hc => ?_, fun c hc => ?_, fun he c hc hl => ?_, fun he c hc hl => ?_⟩
  · rw [k.log]; exact h.ext c hc
  · rw [k.log, k.seq]; exact h.head c hc
  · rw [k.en] at he
    rw [k.log] at hl
    rw [k.en, k.ack he]; exact h.keep he c hc hl
  · rw [k.en] at he
    rw [k.log] at hl
    rw [k.ack he]; exact h.fresh he c hc hl

theorem ne_of_longer {α : Type} {l l0 : List α} {s : α} (h : ∃ l', l = s :: l' ++ l0) : l ≠ l0 := by
  obtain ⟨l', h⟩ := h
  intro e
  have := congrArg List.length (h.symm.trans e)
  simp at this
  omega

theorem ne_of_longer_ext {α : Type} {l l1 l0 : List α} {s : α} (h : ∃ l', l = s :: l' ++ l1)
    (k : ∃ l'', l1 = l'' ++ l0) : ∃ l', l = s :: l' ++ l0 := by
  obtain ⟨l', h⟩ := h
  obtain ⟨l'', k⟩ := k
  exact ⟨l' ++ l'', by rw [h, k]; simp⟩

theorem Mid.seq {pr : UProto C S PV} {gain : C → Prop} {st0 st : UState C S} (h : Mid pr gain st0 st) (a : C) :
    Mid pr gain st0 (cmdSeq a st) := by
  obtain ⟨s, hs⟩ := cmdSeq_same a st
  have hlong : a ∈ pr.chs → ∃ l', s :: (st.chans a).log = s :: l' ++ (st0.chans a).log := fun ha =>
    ne_of_longer_ext ⟨[], rfl⟩ (h.ext a ha)
  refine ⟨fun c hc => ?_, fun c hc => ?_, fun he c hc hl => ?_, fun he c hc hl => ?_⟩ <;> by_cases hca : c = a
  · subst hca
    rw [hs]
    obtain ⟨l', hl'⟩ := hlong hc
    exact ⟨s :: l', hl'⟩
  · rw [cmdSeq_ne hca]; exact h.ext c hc
  · subst hca; rw [hs]; rfl
  · rw [cmdSeq_ne hca]; exact h.head c hc
  · subst hca
    rw [hs] at hl
    exact absurd hl (ne_of_longer (hlong hc))
  · rw [cmdSeq_ne hca] at hl ⊢; exact h.keep he c hc hl
  · subst hca; rw [hs]
  · rw [cmdSeq_ne hca] at hl ⊢; exact h.fresh he c hc hl

/-- Enabling or disabling a process: `cmdSeqAll` after changing `enabled` and things that do not matter. -/
theorem Mid.seqAll {pr : UProto C S PV} {gain : C → Prop} {st0 st st1 : UState C S} (h : Mid pr gain st0 st)
    (hc : st1.chans = st.chans) : Mid pr gain st0 (cmdSeqAll pr.chs st1) ∧
      ∀ c ∈ pr.chs, ((cmdSeqAll pr.chs st1).chans c).log ≠ (st0.chans c).log ∧
        ((cmdSeqAll pr.chs st1).chans c).ack = false := by
  obtain ⟨_, _, h3⟩ := seqAll_spec pr.chs st1
  have key : ∀ c ∈ pr.chs, ((cmdSeqAll pr.chs st1).chans c).ack = false ∧
      ∃ l', ((cmdSeqAll pr.chs st1).chans c).log =
        ((cmdSeqAll pr.chs st1).chans c).seq :: l' ++ (st0.chans c).log := fun c hcc => by
    obtain ⟨k1, k2⟩ := (h3 c).2.2 hcc
    refine ⟨k1, ne_of_longer_ext k2 ?_⟩
    rw [hc]; exact h.ext c hcc
  refine ⟨⟨fun c hcc => ?_, fun c hcc => ?_, fun _ c hcc hl => ?_, fun _ c hcc _ => (key c hcc).1⟩,
    fun c hcc => ⟨ne_of_longer (key c hcc).2, (key c hcc).1⟩⟩
  · obtain ⟨l', hl'⟩ := (key c hcc).2
    exact ⟨_, hl'⟩
  · obtain ⟨l', hl'⟩ := (key c hcc).2
    rw [hl']; rfl
  · exact absurd hl (ne_of_longer (key c hcc).2)

/-- A process that is not enabled: acknowledgements do not matter. -/
theorem Mid.off {pr : UProto C S PV} {gain : C → Prop} {st0 st st' : UState C S} (h : Mid pr gain st0 st)
    (he : st'.enabled = 0) (hl : ∀ c, (st'.chans c).log = (st.chans c).log)
    (hs : ∀ c, (st'.chans c).seq = (st.chans c).seq) : Mid pr gain st0 st' :=
  ⟨fun c hc => by rw [hl]; exact h.ext c hc, fun c hc => by rw [hl, hs]; exact h.head c hc,
    fun h' => absurd he h', fun h' => absurd he h'⟩

theorem enable_val (x : ℕ) : (if x % 4294967296 = 0 ∨ x % 4294967296 = allOnes then (x % 4294967296) ^^^ 1
    else x % 4294967296) ≠ 0 ∧ (if x % 4294967296 = 0 ∨ x % 4294967296 = allOnes then (x % 4294967296) ^^^ 1
    else x % 4294967296) < allOnes := by
  have hlt : x % 4294967296 < 4294967296 := Nat.mod_lt _ (by norm_num)
  generalize x % 4294967296 = y at hlt
  unfold allOnes
  by_cases h0 : y = 0
  · subst h0; simp
  · by_cases h1 : y = 4294967295
    · subst h1; simp
    · simp only [h0, h1, or_self, if_false]
      omega

theorem cmdEnable_spec {pr : UProto C S PV} {gain : C → Prop} {st0 st : UState C S} (h : Mid pr gain st0 st) :
    Mid pr gain st0 (cmdEnable pr st) ∧ (cmdEnable pr st).vals = st.vals ∧
    (∀ c, ((cmdEnable pr st).chans c).adj = (st.chans c).adj) ∧ (cmdEnable pr st).enabled ≠ 0 ∧
    (cmdEnable pr st).enabled < allOnes ∧
    ∀ c ∈ pr.chs, ((cmdEnable pr st).chans c).log ≠ (st0.chans c).log := by
  have hv := enable_val (st.tape 0)
  have key := fun e => h.seqAll (st1 := ⟨e, st.vals, st.chans, fun n => st.tape (n + 1)⟩) rfl
  unfold cmdEnable
  refine ⟨(key _).1, (seqAll_spec _ _).2.1, fun c => ((seqAll_spec _ _).2.2 c).1, ?_, ?_,
    fun c hc => ((key _).2 c hc).1⟩
  · rw [(seqAll_spec _ _).1]; exact hv.1
  · rw [(seqAll_spec _ _).1]; exact hv.2

theorem cmdDisable_spec {pr : UProto C S PV} {gain : C → Prop} {st0 st st1 : UState C S}
    (h : Mid pr gain st0 st) (hc : st1.chans = st.chans) :
    Mid pr gain st0 (cmdDisable pr st1) ∧ (cmdDisable pr st1).vals = st1.vals ∧
    (∀ c, ((cmdDisable pr st1).chans c).adj = (st.chans c).adj) ∧ (cmdDisable pr st1).enabled = 0 ∧
    ∀ c ∈ pr.chs, ((cmdDisable pr st1).chans c).log ≠ (st0.chans c).log ∧
      ((cmdDisable pr st1).chans c).ack = false := by
  have key := h.seqAll (st1 := ⟨0, st1.vals, st1.chans, st1.tape⟩) hc
  unfold cmdDisable
  refine ⟨key.1, (seqAll_spec _ _).2.1, fun c => ?_, (seqAll_spec _ _).1, key.2⟩
  rw [((seqAll_spec _ _).2.2 c).1, ← hc]

theorem updateEnabled_spec {pr : UProto C S PV} {gain : C → Prop} {st0 st : UState C S}
    (h : Mid pr gain st0 st) :
    Mid pr gain st0 (updateEnabled pr st).1 ∧ (updateEnabled pr st).1.vals = st.vals ∧
    (∀ c, ((updateEnabled pr st).1.chans c).adj = (st.chans c).adj) ∧
    (st.enabled ≤ allOnes → (updateEnabled pr st).1.enabled < allOnes) := by
  have hs : Mid pr gain st0 (sanitize st) ∧ (sanitize st).vals = st.vals ∧ (sanitize st).chans = st.chans ∧
      (st.enabled ≤ allOnes → (sanitize st).enabled < allOnes) := by
    unfold sanitize
    split
    · exact ⟨h.off rfl (fun _ => rfl) (fun _ => rfl), rfl, rfl, fun _ => by norm_num [allOnes]⟩
    · next hn => exact ⟨h, rfl, rfl, fun hl => by omega⟩
  obtain ⟨hm, hv, hch, hlt⟩ := hs
  unfold updateEnabled
  simp only
  by_cases h1 : canAct pr (sanitize st).vals = true
  · rw [if_pos h1]
    by_cases h2 : (sanitize st).enabled = 0
    · rw [if_pos h2]
      obtain ⟨k1, k2, k3, _, k5, _⟩ := cmdEnable_spec hm
      exact ⟨k1, k2.trans hv, fun c => by rw [k3, hch], fun _ => k5⟩
    · rw [if_neg h2]
      exact ⟨hm, hv, fun c => by rw [hch], hlt⟩
  · rw [if_neg h1]
    by_cases h2 : (sanitize st).enabled ≠ 0
    · rw [if_pos h2]
      obtain ⟨k1, k2, k3, k4, _⟩ := cmdDisable_spec hm rfl
      exact ⟨k1, k2.trans hv, fun c => by rw [k3, hch], fun _ => by rw [k4]; norm_num [allOnes]⟩
    · rw [if_neg h2]
      exact ⟨hm, hv, fun c => by rw [hch], hlt⟩

theorem setChan_same (st : UState C S) (c : C) (ch : UChan) : (st.setChan c ch).chans c = ch := by
  simp only [UState.setChan, Function.update_self]

theorem setChan_ne {c d : C} (h : d ≠ c) (st : UState C S) (ch : UChan) :
    (st.setChan c ch).chans d = st.chans d := by
  simp only [UState.setChan]; rw [Function.update_of_ne h]

theorem recvValues_spec (pr : UProto C S PV) (c : C) (pkt : UPkt PV) (st : UState C S)
    (h : ∀ c ∈ pr.chs, (st.chans c).log.head? = some (st.chans c).seq) :
    Mid pr (fun d => d = c ∧ pkt.enabled < st.enabled) st (recvValues pr c pkt st) ∧
    (recvValues pr c pkt st).vals = pr.merge c pkt.values st.vals ∧
    (∀ d, ((recvValues pr c pkt st).chans d).adj = (st.chans d).adj) ∧
    (recvValues pr c pkt st).enabled = st.enabled := by
  unfold recvValues
  simp only
  split
  · next hc =>
    have hne : ∀ d, d ≠ c → (({ st with vals := pr.merge c pkt.values st.vals } : UState C S).setChan c
      { st.chans c with ack := true }).chans d = st.chans d := fun d hd => setChan_ne hd _ _
    have hsm := setChan_same ({ st with vals := pr.merge c pkt.values st.vals } : UState C S) c
      { st.chans c with ack := true }
    refine ⟨⟨fun d hd => ⟨[], ?_⟩, fun d hd => ?_, fun _ d hd _ => ⟨rfl, fun ha => ?_⟩, fun _ d hd hl => ?_⟩, rfl,
      fun d => ?_, rfl⟩ <;> by_cases hdc : d = c
    · subst hdc; rw [hsm]; rfl
    · rw [hne d hdc]; rfl
    · subst hdc; rw [hsm]; exact h d hd
    · rw [hne d hdc]; exact h d hd
    · exact Or.inr ⟨hdc, hc.2⟩
    · rw [hne d hdc] at ha; exact Or.inl ha
    · subst hdc; rw [hsm] at hl; exact absurd rfl hl
    · rw [hne d hdc] at hl; exact absurd rfl hl
    · subst hdc; rw [hsm]
    · rw [hne d hdc]
  · exact ⟨⟨fun _ _ => ⟨[], rfl⟩, h, fun _ _ _ _ => ⟨rfl, Or.inl⟩, fun _ _ _ hl => absurd rfl hl⟩, rfl,
      fun _ => rfl, rfl⟩

theorem recvUpdate_spec {pr : UProto C S PV} {gain : C → Prop} {st0 st : UState C S} (h : Mid pr gain st0 st)
    (c : C) (b : Bool) :
    Mid pr gain st0 (recvUpdate pr c b st).1 ∧ (recvUpdate pr c b st).1.vals = st.vals ∧
    (∀ d, ((recvUpdate pr c b st).1.chans d).adj = (st.chans d).adj) ∧
    (st.enabled ≤ allOnes → (recvUpdate pr c b st).1.enabled < allOnes) := by
  have hu := updateEnabled_spec h
  unfold recvUpdate
  simp only
  by_cases h1 : (updateEnabled pr st).2 = true
  · rw [if_pos h1]; exact hu
  · rw [if_neg h1]
    by_cases h2 : b = true ∧ (updateEnabled pr st).1.enabled = 0
    · rw [if_pos h2]
      obtain ⟨k1, k2, k3, k4⟩ := hu
      obtain ⟨s, hs⟩ := cmdSeq_same c (updateEnabled pr st).1
      refine ⟨(k1.seq c).core (sameCore_set _ _ _ rfl rfl rfl fun he => absurd h2.2 he), k2, fun d => ?_, k4⟩
      by_cases hd : d = c
      · subst hd; rw [setChan_same, hs]; exact k3 d
      · rw [setChan_ne hd, cmdSeq_ne hd]; exact k3 d
    · rw [if_neg h2]; exact hu

theorem Mid.adjEq {pr : UProto C S PV} {gain : C → Prop} {st0 st : UState C S} (h : Mid pr gain st0 st)
    (c : C) (s : SeqId) : Mid pr gain st0 (st.setChan c { st.chans c with adj := s }) := by
  have hl : ∀ d, ((st.setChan c { st.chans c with adj := s }).chans d).log = (st.chans d).log ∧
      ((st.setChan c { st.chans c with adj := s }).chans d).seq = (st.chans d).seq ∧
      ((st.setChan c { st.chans c with adj := s }).chans d).ack = (st.chans d).ack := fun d => by
    by_cases hd : d = c
    · subst hd; rw [setChan_same]; exact ⟨rfl, rfl, rfl⟩
    · rw [setChan_ne hd]; exact ⟨rfl, rfl, rfl⟩
  refine ⟨fun d hd => ?_, fun d hd => ?_, fun he d hd hlg => ?_, fun he d hd hlg => ?_⟩
  · rw [(hl d).1]; exact h.ext d hd
  · rw [(hl d).1, (hl d).2.1]; exact h.head d hd
  · rw [(hl d).1] at hlg; rw [(hl d).2.2]; exact h.keep he d hd hlg
  · rw [(hl d).1] at hlg; rw [(hl d).2.2]; exact h.fresh he d hd hlg

theorem recvAdj_spec {pr : UProto C S PV} {gain : C → Prop} {st0 st : UState C S} (h : Mid pr gain st0 st)
    (c : C) (pkt : UPkt PV) :
    Mid pr gain st0 (recvAdj c pkt st) ∧ (recvAdj c pkt st).vals = st.vals ∧
    (recvAdj c pkt st).enabled = st.enabled ∧ ((recvAdj c pkt st).chans c).adj = pkt.src ∧
    ∀ d, d ≠ c → ((recvAdj c pkt st).chans d).adj = (st.chans d).adj := by
  unfold recvAdj
  simp only
  by_cases h1 : (st.chans c).adj ≠ pkt.src
  · rw [if_pos h1]
    split
    · obtain ⟨s, hs⟩ := cmdSeq_same c (st.setChan c { st.chans c with adj := pkt.src })
      refine ⟨(h.adjEq c _).seq c, rfl, rfl, ?_, fun d hd => ?_⟩
      · rw [hs, setChan_same]
      · rw [cmdSeq_ne hd, setChan_ne hd]
    · refine ⟨h.adjEq c _, rfl, rfl, by rw [setChan_same], fun d hd => by rw [setChan_ne hd]⟩
  · rw [if_neg h1]
    push Not at h1
    exact ⟨h, rfl, rfl, h1, fun _ _ => rfl⟩

theorem recvPrio_spec {pr : UProto C S PV} {gain : C → Prop} {st0 st : UState C S} (h : Mid pr gain st0 st)
    (c : C) (hc : c ∈ pr.chs) (pkt : UPkt PV) (b r : Bool) :
    Mid pr gain st0 (recvPrio pr c pkt st b r).1 ∧ (recvPrio pr c pkt st b r).1.vals = st.vals ∧
    (∀ d, ((recvPrio pr c pkt st b r).1.chans d).adj = (st.chans d).adj) ∧
    (st.enabled < allOnes → (recvPrio pr c pkt st b r).1.enabled < allOnes) ∧
    ((recvPrio pr c pkt st b r).1.enabled ≠ 0 →
      ((recvPrio pr c pkt st b r).1.chans c).log = (st0.chans c).log →
      pkt.enabled < st0.enabled ∨ pkt.enabled = allOnes) := by
  unfold recvPrio
  simp only
  by_cases h1 : st.enabled ≠ 0
  · rw [if_pos h1]
    unfold recvTie
    by_cases h2 : pkt.enabled = st.enabled
    · rw [if_pos h2]
      obtain ⟨k1, k2, k3, _, k5, k6⟩ := cmdEnable_spec h
      exact ⟨k1, k2, k3, fun _ => k5, fun _ hl => absurd hl (k6 c hc)⟩
    · rw [if_neg h2]
      by_cases h3 : pkt.enabled > st.enabled
      · rw [if_pos h3]
        simp only
        by_cases h4 : pkt.enabled ≠ allOnes
        · rw [if_pos h4]
          have hq := h.seq c
          obtain ⟨s, hs⟩ := cmdSeq_same c st
          refine ⟨hq, rfl, fun d => ?_, fun hl => hl, fun _ hl => ?_⟩
          · by_cases hd : d = c
            · subst hd; rw [hs]
            · rw [cmdSeq_ne hd]
          · rw [hs] at hl
            exact absurd hl (ne_of_longer (ne_of_longer_ext ⟨[], rfl⟩ (h.ext c hc)))
        · rw [if_neg h4]
          push Not at h4
          exact ⟨h, rfl, fun _ => rfl, fun hl => hl, fun _ _ => Or.inr h4⟩
      · rw [if_neg h3]
        refine ⟨h, rfl, fun _ => rfl, fun hl => hl, fun _ hl => Or.inl ?_⟩
        have := (h.keep h1 c hc hl).1
        omega
  · rw [if_neg h1]
    push Not at h1
    have hon : ∀ (ch : UChan), ch.seq = (st.chans c).seq → ch.adj = (st.chans c).adj →
        ch.log = (st.chans c).log → SameCore st (st.setChan c ch) := fun ch e1 e2 e3 =>
      sameCore_set st c ch e1 e2 e3 fun he => absurd h1 he
    have fin : ∀ st' : UState C S, SameCore st st' → Mid pr gain st0 st' ∧ st'.vals = st.vals ∧
        (∀ d, (st'.chans d).adj = (st.chans d).adj) ∧ (st.enabled < allOnes → st'.enabled < allOnes) ∧
        (st'.enabled ≠ 0 → (st'.chans c).log = (st0.chans c).log →
          pkt.enabled < st0.enabled ∨ pkt.enabled = allOnes) := fun st' k =>
      ⟨h.core k, k.vals, k.adj, fun hl => by rw [k.en]; exact hl, fun he => absurd (k.en.trans h1) he⟩
    by_cases h2 : pkt.dst = (st.chans c).seq
    · rw [if_pos h2]
      have k1 := hon { st.chans c with ack := true } rfl rfl rfl
      by_cases h3 : r = true
      · rw [if_pos h3]; exact fin _ k1
      · rw [if_neg h3]
        split
        · exact fin _ k1
        · refine fin _ (k1.trans (sameCore_set _ _ _ rfl rfl rfl fun _ => rfl))
    · rw [if_neg h2]; exact fin _ (SameCore.refl _)

theorem actLoop_spec (pr : UProto C S PV) (fuel : ℕ) (s v : S) (h : actLoop pr fuel s = some v) :
    (∃ k, v = (pr.act)^[k] s) ∧ pr.act v = v := by
  induction fuel generalizing s with
  | zero => simp [actLoop] at h
  | succ n ih =>
    unfold actLoop at h
    split at h
    · obtain ⟨⟨k, hk⟩, h2⟩ := ih _ h
      exact ⟨⟨k + 1, by rw [hk]; rfl⟩, h2⟩
    · next hn =>
      rw [Option.some.injEq] at h
      subst h
      refine ⟨⟨0, rfl⟩, ?_⟩
      simpa [canAct] using hn

theorem sendSt_core (c : C) (st : UState C S) : SameCore st (sendSt c st) :=
  sameCore_set _ _ _ rfl rfl rfl fun _ => rfl

theorem mkPkt_core {pr : UProto C S PV} {st st' : UState C S} (k : SameCore st st') (c : C) (e : ℕ) :
    mkPkt pr c st' e = mkPkt pr c st e := by
  unfold mkPkt; rw [k.seq, k.adj, k.vals]

theorem sendAll_spec (pr : UProto C S PV) (l : List C) (st : UState C S) :
    SameCore st (sendAll pr l st).1 ∧
    ∀ c m, (c, m) ∈ (sendAll pr l st).2 → c ∈ l ∧ m = mkPkt pr c st st.enabled := by
  induction l generalizing st with
  | nil => exact ⟨SameCore.refl _, fun c m h => by simp [sendAll] at h⟩
  | cons a l ih =>
    unfold sendAll
    split
    · obtain ⟨h1, h2⟩ := ih st
      exact ⟨h1, fun c m h => ⟨List.mem_cons_of_mem _ (h2 c m h).1, (h2 c m h).2⟩⟩
    · obtain ⟨h1, h2⟩ := ih (sendSt a st)
      have k := sendSt_core a st
      refine ⟨k.trans h1, fun c m h => ?_⟩
      rcases List.mem_cons.1 h with h | h
      · cases h
        exact ⟨List.mem_cons_self, rfl⟩
      · obtain ⟨m1, m2⟩ := h2 c m h
        refine ⟨List.mem_cons_of_mem _ m1, ?_⟩
        rw [m2, mkPkt_core k, k.en]

theorem setTape_core {st st' : UState C S} (h : SameCore st st') (f : ℕ → ℕ) :
    SameCore st { st' with tape := f } :=
  ⟨h.en, h.vals, h.seq, h.adj, h.log, h.ack⟩

theorem timeoutLoop_spec (pr : UProto C S PV) (l : List C) (st : UState C S) :
    SameCore st (timeoutLoop pr l st).1 ∧
    ∀ c m, (c, m) ∈ (timeoutLoop pr l st).2 → c ∈ l ∧
      (m = mkPkt pr c st st.enabled ∨ m = mkPkt pr c st allOnes) := by
  induction l generalizing st with
  | nil => exact ⟨SameCore.refl _, fun c m h => by simp [timeoutLoop] at h⟩
  | cons a l ih =>
    have lift : ∀ st' : UState C S, SameCore st st' → ∀ c m, (c, m) ∈ (timeoutLoop pr l st').2 → c ∈ a :: l ∧
        (m = mkPkt pr c st st.enabled ∨ m = mkPkt pr c st allOnes) := fun st' k c m h => by
      obtain ⟨m1, m2⟩ := (ih st').2 c m h
      refine ⟨List.mem_cons_of_mem _ m1, ?_⟩
      rw [mkPkt_core k, mkPkt_core k, k.en] at m2
      exact m2
    unfold timeoutLoop
    simp only
    have k1 : SameCore st (if (st.chans a).skips ≥ nQuick / 2 + nQuick
      then st.setChan a { st.chans a with skips := nQuick - 1 } else st) := by
      split
      · exact sameCore_set _ _ _ rfl rfl rfl fun _ => rfl
      · exact SameCore.refl _
    generalize (if (st.chans a).skips ≥ nQuick / 2 + nQuick
      then st.setChan a { st.chans a with skips := nQuick - 1 } else st) = st1 at k1
    split
    · split
      · exact ⟨k1.trans (ih st1).1, lift st1 k1⟩
      · next he =>
        push Not at he
        split
        · have k2 : SameCore st (st1.setChan a { st1.chans a with skips := (st1.chans a).skips - 1 }) :=
            k1.trans (sameCore_set _ _ _ rfl rfl rfl fun _ => rfl)
          exact ⟨k2.trans (ih _).1, lift _ k2⟩
        · have k2 : SameCore st (sendSt a (st1.setChan a { st1.chans a with ack := false })) :=
            (k1.trans (sameCore_set st1 a { st1.chans a with ack := false } rfl rfl rfl
              fun h => absurd he h)).trans (sendSt_core _ _)
          have k3 := setTape_core (k2.trans (sameCore_set _ a
            { (sendSt a (st1.setChan a { st1.chans a with ack := false })).chans a with
              skips := nQuick / 2 + (sendSt a (st1.setChan a { st1.chans a with ack := false })).tape 0
                % 4294967296 % nQuick } rfl rfl rfl fun _ => rfl))
            (fun n => (sendSt a (st1.setChan a { st1.chans a with ack := false })).tape (n + 1))
          refine ⟨k3.trans (ih _).1, fun c m h => ?_⟩
          rcases List.mem_cons.1 h with h | h
          · cases h
            exact ⟨List.mem_cons_self, Or.inr (mkPkt_core k1 _ _)⟩
          · exact lift _ k3 c m h
    · have k2 : SameCore st (sendSt a st1) := k1.trans (sendSt_core _ _)
      have k3 := setTape_core (k2.trans (sameCore_set _ a
        { (sendSt a st1).chans a with
          skips := nQuick / 2 + (sendSt a st1).tape 0 % 4294967296 % nQuick } rfl rfl rfl fun _ => rfl))
        (fun n => (sendSt a st1).tape (n + 1))
      refine ⟨k3.trans (ih _).1, fun c m h => ?_⟩
      rcases List.mem_cons.1 h with h | h
      · cases h
        refine ⟨List.mem_cons_self, Or.inl ?_⟩
        rw [mkPkt_core k1, k1.en]
      · exact lift _ k3 c m h

/-- The values after copying those of an accepted packet. -/
def withPkt (pr : UProto C S PV) (rcv : Option (C × UPkt PV)) (s : S) : S :=
  match rcv with
  | none => s
  | some (c, pkt) => pr.merge c pkt.values s

/-- What a handler does.  `rcv` is an accepted packet, `stale` one with another sequence number. -/
structure Contract (pr : UProto C S PV) (st0 : UState C S) (rcv stale : Option (C × UPkt PV))
    (o : UOut C S PV) : Prop where
  mid : Mid pr (fun d => ∃ pkt, rcv = some (d, pkt) ∧ pkt.enabled < st0.enabled) st0 o.st
  lt : st0.enabled < allOnes → o.st.enabled < allOnes
  adj : ∀ d, (∀ pkt, rcv ≠ some (d, pkt)) → (o.st.chans d).adj = (st0.chans d).adj
  adjNew : ∀ c pkt, rcv = some (c, pkt) → (o.st.chans c).adj = pkt.src ∧
    (o.st.enabled ≠ 0 → (o.st.chans c).log = (st0.chans c).log →
      pkt.enabled < st0.enabled ∨ pkt.enabled = allOnes)
  vals : o.acted = none → o.st.vals = withPkt pr rcv st0.vals
  acted : ∀ s, o.acted = some s → s = withPkt pr rcv st0.vals ∧ (∃ k, o.st.vals = (pr.act)^[k] s) ∧
    pr.act o.st.vals = o.st.vals ∧ o.st.enabled = 0 ∧
    (∀ c ∈ pr.chs, (o.st.chans c).log ≠ (st0.chans c).log ∧ (o.st.chans c).ack = false) ∧
    (∀ c ∈ pr.chs, pr.reads c = true → st0.enabled ≠ 0 ∧
      ((st0.chans c).ack = true ∨ ∃ pkt, rcv = some (c, pkt) ∧ pkt.enabled < st0.enabled) ∧
      ∀ pkt, rcv = some (c, pkt) → pkt.enabled < st0.enabled ∨ pkt.enabled = allOnes)
  sent : ∀ c m, (c, m) ∈ o.sent → c ∈ pr.chs ∧ m.src = (o.st.chans c).seq ∧
    m.values = pr.emit c o.st.vals ∧
    ((m.dst = (o.st.chans c).adj ∧ (m.enabled = o.st.enabled ∨ m.enabled = allOnes)) ∨
      ∃ pkt, stale = some (c, pkt) ∧ m.dst = pkt.src ∧ (m.enabled = allOnes ∨
        (m.enabled = o.st.enabled ∧ (o.st.enabled = 0 ∨ pkt.enabled ≤ o.st.enabled))))

theorem mkPkt_sent {pr : UProto C S PV} {st st' : UState C S} (k : SameCore st st') {c : C} {m : UPkt PV}
    {l : List C} (hl : ∀ c ∈ l, c ∈ pr.chs) (stale : Option (C × UPkt PV))
    (h : c ∈ l ∧ (m = mkPkt pr c st st.enabled ∨ m = mkPkt pr c st allOnes)) :
    c ∈ pr.chs ∧ m.src = (st'.chans c).seq ∧ m.values = pr.emit c st'.vals ∧
    ((m.dst = (st'.chans c).adj ∧ (m.enabled = st'.enabled ∨ m.enabled = allOnes)) ∨
      ∃ pkt, stale = some (c, pkt) ∧ m.dst = pkt.src ∧ (m.enabled = allOnes ∨
        (m.enabled = st'.enabled ∧ (st'.enabled = 0 ∨ pkt.enabled ≤ st'.enabled)))) := by
  obtain ⟨h1, h2⟩ := h
  rw [k.seq, k.adj, k.vals, k.en]
  rcases h2 with rfl | rfl
  · exact ⟨hl _ h1, rfl, rfl, Or.inl ⟨rfl, Or.inl rfl⟩⟩
  · exact ⟨hl _ h1, rfl, rfl, Or.inl ⟨rfl, Or.inr rfl⟩⟩

theorem timeout_contract (pr : UProto C S PV) (st : UState C S)
    (hh : ∀ c ∈ pr.chs, (st.chans c).log.head? = some (st.chans c).seq) :
    Contract pr st none none (handleTimeout pr st) := by
  have m0 := Mid.refl pr (fun d => ∃ pkt : UPkt PV, none = some (d, pkt) ∧ pkt.enabled < st.enabled) st hh
  have hr : Mid pr (fun d => ∃ pkt : UPkt PV, none = some (d, pkt) ∧ pkt.enabled < st.enabled) st (timeoutReset pr st) ∧
      (timeoutReset pr st).vals = st.vals ∧ (timeoutReset pr st).chans = st.chans ∧
      (st.enabled < allOnes → (timeoutReset pr st).enabled < allOnes) := by
    unfold timeoutReset
    split
    · exact ⟨m0.off rfl (fun _ => rfl) (fun _ => rfl), rfl, rfl, fun _ => by norm_num [allOnes]⟩
    · exact ⟨m0, rfl, rfl, fun h => h⟩
  obtain ⟨r1, r2, r3, r4⟩ := hr
  obtain ⟨u1, u2, u3, u4⟩ := updateEnabled_spec r1
  obtain ⟨k, hs⟩ := timeoutLoop_spec pr pr.chs (updateEnabled pr (timeoutReset pr st)).1
  refine ⟨u1.core k, fun hl => ?_, fun d _ => ?_, fun c pkt h => by simp at h, fun _ => ?_, fun s h => by
    simp [handleTimeout] at h, fun c m hm => ?_⟩
  · show (timeoutLoop _ _ _).1.enabled < _
    rw [k.en]; exact u4 (r4 hl).le
  · show ((timeoutLoop _ _ _).1.chans d).adj = _
    rw [k.adj, u3, r3]
  · show (timeoutLoop _ _ _).1.vals = _
    rw [k.vals, u2, r2]; rfl
  · exact mkPkt_sent k (fun _ h => h) none (hs c m hm)

theorem stale_contract (pr : UProto C S PV) (c : C) (hc : c ∈ pr.chs) (pkt : UPkt PV) (st : UState C S)
    (hh : ∀ c ∈ pr.chs, (st.chans c).log.head? = some (st.chans c).seq) :
    Contract pr st none (some (c, pkt)) (recvStale pr c pkt st) := by
  have m0 := Mid.refl pr (fun d => ∃ pkt : UPkt PV, none = some (d, pkt) ∧ pkt.enabled < st.enabled) st hh
  unfold recvStale
  simp only
  split
  · have k : SameCore st (st.setChan c { st.chans c with reply := true }) :=
      sameCore_set _ _ _ rfl rfl rfl fun _ => rfl
    exact ⟨m0.core k, fun h => h, fun d _ => k.adj d, fun c pkt h => by simp at h, fun _ => rfl,
      fun s h => by simp at h, fun c m h => by simp at h⟩
  · have k : SameCore st (st.setChan c { st.chans c with reply := false }) :=
      sameCore_set _ _ _ rfl rfl rfl fun _ => rfl
    refine ⟨m0.core k, fun h => h, fun d _ => k.adj d, fun c pkt h => by simp at h, fun _ => rfl,
      fun s h => by simp at h, fun d m h => ?_⟩
    rw [List.mem_singleton] at h
    cases h
    refine ⟨hc, (k.seq c).symm, rfl, Or.inr ⟨pkt, rfl, rfl, ?_⟩⟩
    simp only
    by_cases h1 : st.enabled ≠ 0 ∧ st.enabled < pkt.enabled
    · rw [if_pos h1]; exact Or.inl rfl
    · rw [if_neg h1]
      refine Or.inr ⟨rfl, ?_⟩
      show st.enabled = 0 ∨ _ ≤ st.enabled
      omega

theorem recv_contract (pr : UProto C S PV) (fuel : ℕ) (c : C) (hc : c ∈ pr.chs) (pkt : UPkt PV)
    (st : UState C S) (hh : ∀ c ∈ pr.chs, (st.chans c).log.head? = some (st.chans c).seq)
    (hd : pkt.dst = (st.chans c).seq) (o : UOut C S PV) (h : handleRecv pr fuel c pkt st = some o) :
    Contract pr st (some (c, pkt)) none o := by
  unfold handleRecv at h
  rw [if_neg (by simpa using hd)] at h
  simp only at h
  obtain ⟨a1, a2, a3, a4⟩ := recvValues_spec pr c pkt st hh
  obtain ⟨b1, b2, b3, b4⟩ := recvUpdate_spec a1 c (decide (pr.merge c pkt.values st.vals ≠ st.vals))
  generalize recvUpdate pr c (decide (pr.merge c pkt.values st.vals ≠ st.vals)) (recvValues pr c pkt st) = u
    at h b1 b2 b3 b4
  obtain ⟨c1, c2, c3, c4, c5⟩ := recvAdj_spec b1 c pkt
  generalize recvAdj c pkt u.1 = st3 at h c1 c2 c3 c4 c5
  obtain ⟨d1, d2, d3, d4, d5⟩ := recvPrio_spec c1 c hc pkt u.2.1 (recvReply c pkt st3 u.2.2)
  generalize recvPrio pr c pkt st3 u.2.1 (recvReply c pkt st3 u.2.2) = w at h d1 d2 d3 d4 d5
  have hv : w.1.vals = pr.merge c pkt.values st.vals := by rw [d2, c2, b2, a2]
  have hlt : st.enabled < allOnes → w.1.enabled < allOnes := fun hl => d4 (by
    rw [c3]; exact b4 (by rw [a4]; exact hl.le))
  have hadj : (w.1.chans c).adj = pkt.src := by rw [d3, c4]
  have hadj' : ∀ d, d ≠ c → (w.1.chans d).adj = (st.chans d).adj := fun d hd' => by
    rw [d3, c5 d hd', b3, a3]
  have gmono : ∀ d, (d = c ∧ pkt.enabled < st.enabled) →
      ∃ pkt', some (c, pkt) = some (d, pkt') ∧ pkt'.enabled < st.enabled := fun d hd' =>
    ⟨pkt, by rw [hd'.1], hd'.2⟩
  have gm : ∀ {s : UState C S}, Mid pr (fun d => d = c ∧ pkt.enabled < st.enabled) st s →
      Mid pr (fun d => ∃ pkt', some (c, pkt) = some (d, pkt') ∧ pkt'.enabled < st.enabled) st s := fun m =>
    ⟨m.ext, m.head, fun he d hdd hl => ⟨(m.keep he d hdd hl).1, fun ha =>
      ((m.keep he d hdd hl).2 ha).imp id (gmono d)⟩, m.fresh⟩
  -- sending
  have send : ∀ (s5 : UState C S) (b r : Bool) (a : Option S),
      SameCore s5 (recvSend pr c s5 b r a).st ∧ (recvSend pr c s5 b r a).acted = a ∧
      ∀ d m, (d, m) ∈ (recvSend pr c s5 b r a).sent → d ∈ pr.chs ∧
        (m = mkPkt pr d s5 s5.enabled ∨ m = mkPkt pr d s5 allOnes) := fun s5 b r a => by
    unfold recvSend
    split
    · obtain ⟨k, hs⟩ := sendAll_spec pr pr.chs s5
      exact ⟨k, rfl, fun d m hm => ⟨(hs d m hm).1, Or.inl (hs d m hm).2⟩⟩
    · split
      · refine ⟨sendSt_core _ _, rfl, fun d m hm => ?_⟩
        rw [List.mem_singleton] at hm
        cases hm
        exact ⟨hc, Or.inl rfl⟩
      · exact ⟨SameCore.refl _, rfl, fun d m hm => by simp at hm⟩
  unfold recvAct at h
  by_cases hact : w.1.enabled ≠ 0 ∧ allAck pr w.1 = true
  · rw [if_pos hact] at h
    cases hal : actLoop pr fuel w.1.vals with
    | none => rw [hal] at h; simp at h
    | some v =>
      rw [hal] at h
      simp only [Option.some.injEq] at h
      obtain ⟨k, ha, hs⟩ := send (cmdDisable pr { w.1 with vals := v }) true w.2.2 (some w.1.vals)
      rw [h] at k ha hs
      obtain ⟨e1, e2, e3, e4, e5⟩ := cmdDisable_spec (st1 := { w.1 with vals := v }) d1 rfl
      obtain ⟨hk, hfix⟩ := actLoop_spec pr fuel _ _ hal
      have hack : ∀ d ∈ pr.chs, pr.reads d = true → (w.1.chans d).ack = true := fun d hdd hr => by
        have := List.all_eq_true.1 hact.2 d hdd
        simpa [hr] using this
      refine ⟨gm (e1.core k), fun _ => ?_, fun d hdd => ?_, fun c' pkt' heq => ?_, fun hn => ?_,
        fun s hsome => ?_, fun d m hm => ?_⟩
      · rw [k.en, e4]; norm_num [allOnes]
      · rw [k.adj, e3]
        exact hadj' d fun hdc => hdd pkt (by rw [hdc])
      · cases heq
        refine ⟨by rw [k.adj, e3, hadj], fun he => ?_⟩
        rw [k.en, e4] at he; exact absurd rfl he
      · rw [ha] at hn; simp at hn
      · rw [ha] at hsome
        simp only [Option.some.injEq] at hsome
        subst hsome
        refine ⟨hv, ?_, ?_, by rw [k.en, e4], fun d hdd => ?_, fun d hdd hr => ?_⟩
        · rw [k.vals, e2]; exact hk
        · rw [k.vals, e2]; exact hfix
        · rw [k.log]
          refine ⟨(e5 d hdd).1, ?_⟩
          -- acknowledgements are unchanged by sending unless disabled; they were already false
          have hsd : ∀ (l : List C) (s5 : UState C S), (s5.chans d).ack = false →
              ((sendAll pr l s5).1.chans d).ack = false := fun l => by
            induction l with
            | nil => intro s5 hx; exact hx
            | cons a l ih =>
              intro s5 hx
              unfold sendAll
              split
              · exact ih s5 hx
              · refine ih _ ?_
                unfold sendSt
                by_cases hda : d = a
                · subst hda; rw [setChan_same]; exact hx
                · rw [setChan_ne hda]; exact hx
          rw [← h]
          exact hsd _ _ (e5 d hdd).2
        · have hcl : (w.1.chans d).log = (st.chans d).log := by
            by_contra hne
            have := d1.fresh hact.1 d hdd hne
            rw [hack d hdd hr] at this
            simp at this
          obtain ⟨q1, q2⟩ := d1.keep hact.1 d hdd hcl
          refine ⟨by rw [← q1]; exact hact.1, ?_, fun pkt' heq => ?_⟩
          · exact (q2 (hack d hdd hr)).imp id (gmono d)
          · cases heq
            exact d5 hact.1 hcl
      · exact mkPkt_sent k (fun _ h => h) none (hs d m hm)
  · rw [if_neg hact] at h
    simp only [Option.some.injEq] at h
    obtain ⟨k, ha, hs⟩ := send w.1 w.2.1 w.2.2 none
    rw [h] at k ha hs
    refine ⟨gm (d1.core k), fun hl => ?_, fun d hdd => ?_, fun c' pkt' heq => ?_, fun _ => ?_, fun s hsome => ?_,
      fun d m hm => mkPkt_sent k (fun _ h => h) none (hs d m hm)⟩
    · rw [k.en]; exact hlt hl
    · rw [k.adj]
      exact hadj' d fun hdc => hdd pkt (by rw [hdc])
    · cases heq
      refine ⟨by rw [k.adj, hadj], fun he hl => ?_⟩
      rw [k.en] at he
      rw [k.log] at hl
      exact d5 he hl
    · rw [k.vals, hv]; rfl
    · rw [ha] at hsome; simp at hsome

/-- One round: with the accepted packet and the stale packet. -/
theorem ustep_contract (pr : UProto C S PV) (fuel : ℕ) (e : UEv C PV) (st : UState C S) (o : UOut C S PV)
    (hown : ∀ c pkt, e = .recv c pkt → c ∈ pr.chs)
    (hh : ∀ c ∈ pr.chs, (st.chans c).log.head? = some (st.chans c).seq)
    (h : ustep pr fuel e st = some o) :
    ∃ rcv stale, Contract pr { st with vals := pr.fix st.vals } rcv stale o ∧
      (∀ c pkt, rcv = some (c, pkt) → e = .recv c pkt ∧ pkt.dst = (st.chans c).seq) ∧
      (∀ c pkt, stale = some (c, pkt) → e = .recv c pkt ∧ pkt.dst ≠ (st.chans c).seq) ∧
      (∀ s, o.acted = some s → ∃ c pkt, rcv = some (c, pkt)) := by
  unfold ustep at h
  cases e with
  | timeout =>
    simp only [Option.some.injEq] at h
    subst h
    exact ⟨none, none, timeout_contract pr _ hh, fun c pkt h => by simp at h, fun c pkt h => by simp at h,
      fun s hs => by simp [handleTimeout] at hs⟩
  | recv c pkt =>
    simp only at h
    have hc := hown c pkt rfl
    by_cases hd : pkt.dst = (st.chans c).seq
    · refine ⟨some (c, pkt), none, recv_contract pr fuel c hc pkt ⟨st.enabled, pr.fix st.vals, st.chans, st.tape⟩ hh hd o h, fun c' pkt' heq => ?_,
        fun c pkt h => by simp at h, fun _ _ => ⟨c, pkt, rfl⟩⟩
      cases heq; exact ⟨rfl, hd⟩
    · unfold handleRecv at h
      rw [if_pos (by simpa using hd), Option.some.injEq] at h
      subst h
      refine ⟨none, some (c, pkt), stale_contract pr c hc pkt _ hh, fun c pkt h => by simp at h,
        fun c' pkt' heq => ?_, fun s hs => ?_⟩
      · cases heq; exact ⟨rfl, hd⟩
      · unfold recvStale at hs
        simp only at hs
        split at hs <;> simp at hs

end Verif.Proofs
