import Verif.Proofs.UdpTab

/-!
C116: the channels and tables of variables written for the UDP implementation let every process copy the variables of
its neighbours.
-/

namespace Verif.Props
open Verif.Model Verif.Spec Verif.Proofs

/-- Three processes on a ring, each reading the variable of the one before it; variable 3 is a shadow. -/
def udpRing3 : List (List UAcc) :=
  [[⟨2, 3, true, false⟩, ⟨0, 3, true, true⟩, ⟨3, 2, false, true⟩], [⟨0, 3, true, false⟩, ⟨1, 3, true, true⟩],
   [⟨1, 3, true, false⟩, ⟨2, 3, true, true⟩]]

/-- Two processes on a ring, each reading the variable on its left and on its right, which are the same. -/
def udpRing2 : List (List UAcc) :=
  [[⟨1, 3, true, false⟩, ⟨0, 3, true, true⟩, ⟨1, 3, true, false⟩],
   [⟨0, 3, true, false⟩, ⟨1, 3, true, true⟩, ⟨0, 3, true, false⟩]]

/-- Two processes that write the same variable. -/
def udpShared : List (List UAcc) :=
  [[⟨0, 2, true, true⟩], [⟨0, 2, true, true⟩, ⟨1, 2, true, true⟩]]

theorem processOf_eq (pcs : List (List UAcc)) {p : ℕ} (hp : p < pcs.length) (c : ℕ) :
    processOf pcs p c = ((((udpNet pcs).chans p)[c]?).map (·.pc)).getD p := by
  rw [processOf, if_pos hp, procOfGo_eq]

theorem processOf_chan {pcs : List (List UAcc)} {p q c : ℕ} (hp : p < pcs.length) (hne : p ≠ q)
    (h : processOf pcs p c = q) : ∃ ch, ((udpNet pcs).chans p)[c]? = some ch ∧ ch.pc = q := by
  rw [processOf_eq pcs hp] at h
  cases hc : ((udpNet pcs).chans p)[c]? with
  | none => rw [hc] at h; exact absurd h hne
  | some ch => rw [hc] at h; exact ⟨ch, rfl, h⟩

/-- **C116**, channels: `process_of_channel` gives the neighbours of a process, each on exactly one channel, and the
process itself from the number of channels on, which is at most `Max_NChannels`.  Neighbours are neighbours of each
other. -/
theorem C116_channels (pcs : List (List UAcc)) (p : ℕ) (hp : p < pcs.length) :
    (∀ q, AdjacentV pcs p q → q < pcs.length ∧ AdjacentV pcs q p ∧ ∃! c, processOf pcs p c = q) ∧
    (∃ n ≤ udpMaxChans pcs, ∀ c, (c < n → AdjacentV pcs p (processOf pcs p c)) ∧ (n ≤ c → processOf pcs p c = p)) := by
  obtain ⟨h1, h2, -⟩ := net_spec pcs
  refine ⟨fun q ha => ⟨?_, adjacent_symm ha, ?_⟩, ((udpNet pcs).chans p).length, ?_, fun c => ⟨fun hc => ?_, fun hc => ?_⟩⟩
  · obtain ⟨-, v, ⟨-, h⟩ | ⟨h, -⟩⟩ := ha
    · obtain ⟨pc, hq, -⟩ := owns_reads h
      exact (List.getElem?_eq_some_iff.1 hq).1
    · obtain ⟨pc, hq, -⟩ := h
      exact (List.getElem?_eq_some_iff.1 hq).1
  · obtain ⟨c, hc⟩ := Option.isSome_iff_exists.1 ((h2 p q).2 ha)
    obtain ⟨ch, hch, hpc⟩ := (h1 p q c).1 hc
    refine ⟨c, ?_, fun d hd => ?_⟩
    · simp only [processOf_eq pcs hp, hch, Option.map_some, Option.getD_some, hpc]
    · have := (h1 p q d).2 (processOf_chan hp ha.1 hd)
      rw [hc] at this
      exact (Option.some.inj this).symm
  · exact (foldMax_le (fun p => ((udpNet pcs).chans p).length) (List.range pcs.length) 0).2 p (List.mem_range.2 hp)
  · obtain ⟨ch, hch⟩ : ∃ ch, ((udpNet pcs).chans p)[c]? = some ch := ⟨_, List.getElem?_eq_getElem hc⟩
    rw [processOf_eq pcs hp, hch]
    exact (chan_adj hch).1
  · rw [processOf_eq pcs hp, List.getElem?_eq_none hc]
    rfl

example : (List.range 3).map (processOf udpRing3 1) = [0, 2, 1] ∧ udpMaxChans udpRing3 = 2 := by decide

/-- What the table gives for a channel to a neighbour. -/
theorem variableOf_eq {pcs : List (List UAcc)} {tabs} (ht : udpTabs pcs = some tabs) {p q c : ℕ} {pc : List UAcc}
    (hp : pcs[p]? = some pc) (hne : p ≠ q) (hc : processOf pcs p c = q) (M i : ℕ) (w : Bool) :
    variableOf M tabs p c i w =
      (((if w = true then ownedBy pcs q p else ownedBy pcs p q)[i]?).map (localIdx (udpVbls pc))).getD M := by
  obtain ⟨tabs', ht', h⟩ := tabs_spec pcs
  rw [ht] at ht'
  cases ht'
  obtain ⟨ch, hch, rfl⟩ := processOf_chan (List.getElem?_eq_some_iff.1 hp).1 hne hc
  rw [h M p pc c i w hp, hch]
  rfl

/-- The tables are always written: every lookup of a channel finds one. -/
theorem C116_tables (pcs : List (List UAcc)) : (udpTabs pcs).isSome = true := by
  obtain ⟨tabs, h, -⟩ := tabs_spec pcs
  simp [h]

/-- **C116**, acknowledgements: the first entry for reading on a channel to `q` is a variable exactly if the process has
a variable that `q` owns. -/
theorem C116_reads {pcs : List (List UAcc)} {tabs} (ht : udpTabs pcs = some tabs) {p q c : ℕ} (hp : p < pcs.length)
    (hne : p ≠ q) (hc : processOf pcs p c = q) :
    variableOf (udpMaxVbls pcs) tabs p c 0 false < udpMaxVbls pcs ↔ ∃ v, HasV pcs p v ∧ OwnsV pcs q v := by
  obtain ⟨pc, hpc⟩ : ∃ pc, pcs[p]? = some pc := ⟨_, List.getElem?_eq_getElem hp⟩
  rw [variableOf_eq ht hpc hne hc]
  simp only [Bool.false_eq_true, if_false]
  cases hr : (ownedBy pcs p q)[0]? with
  | none =>
    simp only [Option.map_none, Option.getD_none, Nat.lt_irrefl, false_iff]
    rintro ⟨v, h1, h2⟩
    have := (ownedBy_mem hpc).2 ⟨(hasV_iff hpc).1 h1, h2⟩
    rw [List.getElem?_eq_none_iff, Nat.le_zero, List.length_eq_zero_iff] at hr
    simp [hr] at this
  | some v =>
    obtain ⟨h1, h2⟩ := (ownedBy_mem hpc).1 (List.mem_of_getElem? hr)
    obtain ⟨a, ha, -⟩ := localIdx_spec h1
    simp only [Option.map_some, Option.getD_some]
    refine ⟨fun _ => ⟨v, (hasV_iff hpc).2 h1, h2⟩, fun _ => ?_⟩
    exact Nat.lt_of_lt_of_le (List.getElem?_eq_some_iff.1 ha).1 (vbls_le hpc)

/-- **C116**, sending: a process sends only variables that it owns. -/
theorem C116_sends_owned {pcs : List (List UAcc)} {tabs} (ht : udpTabs pcs = some tabs) {p q c i : ℕ} {pc : List UAcc}
    (hp : pcs[p]? = some pc) (hne : p ≠ q) (hc : processOf pcs p c = q)
    (hi : variableOf (udpMaxVbls pcs) tabs p c i true < udpMaxVbls pcs) :
    ∃ a, (udpVbls pc)[variableOf (udpMaxVbls pcs) tabs p c i true]? = some a ∧ OwnsV pcs p a.vbl := by
  rw [variableOf_eq ht hp hne hc] at hi ⊢
  simp only [if_true] at hi ⊢
  cases hr : (ownedBy pcs q p)[i]? with
  | none => rw [hr] at hi; exact absurd hi (Nat.lt_irrefl _)
  | some v =>
    have hlen : q < pcs.length := by
      by_contra hq
      rw [ownedBy, List.getElem?_eq_none (l := pcs) (i := q) (by omega)] at hr
      simp [udpVbls] at hr
    obtain ⟨pcq, hq⟩ : ∃ pc, pcs[q]? = some pc := ⟨_, List.getElem?_eq_getElem hlen⟩
    obtain ⟨-, h2⟩ := (ownedBy_mem hq).1 (List.mem_of_getElem? hr)
    obtain ⟨a, ha, hav⟩ := localIdx_spec ((hasV_iff hp).1 (owns_reads h2))
    exact ⟨a, ha, hav ▸ h2⟩

/-- **C116**, copying: let `q` be a neighbour of `p`, and let `p` copy the packet that `q` fills on its channel to `p`.
Every variable of `p` that `q` owns then has the value that it has at `q`; the other variables keep their values.
Missing for the full statement: processes that access a variable more than once, for which it is false
(`C116_stale_copy`). -/
theorem C116_copy_partial {pcs : List (List UAcc)} {tabs} (ht : udpTabs pcs = some tabs) {p q c d : ℕ}
    {pcp pcq : List UAcc} (hp : pcs[p]? = some pcp) (hq : pcs[q]? = some pcq) (hne : p ≠ q)
    (hc : processOf pcs p c = q) (hd : processOf pcs q d = p) (hnd : ((udpVbls pcp).map (·.vbl)).Nodup)
    (old valsq valsp : ℕ → ℕ) (j : ℕ) :
    (∀ a, (udpVbls pcp)[j]? = some a → OwnsV pcs q a.vbl → ∃ k b, (udpVbls pcq)[k]? = some b ∧ b.vbl = a.vbl ∧
      udpCopy (udpMaxVbls pcs) tabs q d p c old valsq valsp j = valsq k) ∧
    ((∀ a, (udpVbls pcp)[j]? = some a → ¬OwnsV pcs q a.vbl) →
      udpCopy (udpMaxVbls pcs) tabs q d p c old valsq valsp j = valsp j) := by
  have hlp : ∀ v ∈ ownedBy pcs p q, ∃ a, (udpVbls pcp)[localIdx (udpVbls pcp) v]? = some a ∧ a.vbl = v := fun v hv =>
    localIdx_spec ((ownedBy_mem hp).1 hv).1
  have hlq : ∀ v ∈ ownedBy pcs p q, ∃ a, (udpVbls pcq)[localIdx (udpVbls pcq) v]? = some a ∧ a.vbl = v := fun v hv =>
    localIdx_spec ((hasV_iff hq).1 (owns_reads ((ownedBy_mem hp).1 hv).2))
  have hlt : ∀ {r : ℕ} {pc : List UAcc} {k : ℕ} {a : UAcc}, pcs[r]? = some pc → (udpVbls pc)[k]? = some a →
      k < udpMaxVbls pcs := fun hr hk => Nat.lt_of_lt_of_le (List.getElem?_eq_some_iff.1 hk).1 (vbls_le hr)
  have hemit := emit_spec (udpMaxVbls pcs) valsq (fun i => variableOf (udpMaxVbls pcs) tabs q d i true)
    (ownedBy pcs p q) (localIdx (udpVbls pcq)) (udpMaxVbls pcs) 0 old
    (fun n v hn => by
      obtain ⟨a, ha, -⟩ := hlq v (List.mem_of_getElem? hn)
      refine ⟨?_, hlt hq ha⟩
      simp only [variableOf_eq ht hq hne.symm hd, if_true, Nat.zero_add, hn, Option.map_some, Option.getD_some])
    (by simp [variableOf_eq ht hq hne.symm hd])
    (ownedBy_length hp)
  have hmerge := merge_spec (udpMaxVbls pcs) (fun i => variableOf (udpMaxVbls pcs) tabs p c i false)
    (fun v => valsq (localIdx (udpVbls pcq) v)) (localIdx (udpVbls pcp))
    (emitLoop (fun i => variableOf (udpMaxVbls pcs) tabs q d i true) (udpMaxVbls pcs) valsq (udpMaxVbls pcs) 0 old)
    (ownedBy pcs p q) (udpMaxVbls pcs) 0 valsp
    (fun v hv w hw he => by
      obtain ⟨a, ha, rfl⟩ := hlp v hv
      obtain ⟨b, hb, rfl⟩ := hlp w hw
      rw [he, hb] at ha
      cases ha
      rfl)
    (fun n v hn => by
      obtain ⟨a, ha, -⟩ := hlp v (List.mem_of_getElem? hn)
      refine ⟨?_, hlt hp ha, hemit.1 n v hn⟩
      simp only [variableOf_eq ht hp hne hc, Bool.false_eq_true, if_false, Nat.zero_add, hn, Option.map_some,
        Option.getD_some])
    (by simp [variableOf_eq ht hp hne hc])
    (ownedBy_length hp)
  refine ⟨fun a ha ho => ?_, fun h => hmerge.2 j fun v hv hj => ?_⟩
  · have hv : a.vbl ∈ ownedBy pcs p q :=
      (ownedBy_mem hp).2 ⟨List.mem_map.2 ⟨a, List.mem_of_getElem? ha, rfl⟩, ho⟩
    obtain ⟨b, hb, hbv⟩ := hlq _ hv
    refine ⟨_, b, hb, hbv, ?_⟩
    have := hmerge.1 _ hv
    rwa [localIdx_nodup hnd ha] at this
  · obtain ⟨a, ha, rfl⟩ := hlp v hv
    rw [hj] at ha
    exact h a ha ((ownedBy_mem hp).1 hv).2

/-- On the ring of three, process 1 copies the variable of process 0 into its first variable, and process 0 copies
nothing from process 1. -/
example : ∃ tabs, udpTabs udpRing3 = some tabs ∧ processOf udpRing3 1 0 = 0 ∧ processOf udpRing3 0 1 = 1 ∧
    (List.range 2).map (udpCopy 2 tabs 0 1 1 0 (fun _ => 0) (fun i => 10 + i) (fun i => 20 + i)) = [11, 21] ∧
    (List.range 2).map (udpCopy 2 tabs 1 0 0 1 (fun _ => 0) (fun i => 10 + i) (fun i => 20 + i)) = [20, 21] := by
  refine ⟨_, rfl, ?_⟩
  decide

/-- On a ring of two processes that read both neighbours, the first variable of process 0 is owned by process 1 but
copying leaves it at its old value 20: both entries of the table are for the last access to the variable. -/
theorem C116_stale_copy : ∃ tabs, udpTabs udpRing2 = some tabs ∧ processOf udpRing2 0 0 = 1 ∧
    processOf udpRing2 1 0 = 0 ∧ udpOwning udpRing2 1 = 1 ∧ udpMaxVbls udpRing2 = 3 ∧
    (List.range 3).map (udpCopy 3 tabs 1 0 0 0 (fun _ => 0) (fun i => 10 + i) (fun i => 20 + i)) = [20, 21, 11] := by
  refine ⟨_, rfl, ?_⟩
  decide

/-- With two processes that write a variable, the second one never sends it: process 1 writes variable 0 but its only
channel has no entry for writing, and what it wrote is replaced by the value of process 0. -/
theorem C116_lost_write : ∃ tabs, udpTabs udpShared = some tabs ∧ WritesV udpShared 1 0 ∧
    processOf udpShared 1 0 = 0 ∧ processOf udpShared 1 1 = 1 ∧ udpMaxVbls udpShared = 2 ∧
    variableOf 2 tabs 1 0 0 true = 2 ∧
    (List.range 2).map (udpCopy 2 tabs 0 0 1 0 (fun _ => 0) (fun i => 10 + i) (fun i => 20 + i)) = [10, 21] := by
  refine ⟨_, rfl, ⟨_, rfl, ⟨0, 2, true, true⟩, by simp, rfl, rfl, rfl⟩, ?_⟩
  decide

end Verif.Props
