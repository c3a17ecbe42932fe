import Verif.Proofs.Udp
import Mathlib.Data.List.Basic

/-!
Executions of one process and of the network of the UDP implementation.
-/

set_option linter.unusedSectionVars false

namespace Verif.Proofs
open Verif.Model Verif.Spec

variable {P C S PV : Type} [DecidableEq C] [DecidableEq S] [DecidableEq P] [DecidableEq PV]

/-! One process. -/

theorem canAct_of_enabled (pr : UProto C S PV) (st : UState C S) :
    (updateEnabled pr st).1.enabled ≠ 0 → canAct pr (updateEnabled pr st).1.vals = true := by
  unfold updateEnabled
  simp only
  by_cases h1 : canAct pr (sanitize st).vals = true
  · rw [if_pos h1]
    split
    · intro _
      unfold cmdEnable
      rw [(seqAll_spec _ _).2.1]; exact h1
    · exact fun _ => h1
  · rw [if_neg h1]
    split
    · intro h
      unfold cmdDisable at h
      rw [(seqAll_spec _ _).1] at h
      exact absurd rfl h
    · next h2 => exact fun h => absurd h h2

theorem recvUpdate_canAct (pr : UProto C S PV) (c : C) (b : Bool) (st : UState C S) :
    (recvUpdate pr c b st).1.enabled ≠ 0 → canAct pr (recvUpdate pr c b st).1.vals = true := by
  have hu := canAct_of_enabled pr st
  unfold recvUpdate
  simp only
  split
  · exact hu
  · split
    · exact hu
    · exact hu

theorem recvPrio_off (pr : UProto C S PV) (c : C) (pkt : UPkt PV) (st : UState C S) (b r : Bool)
    (h : st.enabled = 0) : (recvPrio pr c pkt st b r).1.enabled = 0 := by
  unfold recvPrio
  simp only
  rw [if_neg (by simpa using h)]
  split
  · split
    · exact h
    · split
      · exact h
      · exact h
  · exact h

theorem recv_canAct (pr : UProto C S PV) (fuel : ℕ) (c : C) (pkt : UPkt PV) (st0 : UState C S) (o : UOut C S PV)
    (hc : c ∈ pr.chs) (hh0 : ∀ c ∈ pr.chs, (st0.chans c).log.head? = some (st0.chans c).seq)
    (h : handleRecv pr fuel c pkt st0 = some o) (s : S) (hs : o.acted = some s) : pr.act s ≠ s := by
  unfold handleRecv at h
  split at h
  · rw [Option.some.injEq] at h
    subst h
    unfold recvStale at hs
    simp only at hs
    split at hs <;> simp at hs
  · simp only at h
    obtain ⟨a1, _, _, _⟩ := recvValues_spec pr c pkt st0 hh0
    obtain ⟨b1, _, _, _⟩ := recvUpdate_spec a1 c (decide (pr.merge c pkt.values st0.vals ≠ st0.vals))
    have b5 := recvUpdate_canAct pr c (decide (pr.merge c pkt.values st0.vals ≠ st0.vals))
      (recvValues pr c pkt st0)
    generalize recvUpdate pr c (decide (pr.merge c pkt.values st0.vals ≠ st0.vals))
      (recvValues pr c pkt st0) = u at h b1 b5
    obtain ⟨c1, c2, c3, _, _⟩ := recvAdj_spec b1 c pkt
    generalize recvAdj c pkt u.1 = st3 at h c1 c2 c3
    obtain ⟨_, d2, _, _, _⟩ := recvPrio_spec c1 c hc pkt u.2.1 (recvReply c pkt st3 u.2.2)
    have d6 := recvPrio_off pr c pkt st3 u.2.1 (recvReply c pkt st3 u.2.2)
    generalize recvPrio pr c pkt st3 u.2.1 (recvReply c pkt st3 u.2.2) = w at h d2 d6
    have hb : ∀ (s5 : UState C S) (b r : Bool) (a : Option S), (recvSend pr c s5 b r a).acted = a := by
      intro s5 b r a
      unfold recvSend
      split
      · rfl
      · split <;> rfl
    unfold recvAct at h
    by_cases hact : w.1.enabled ≠ 0 ∧ allAck pr w.1 = true
    · rw [if_pos hact] at h
      cases hal : actLoop pr fuel w.1.vals with
      | none => rw [hal] at h; simp at h
      | some v =>
        rw [hal] at h
        simp only [Option.some.injEq] at h
        rw [← h, hb] at hs
        simp only [Option.some.injEq] at hs
        rw [← hs, d2, c2]
        have := b5 (fun h0 => hact.1 (d6 (c3.trans h0)))
        simpa [canAct] using this
    · rw [if_neg hact] at h
      simp only [Option.some.injEq] at h
      rw [← h, hb] at hs
      simp at hs

/-- A process that acts changes its values. -/
theorem acted_canAct (pr : UProto C S PV) (fuel : ℕ) (e : UEv C PV) (st : UState C S) (o : UOut C S PV)
    (hown : ∀ c pkt, e = .recv c pkt → c ∈ pr.chs)
    (hh : ∀ c ∈ pr.chs, (st.chans c).log.head? = some (st.chans c).seq)
    (h : ustep pr fuel e st = some o) (s : S) (hs : o.acted = some s) : pr.act s ≠ s := by
  unfold ustep at h
  cases e with
  | timeout =>
    simp only [Option.some.injEq] at h
    subst h
    simp [handleTimeout] at hs
  | recv c pkt =>
    exact recv_canAct pr fuel c pkt ⟨st.enabled, pr.fix st.vals, st.chans, st.tape⟩ o (hown c pkt rfl) hh h s hs

theorem run_head {pr : UProto C S PV} {fuel N : ℕ} {ev : ℕ → UEv C PV} {σ : ℕ → UState C S}
    {out : ℕ → UOut C S PV} (h : IsURun pr fuel N ev σ out)
    (h0 : ∀ c ∈ pr.chs, ((σ 0).chans c).log.head? = some ((σ 0).chans c).seq) :
    ∀ n ≤ N, ∀ c ∈ pr.chs, ((σ n).chans c).log.head? = some ((σ n).chans c).seq := by
  intro n
  induction n with
  | zero => exact fun _ => h0
  | succ n ih =>
    intro hn
    obtain ⟨rcv, stale, hc, _, _⟩ := ustep_contract pr fuel (ev n) (σ n) (out n) (h.own n (by omega))
      (ih (by omega)) (h.step n (by omega))
    rw [h.next n (by omega)]
    exact hc.mid.head

theorem head_eq_of_log {ch ch' : UChan} (h : ch.log.head? = some ch.seq) (h' : ch'.log.head? = some ch'.seq)
    (he : ch'.log = ch.log) : ch'.seq = ch.seq := by
  rw [he, h] at h'
  exact (Option.some.inj h').symm

/-- Every acknowledgement of a waiting process comes from a packet, or was there at the start. -/
theorem run_ack {pr : UProto C S PV} {fuel N : ℕ} {ev : ℕ → UEv C PV} {σ : ℕ → UState C S}
    {out : ℕ → UOut C S PV} (h : IsURun pr fuel N ev σ out)
    (h0 : ∀ c ∈ pr.chs, ((σ 0).chans c).log.head? = some ((σ 0).chans c).seq) (c : C) (hc : c ∈ pr.chs) :
    ∀ n ≤ N, (σ n).enabled ≠ 0 → ((σ n).chans c).ack = true →
      (∃ m < n, ∃ pkt, ev m = .recv c pkt ∧ pkt.dst = ((σ n).chans c).seq ∧ pkt.enabled < (σ n).enabled ∧
        ∀ j, m ≤ j → j ≤ n → (σ j).enabled = (σ n).enabled ∧ ((σ j).chans c).seq = ((σ n).chans c).seq ∧
          ((σ j).chans c).log = ((σ n).chans c).log) ∨
      (((σ 0).chans c).ack = true ∧ (σ 0).enabled = (σ n).enabled) := by
  intro n
  induction n with
  | zero => exact fun _ he ha => Or.inr ⟨ha, rfl⟩
  | succ n ih =>
    intro hn he ha
    obtain ⟨rcv, stale, hcon, hr, _⟩ := ustep_contract pr fuel (ev n) (σ n) (out n) (h.own n (by omega))
      (run_head h h0 n (by omega)) (h.step n (by omega))
    have hmid := hcon.mid
    rw [← h.next n (by omega)] at hmid
    have hlog : ((σ (n + 1)).chans c).log = ((σ n).chans c).log := by
      by_contra hne
      have := hmid.fresh he c hc hne
      rw [ha] at this
      simp at this
    obtain ⟨ken, kack⟩ := hmid.keep he c hc hlog
    have ken : (σ (n + 1)).enabled = (σ n).enabled := ken
    have hseq : ((σ (n + 1)).chans c).seq = ((σ n).chans c).seq :=
      head_eq_of_log (run_head h h0 n (by omega) c hc) (run_head h h0 (n + 1) hn c hc) hlog
    rcases kack ha with hack | ⟨pkt, hp, hlt⟩
    · rcases ih (by omega) (by rw [← ken]; exact he) hack with ⟨m, hm, pkt, k1, k2, k3, k4⟩ | ⟨k1, k2⟩
      · refine Or.inl ⟨m, by omega, pkt, k1, by rw [hseq]; exact k2, by rw [ken]; exact k3, fun j hj hj' => ?_⟩
        rcases Nat.lt_or_ge n j with hlt | hge
        · have : j = n + 1 := by omega
          subst this; exact ⟨rfl, rfl, rfl⟩
        · rw [ken, hseq, hlog]; exact k4 j hj hge
      · exact Or.inr ⟨k1, by rw [ken]; exact k2⟩
    · obtain ⟨q1, q2⟩ := hr c pkt hp
      refine Or.inl ⟨n, by omega, pkt, q1, by rw [hseq]; exact q2, by rw [ken]; exact hlt, fun j hj hj' => ?_⟩
      rcases Nat.lt_or_ge n j with hlt | hge
      · have : j = n + 1 := by omega
        subst this; exact ⟨rfl, rfl, rfl⟩
      · have : j = n := by omega
        subst this; exact ⟨ken.symm, hseq.symm, hlog.symm⟩

/-! The network. -/

/-- An acknowledgement for the waiting process at this end exists, perhaps still in a packet. -/
def Avail (T : UTopo P C S PV) (N : UNet P C S PV) (c : C) : Prop :=
  (UNet.st T N c).enabled ≠ 0 ∧ ((UNet.ch T N c).ack = true ∨
    ∃ m, (T.opp c, m) ∈ N.sent ∧ m.dst = (UNet.ch T N c).seq ∧ m.enabled < (UNet.st T N c).enabled)

/-- The invariant about permissions. -/
structure NetInv (T : UTopo P C S PV) (N : UNet P C S PV) : Prop where
  lt : ∀ p, (N.procs p).enabled < allOnes
  head : ∀ c, (UNet.ch T N c).log.head? = some (UNet.ch T N c).seq
  adjLog : ∀ c, (UNet.ch T N c).adj ∈ (UNet.ch T N (T.opp c)).log
  srcLog : ∀ c m, (c, m) ∈ N.sent → m.src ∈ (UNet.ch T N c).log ∧ m.dst ∈ (UNet.ch T N (T.opp c)).log
  tag : ∀ c m, (UNet.st T N c).enabled ≠ 0 → (c, m) ∈ N.sent → m.src = (UNet.ch T N c).seq →
    m.enabled = (UNet.st T N c).enabled ∨ m.enabled = allOnes
  me : ∀ c, ¬ (Avail T N c ∧ Avail T N (T.opp c))
  low : ∀ c, (UNet.st T N (T.opp c)).enabled ≠ 0 → (UNet.ch T N c).adj = (UNet.ch T N (T.opp c)).seq →
    (UNet.st T N c).enabled < (UNet.st T N (T.opp c)).enabled → ¬ Avail T N c

/-- The invariant about values. -/
structure ValInv (T : UTopo P C S PV) (view : C → S → PV) (N : UNet P C S PV) : Prop where
  same : ∀ c m m', (c, m) ∈ N.sent → (c, m') ∈ N.sent → m.src = m'.src → m.values = m'.values
  cur : ∀ c m, (c, m) ∈ N.sent → m.src = (UNet.ch T N c).seq →
    m.values = (T.proto (T.owner c)).emit c (UNet.st T N c).vals
  view : ∀ c, (T.proto (T.owner c)).reads c = true → (UNet.st T N c).enabled ≠ 0 →
    (UNet.ch T N c).ack = true →
    view c (UNet.st T N c).vals = (T.proto (T.owner (T.opp c))).emit (T.opp c) (UNet.st T N (T.opp c)).vals ∧
    ∀ m, (T.opp c, m) ∈ N.sent → m.src = (UNet.ch T N c).adj →
      m.values = (T.proto (T.owner (T.opp c))).emit (T.opp c) (UNet.st T N (T.opp c)).vals
  pkts : ∀ c m, (T.proto (T.owner c)).reads c = true → (UNet.st T N c).enabled ≠ 0 →
    (T.opp c, m) ∈ N.sent → m.dst = (UNet.ch T N c).seq → m.enabled < (UNet.st T N c).enabled →
    m.values = (T.proto (T.owner (T.opp c))).emit (T.opp c) (UNet.st T N (T.opp c)).vals

theorem netInv_start {T : UTopo P C S PV} {N : UNet P C S PV} (h : CleanStart T N) : NetInv T N := by
  have na : ∀ c, ¬ Avail T N c := fun c ⟨h1, h2⟩ => by
    rcases h2 with h2 | ⟨m, hm, _⟩
    · rw [h.ack c h1] at h2; simp at h2
    · rw [h.sent] at hm; simp at hm
  refine ⟨h.lt, h.head, h.adj, fun c m hm => ?_, fun c m _ hm => ?_, fun c hc => na c hc.1, fun c _ _ _ => na c⟩
  · rw [h.sent] at hm; simp at hm
  · rw [h.sent] at hm; simp at hm

theorem valInv_start {T : UTopo P C S PV} {view : C → S → PV} {N : UNet P C S PV} (h : CleanStart T N) :
    ValInv T view N := by
  refine ⟨fun c m m' hm => ?_, fun c m hm => ?_, fun c _ he ha => ?_, fun c m _ _ hm => ?_⟩
  · rw [h.sent] at hm; simp at hm
  · rw [h.sent] at hm; simp at hm
  · rw [h.ack c he] at ha; simp at ha
  · rw [h.sent] at hm; simp at hm

/-- What is known about one event of the network: process `p` makes a step with the contract. -/
structure Ev (T : UTopo P C S PV) (N N' : UNet P C S PV) (p : P) (o : UOut C S PV)
    (rcv stale : Option (C × UPkt PV)) : Prop where
  con : Contract (T.proto p) ⟨(N.procs p).enabled, (T.proto p).fix (N.procs p).vals, (N.procs p).chans,
    (N.procs p).tape⟩ rcv stale o
  net : N' = N.put p o
  rcv : ∀ c pkt, rcv = some (c, pkt) → T.owner c = p ∧ (T.opp c, pkt) ∈ N.sent ∧
    pkt.dst = (UNet.ch T N c).seq
  stale : ∀ c pkt, stale = some (c, pkt) → T.owner c = p ∧ (T.opp c, pkt) ∈ N.sent

theorem nstep_ev {T : UTopo P C S PV} (hT : GoodTopo T) {fuel : ℕ} {e : NEv P C PV} {N N' : UNet P C S PV}
    {o : UOut C S PV} (hh : ∀ c, (UNet.ch T N c).log.head? = some (UNet.ch T N c).seq)
    (h : nstep T fuel e N = some (N', o)) :
    ∃ p rcv stale, Ev T N N' p o rcv stale ∧ (∀ c pkt, rcv = some (c, pkt) → e = .recv c pkt) := by
  have hh' : ∀ p, ∀ c ∈ (T.proto p).chs, ((N.procs p).chans c).log.head? = some ((N.procs p).chans c).seq := by
    intro p c hc
    have := (hT.chs p c).1 hc
    have h2 := hh c
    unfold UNet.ch UNet.st at h2
    rw [this] at h2
    exact h2
  cases e with
  | timeout p =>
    unfold nstep at h
    simp only at h
    cases hu : ustep (T.proto p) fuel .timeout (N.procs p) with
    | none => rw [hu] at h; simp at h
    | some o' =>
      rw [hu] at h
      simp only [Option.some.injEq, Prod.mk.injEq] at h
      obtain ⟨h1, h2⟩ := h
      subst h2
      obtain ⟨rcv, stale, hc, k1, k2, _⟩ := ustep_contract _ _ _ _ _ (fun c pkt h => by simp at h) (hh' p) hu
      refine ⟨p, rcv, stale, ⟨hc, h1.symm, fun c pkt hr => ?_, fun c pkt hr => ?_⟩, fun c pkt hr => ?_⟩
      · have := (k1 c pkt hr).1; simp at this
      · have := (k2 c pkt hr).1; simp at this
      · have := (k1 c pkt hr).1; simp at this
  | recv c pkt =>
    unfold nstep at h
    simp only at h
    split at h
    · next hm =>
      cases hu : ustep (T.proto (T.owner c)) fuel (.recv c pkt) (N.procs (T.owner c)) with
      | none => rw [hu] at h; simp at h
      | some o' =>
        rw [hu] at h
        simp only [Option.some.injEq, Prod.mk.injEq] at h
        obtain ⟨h1, h2⟩ := h
        subst h2
        obtain ⟨rcv, stale, hc, k1, k2, _⟩ := ustep_contract _ _ _ _ _
          (fun c' pkt' h => by cases h; exact (hT.chs _ _).2 rfl) (hh' (T.owner c)) hu
        refine ⟨T.owner c, rcv, stale, ⟨hc, h1.symm, fun c' pkt' hr => ?_, fun c' pkt' hr => ?_⟩,
          fun c' pkt' hr => ?_⟩
        · obtain ⟨q1, q2⟩ := k1 c' pkt' hr
          cases q1
          exact ⟨rfl, hm, q2⟩
        · obtain ⟨q1, q2⟩ := k2 c' pkt' hr
          cases q1
          exact ⟨rfl, hm⟩
        · obtain ⟨q1, _⟩ := k1 c' pkt' hr
          cases q1
          rfl
    · simp at h

section step

variable {T : UTopo P C S PV} {N N' : UNet P C S PV} {p : P} {o : UOut C S PV}
  {rcv stale : Option (C × UPkt PV)}

theorem Ev.st_own (E : Ev T N N' p o rcv stale) {c : C} (h : T.owner c = p) : UNet.st T N' c = o.st := by
  rw [E.net]; unfold UNet.st UNet.put; subst h; simp

theorem Ev.st_other (E : Ev T N N' p o rcv stale) {c : C} (h : T.owner c ≠ p) :
    UNet.st T N' c = UNet.st T N c := by
  rw [E.net]; unfold UNet.st UNet.put; simp only; rw [Function.update_of_ne h]

theorem Ev.ch_own (E : Ev T N N' p o rcv stale) {c : C} (h : T.owner c = p) :
    UNet.ch T N' c = o.st.chans c := by
  unfold UNet.ch; rw [E.st_own h]

theorem Ev.ch_other (E : Ev T N N' p o rcv stale) {c : C} (h : T.owner c ≠ p) :
    UNet.ch T N' c = UNet.ch T N c := by
  unfold UNet.ch; rw [E.st_other h]

theorem Ev.sent_iff (E : Ev T N N' p o rcv stale) (c : C) (m : UPkt PV) :
    (c, m) ∈ N'.sent ↔ (c, m) ∈ o.sent ∨ (c, m) ∈ N.sent := by
  rw [E.net]; unfold UNet.put; simp

theorem Ev.sent_own (hT : GoodTopo T) (E : Ev T N N' p o rcv stale) {c : C} {m : UPkt PV}
    (h : (c, m) ∈ o.sent) : T.owner c = p :=
  (hT.chs p c).1 (E.con.sent c m h).1

theorem Ev.sent_other (hT : GoodTopo T) (E : Ev T N N' p o rcv stale) {c : C} (h : T.owner c ≠ p)
    {m : UPkt PV} (hm : (c, m) ∈ N'.sent) : (c, m) ∈ N.sent := by
  rcases (E.sent_iff c m).1 hm with hm | hm
  · exact absurd (E.sent_own hT hm) h
  · exact hm

/-- The state before, seen from the own channel end. -/
theorem own_st {c : C} (h : T.owner c = p) : N.procs p = UNet.st T N c := by subst h; rfl

theorem Ev.log_ext (hT : GoodTopo T) (E : Ev T N N' p o rcv stale) (c : C) :
    ∃ l, (UNet.ch T N' c).log = l ++ (UNet.ch T N c).log := by
  by_cases h : T.owner c = p
  · obtain ⟨l, hl⟩ := E.con.mid.ext c ((hT.chs p c).2 h)
    refine ⟨l, ?_⟩
    rw [E.ch_own h, hl]
    simp only
    rw [own_st h]; rfl
  · exact ⟨[], by rw [E.ch_other h]; rfl⟩

/-- If the new sequence number was used before, it has not changed. -/
theorem Ev.log_same (hT : GoodTopo T) (E : Ev T N N' p o rcv stale)
    (hh' : ∀ c, (UNet.ch T N' c).log.head? = some (UNet.ch T N' c).seq) (hn : NoReuse T N') (c : C)
    (h : (UNet.ch T N' c).seq ∈ (UNet.ch T N c).log) : (UNet.ch T N' c).log = (UNet.ch T N c).log := by
  obtain ⟨l, hl⟩ := E.log_ext hT c
  have h1 := hh' c
  have h2 := hn c
  rw [hl] at h1 h2 ⊢
  cases l with
  | nil => rfl
  | cons a l =>
    simp only [List.cons_append, List.head?_cons, Option.some.injEq] at h1
    rw [← h1] at h
    simp only [List.cons_append, List.nodup_cons, List.mem_append, not_or] at h2
    exact absurd h h2.1.2

/-- A waiting process whose sequence number has not changed had the same priority before. -/
theorem Ev.keep (hT : GoodTopo T) (E : Ev T N N' p o rcv stale) {c : C} (h : T.owner c = p)
    (he : (UNet.st T N' c).enabled ≠ 0) (hl : (UNet.ch T N' c).log = (UNet.ch T N c).log) :
    (UNet.st T N' c).enabled = (UNet.st T N c).enabled ∧ ((UNet.ch T N' c).ack = true →
      (UNet.ch T N c).ack = true ∨ ∃ pkt, rcv = some (c, pkt) ∧ pkt.enabled < (UNet.st T N c).enabled) := by
  rw [E.st_own h] at he ⊢
  rw [E.ch_own h] at hl ⊢
  have := E.con.mid.keep he c ((hT.chs p c).2 h) (by
    simp only; rw [own_st h]; exact hl)
  simp only at this
  rw [own_st h] at this
  exact this

theorem Ev.head (hT : GoodTopo T) (E : Ev T N N' p o rcv stale)
    (hh : ∀ c, (UNet.ch T N c).log.head? = some (UNet.ch T N c).seq) (c : C) :
    (UNet.ch T N' c).log.head? = some (UNet.ch T N' c).seq := by
  by_cases h : T.owner c = p
  · rw [E.ch_own h]; exact E.con.mid.head c ((hT.chs p c).2 h)
  · rw [E.ch_other h]; exact hh c

theorem Ev.seq_same (hT : GoodTopo T) (E : Ev T N N' p o rcv stale)
    (hh : ∀ c, (UNet.ch T N c).log.head? = some (UNet.ch T N c).seq) {c : C}
    (hl : (UNet.ch T N' c).log = (UNet.ch T N c).log) : (UNet.ch T N' c).seq = (UNet.ch T N c).seq :=
  head_eq_of_log (hh c) (E.head hT hh c) hl

/-- Where an acknowledgement for the process that makes the step comes from. -/
theorem Ev.shrink (hT : GoodTopo T) (I : NetInv T N) (E : Ev T N N' p o rcv stale) (hn : NoReuse T N') {c : C}
    (h : T.owner c = p) (ha : Avail T N' c) :
    (UNet.ch T N' c).log = (UNet.ch T N c).log ∧ (UNet.ch T N' c).seq = (UNet.ch T N c).seq ∧
    (UNet.st T N' c).enabled = (UNet.st T N c).enabled ∧ Avail T N c := by
  have hopp : T.owner (T.opp c) ≠ p := fun h' => hT.opp_ne c (h'.trans h.symm)
  have hlog : (UNet.ch T N' c).log = (UNet.ch T N c).log := by
    rcases ha.2 with hack | ⟨m, hm, hd, _⟩
    · by_contra hne
      have he := ha.1
      rw [E.st_own h] at he
      rw [E.ch_own h] at hne hack
      have := E.con.mid.fresh he c ((hT.chs p c).2 h) (by simp only; rw [own_st h]; exact hne)
      rw [hack] at this
      simp at this
    · refine E.log_same hT (E.head hT I.head) hn c ?_
      rw [← hd]
      have := (I.srcLog _ _ (E.sent_other hT hopp hm)).2
      rw [hT.opp_opp] at this
      exact this
  have hseq := E.seq_same hT I.head hlog
  obtain ⟨k1, k2⟩ := E.keep hT h ha.1 hlog
  refine ⟨hlog, hseq, k1, ?_, ?_⟩
  · rw [← k1]; exact ha.1
  · rcases ha.2 with hack | ⟨m, hm, hd, hlt⟩
    · rcases k2 hack with hack | ⟨pkt, hp, hlt⟩
      · exact Or.inl hack
      · obtain ⟨_, q2, q3⟩ := E.rcv c pkt hp
        exact Or.inr ⟨pkt, q2, q3, hlt⟩
    · exact Or.inr ⟨m, E.sent_other hT hopp hm, by rw [← hseq]; exact hd, by rw [← k1]; exact hlt⟩

/-- The restriction on packets with the flag. -/
def Tame (T : UTopo P C S PV) (N : UNet P C S PV) (rcv : Option (C × UPkt PV)) : Prop :=
  ∀ c pkt, rcv = some (c, pkt) → (UNet.st T N c).enabled ≠ 0 → pkt.enabled = allOnes →
    pkt.src = (UNet.ch T N c).adj

/-- A process with permission does not know the sequence number of a neighbour with a higher priority. -/
theorem Ev.low_own (hT : GoodTopo T) (I : NetInv T N) (E : Ev T N N' p o rcv stale) (hn : NoReuse T N')
    (ht : Tame T N rcv) {c : C} (h : T.owner c = p) (hq : (UNet.st T N (T.opp c)).enabled ≠ 0)
    (hadj : (UNet.ch T N' c).adj = (UNet.ch T N (T.opp c)).seq)
    (hlt : (UNet.st T N' c).enabled < (UNet.st T N (T.opp c)).enabled) : ¬ Avail T N' c := by
  intro ha
  obtain ⟨hlog, hseq, hen, ha0⟩ := E.shrink hT I hn h ha
  rw [hen] at hlt
  refine I.low c hq ?_ hlt ha0
  by_cases hr : ∃ pkt, rcv = some (c, pkt)
  · obtain ⟨pkt, hr⟩ := hr
    obtain ⟨a1, a2⟩ := E.con.adjNew c pkt hr
    have he := ha.1
    rw [E.st_own h] at he
    have hl := hlog
    rw [E.ch_own h] at hl hadj
    have a3 := a2 he (by simp only; rw [own_st h]; exact hl)
    simp only at a3
    rw [own_st h] at a3
    obtain ⟨_, q2, _⟩ := E.rcv c pkt hr
    have hsrc : pkt.src = (UNet.ch T N (T.opp c)).seq := a1.symm.trans hadj
    have htag := I.tag (T.opp c) pkt hq q2 hsrc
    have hmax : pkt.enabled = allOnes := by
      rcases a3 with a3 | a3
      · rcases htag with t | t
        · omega
        · exact t
      · exact a3
    rw [← ht c pkt hr ha0.1 hmax, hsrc]
  · have := E.con.adj c (fun pkt hp => hr ⟨pkt, hp⟩)
    rw [E.ch_own h, this] at hadj
    simp only at hadj
    rw [own_st h] at hadj
    exact hadj

/-- A new packet of the process that makes the step is no acknowledgement if that process has permission. -/
theorem Ev.me_own (hT : GoodTopo T) (I : NetInv T N) (E : Ev T N N' p o rcv stale) (hn : NoReuse T N')
    (ht : Tame T N rcv) {c : C} (h : T.owner c = p) : ¬ (Avail T N' c ∧ Avail T N' (T.opp c)) := by
  rintro ⟨ha, hb⟩
  have hopp : T.owner (T.opp c) ≠ p := fun h' => hT.opp_ne c (h'.trans h.symm)
  obtain ⟨hlog, hseq, hen, ha0⟩ := E.shrink hT I hn h ha
  unfold Avail at hb
  rw [E.st_other hopp, E.ch_other hopp, hT.opp_opp] at hb
  obtain ⟨hq, hb⟩ := hb
  rcases hb with hack | ⟨m, hm, hd, hlt⟩
  · exact I.me c ⟨ha0, hq, Or.inl hack⟩
  rcases (E.sent_iff c m).1 hm with hnew | hold
  · obtain ⟨_, s2, s3, s4⟩ := E.con.sent c m hnew
    have hqlt : (UNet.st T N (T.opp c)).enabled < allOnes := I.lt _
    have hp0 := ha.1
    rw [E.st_own h] at hp0
    rcases s4 with ⟨t1, t2⟩ | ⟨pkt, t1, t2, t3⟩
    · have hme : m.enabled = (UNet.st T N' c).enabled := by
        rw [E.st_own h]
        rcases t2 with t2 | t2
        · exact t2
        · omega
      refine E.low_own hT I hn ht h hq ?_ (hme ▸ hlt) ha
      rw [E.ch_own h, ← t1, hd]
    · obtain ⟨_, q2⟩ := E.stale c pkt t1
      have htag := I.tag (T.opp c) pkt hq q2 (t2.symm.trans hd)
      rcases t3 with t3 | ⟨t3, t4⟩
      · omega
      · rcases htag with t | t <;> omega
  · exact I.me c ⟨ha0, hq, Or.inr ⟨m, by rw [hT.opp_opp]; exact hold, hd, hlt⟩⟩

theorem netInv_step (hT : GoodTopo T) (I : NetInv T N) (E : Ev T N N' p o rcv stale) (hn : NoReuse T N')
    (ht : Tame T N rcv) : NetInv T N' := by
  have hext := E.log_ext hT
  have mono : ∀ c s, s ∈ (UNet.ch T N c).log → s ∈ (UNet.ch T N' c).log := fun c s hs => by
    obtain ⟨l, hl⟩ := hext c
    rw [hl]; exact List.mem_append_right _ hs
  have hhead := E.head hT I.head
  have seqmem : ∀ c, (UNet.ch T N' c).seq ∈ (UNet.ch T N' c).log := fun c => List.mem_of_head? (hhead c)
  have adjLog : ∀ c, (UNet.ch T N' c).adj ∈ (UNet.ch T N' (T.opp c)).log := fun c => by
    by_cases h : T.owner c = p
    · by_cases hr : ∃ pkt, rcv = some (c, pkt)
      · obtain ⟨pkt, hr⟩ := hr
        rw [E.ch_own h, (E.con.adjNew c pkt hr).1]
        exact mono _ _ (I.srcLog _ _ (E.rcv c pkt hr).2.1).1
      · have := E.con.adj c (fun pkt hp => hr ⟨pkt, hp⟩)
        simp only at this
        rw [own_st h] at this
        rw [E.ch_own h, this]
        exact mono _ _ (I.adjLog c)
    · rw [E.ch_other h]; exact mono _ _ (I.adjLog c)
  refine ⟨fun q => ?_, hhead, adjLog, fun c m hm => ?_, fun c m he hm hs => ?_, fun c => ?_, fun c hq hadj hlt => ?_⟩
  · rw [E.net]
    unfold UNet.put
    simp only
    by_cases hqp : q = p
    · subst hqp; rw [Function.update_self]; exact E.con.lt (I.lt q)
    · rw [Function.update_of_ne hqp]; exact I.lt q
  · rcases (E.sent_iff c m).1 hm with hnew | hold
    · have h := E.sent_own hT hnew
      obtain ⟨_, s2, _, s4⟩ := E.con.sent c m hnew
      refine ⟨?_, ?_⟩
      · rw [s2, ← E.ch_own h]; exact seqmem c
      · rcases s4 with ⟨t1, _⟩ | ⟨pkt, t1, t2, _⟩
        · rw [t1, ← E.ch_own h]; exact adjLog c
        · rw [t2]; exact mono _ _ (I.srcLog _ _ (E.stale c pkt t1).2).1
    · exact ⟨mono _ _ (I.srcLog c m hold).1, mono _ _ (I.srcLog c m hold).2⟩
  · rcases (E.sent_iff c m).1 hm with hnew | hold
    · have h := E.sent_own hT hnew
      obtain ⟨_, _, _, s4⟩ := E.con.sent c m hnew
      rw [E.st_own h]
      rcases s4 with ⟨_, t⟩ | ⟨_, _, _, t | t⟩
      · exact t
      · exact Or.inr t
      · exact Or.inl t.1
    · by_cases h : T.owner c = p
      · have hl := E.log_same hT hhead hn c (by rw [← hs]; exact (I.srcLog c m hold).1)
        have hk := (E.keep hT h he hl).1
        rw [hk] at he ⊢
        exact I.tag c m he hold (by rw [hs, E.seq_same hT I.head hl])
      · rw [E.st_other h] at he ⊢
        rw [E.ch_other h] at hs
        exact I.tag c m he hold hs
  · by_cases h : T.owner c = p
    · exact E.me_own hT I hn ht h
    · by_cases h' : T.owner (T.opp c) = p
      · rintro ⟨ha, hb⟩
        refine E.me_own hT I hn ht h' ⟨hb, ?_⟩
        rw [hT.opp_opp]; exact ha
      · rintro ⟨ha, hb⟩
        have key : ∀ d, T.owner d ≠ p → T.owner (T.opp d) ≠ p → Avail T N' d → Avail T N d := by
          intro d hd hd' hA
          unfold Avail at hA ⊢
          rw [E.st_other hd, E.ch_other hd] at hA
          refine ⟨hA.1, hA.2.imp id ?_⟩
          rintro ⟨m, m1, m2⟩
          exact ⟨m, E.sent_other hT hd' m1, m2⟩
        exact I.me c ⟨key c h h' ha, key _ h' (by rw [hT.opp_opp]; exact h) hb⟩
  · by_cases h : T.owner c = p
    · have hopp : T.owner (T.opp c) ≠ p := fun h' => hT.opp_ne c (h'.trans h.symm)
      rw [E.st_other hopp] at hq hlt
      rw [E.ch_other hopp] at hadj
      exact E.low_own hT I hn ht h hq hadj hlt
    · rw [E.st_other h] at hlt
      rw [E.ch_other h] at hadj
      intro ha
      unfold Avail at ha
      rw [E.st_other h, E.ch_other h] at ha
      by_cases h' : T.owner (T.opp c) = p
      · have hl := E.log_same hT hhead hn (T.opp c) (by rw [← hadj]; exact I.adjLog c)
        have hk := (E.keep hT h' hq hl).1
        have hs := E.seq_same hT I.head hl
        rw [hk] at hq hlt
        rw [hs] at hadj
        refine I.low c hq hadj hlt ⟨ha.1, ha.2.imp id ?_⟩
        rintro ⟨m, m1, m2, m3⟩
        rcases (E.sent_iff _ m).1 m1 with hnew | hold
        · exfalso
          obtain ⟨_, _, _, s4⟩ := E.con.sent _ m hnew
          have hen : m.enabled = o.st.enabled ∨ m.enabled = allOnes := by
            rcases s4 with ⟨_, t⟩ | ⟨_, _, _, t | t⟩
            · exact t
            · exact Or.inr t
            · exact Or.inl t.1
          rw [← E.st_own h', hk] at hen
          have := I.lt (T.owner c)
          have e : (N.procs (T.owner c)).enabled = (UNet.st T N c).enabled := rfl
          omega
        · exact ⟨m, hold, m2, m3⟩
      · rw [E.st_other h'] at hq hlt
        rw [E.ch_other h'] at hadj
        refine I.low c hq hadj hlt ⟨ha.1, ha.2.imp id ?_⟩
        rintro ⟨m, m1, m2⟩
        exact ⟨m, E.sent_other hT h' m1, m2⟩

/-- Acting needs permission from the neighbours that are read. -/
theorem Ev.acted_avail (hT : GoodTopo T) (E : Ev T N N' p o rcv stale) {s : S} (hs : o.acted = some s) {c : C}
    (h : T.owner c = p) (hr : (T.proto p).reads c = true) : Avail T N c := by
  obtain ⟨_, _, _, _, _, k⟩ := E.con.acted s hs
  obtain ⟨k1, k2, _⟩ := k c ((hT.chs p c).2 h) hr
  simp only at k1 k2
  rw [own_st h] at k1 k2
  refine ⟨k1, k2.imp id ?_⟩
  rintro ⟨pkt, q1, q2⟩
  obtain ⟨_, w2, w3⟩ := E.rcv c pkt q1
  exact ⟨pkt, w2, w3, q2⟩

theorem withPkt_emit {view : C → S → PV} (hV : ViewLaws T view) (q : P) (r : Option (C × UPkt PV)) (s : S)
    (c : C) : (T.proto q).emit c (withPkt (T.proto q) r s) = (T.proto q).emit c s := by
  rcases r with _ | ⟨d, pkt⟩
  · rfl
  · exact hV.merge_emit q d c pkt.values s

theorem iterate_view {view : C → S → PV} (hV : ViewLaws T view) (q : P) (c : C) (s : S) (k : ℕ) :
    view c ((T.proto q).act^[k] s) = view c s := by
  induction k generalizing s with
  | zero => rfl
  | succ k ih => rw [Function.iterate_succ_apply, ih, hV.act]

/-- The values of the process that makes the step, without acting. -/
theorem Ev.vals_own {view : C → S → PV} (hV : ViewLaws T view) (E : Ev T N N' p o rcv stale)
    (ha : o.acted = none) {c : C} (h : T.owner c = p) :
    (UNet.st T N' c).vals = withPkt (T.proto p) rcv (UNet.st T N c).vals := by
  rw [E.st_own h, E.con.vals ha]
  simp only
  rw [hV.fix, own_st h]

/-- The view of a channel whose acknowledgement stays valid is current after copying a packet. -/
theorem Ev.view_now {view : C → S → PV} (hV : ViewLaws T view) (I : NetInv T N)
    (V : ValInv T view N) (E : Ev T N N' p o rcv stale) (ht : Tame T N rcv) {c : C}
    (hown : T.owner c = p) (hr : (T.proto (T.owner c)).reads c = true) (he : (UNet.st T N c).enabled ≠ 0)
    (hack : (UNet.ch T N c).ack = true ∨
      ∃ pkt, rcv = some (c, pkt) ∧ pkt.enabled < (UNet.st T N c).enabled)
    (hfl : ∀ pkt, rcv = some (c, pkt) → pkt.enabled < (UNet.st T N c).enabled ∨ pkt.enabled = allOnes) :
    view c (withPkt (T.proto p) rcv (UNet.st T N c).vals) =
      (T.proto (T.owner (T.opp c))).emit (T.opp c) (UNet.st T N (T.opp c)).vals ∧
    ∀ pkt, rcv = some (c, pkt) →
      pkt.values = (T.proto (T.owner (T.opp c))).emit (T.opp c) (UNet.st T N (T.opp c)).vals := by
  have hpk : ∀ pkt, rcv = some (c, pkt) →
      pkt.values = (T.proto (T.owner (T.opp c))).emit (T.opp c) (UNet.st T N (T.opp c)).vals := fun pkt hp => by
    obtain ⟨_, w2, w3⟩ := E.rcv c pkt hp
    rcases hfl pkt hp with hlt | hmax
    · exact V.pkts c pkt hr he w2 w3 hlt
    · have hlt : (UNet.st T N c).enabled < allOnes := I.lt _
      rcases hack with hack | ⟨pkt', q1, q2⟩
      · exact (V.view c hr he hack).2 pkt w2 (ht c pkt hp he hmax)
      · rw [hp] at q1
        cases q1
        omega
  refine ⟨?_, hpk⟩
  by_cases hrc : ∃ pkt, rcv = some (c, pkt)
  · obtain ⟨pkt, hp⟩ := hrc
    rw [hp]
    show view c ((T.proto p).merge c pkt.values _) = _
    rw [hV.merge_same, hpk pkt hp]
  · have hack' : (UNet.ch T N c).ack = true := by
      rcases hack with hack | ⟨pkt, q1, _⟩
      · exact hack
      · exact absurd ⟨pkt, q1⟩ hrc
    rw [← (V.view c hr he hack').1]
    rcases hx : rcv with _ | ⟨d, pkt⟩
    · rfl
    · have hd : c ≠ d := fun h => hrc ⟨pkt, by rw [hx, h]⟩
      exact hV.merge_other p d c pkt.values _ (E.rcv d pkt hx).1 hown hd

theorem valInv_step {view : C → S → PV} (hT : GoodTopo T) (hV : ViewLaws T view) (hR : MutualReads T)
    (I : NetInv T N) (V : ValInv T view N) (E : Ev T N N' p o rcv stale) (hn : NoReuse T N')
    (ht : Tame T N rcv) : ValInv T view N' := by
  have hhead := E.head hT I.head
  -- what is sent by a process that has used the same sequence number before
  have hold : ∀ c m, (c, m) ∈ N.sent → m.src = (UNet.ch T N' c).seq →
      m.values = (T.proto (T.owner c)).emit c (UNet.st T N' c).vals := fun c m hm hs => by
    by_cases h : T.owner c = p
    · have hl := E.log_same hT hhead hn c (by rw [← hs]; exact (I.srcLog c m hm).1)
      have hna : o.acted = none := by
        cases hx : o.acted with
        | none => rfl
        | some s =>
          exfalso
          obtain ⟨_, _, _, _, k, _⟩ := E.con.acted s hx
          have k := (k c ((hT.chs p c).2 h)).1
          simp only at k
          rw [own_st h] at k
          rw [E.ch_own h] at hl
          exact k hl
      rw [E.vals_own hV hna h, V.cur c m hm (by rw [hs, E.seq_same hT I.head hl]), h, withPkt_emit hV]
    · rw [E.st_other h]
      rw [E.ch_other h] at hs
      exact V.cur c m hm hs
  have hnew : ∀ c m, (c, m) ∈ o.sent → m.src = (UNet.ch T N' c).seq ∧
      m.values = (T.proto (T.owner c)).emit c (UNet.st T N' c).vals := fun c m hm => by
    have h := E.sent_own hT hm
    obtain ⟨_, s2, s3, _⟩ := E.con.sent c m hm
    rw [E.ch_own h, E.st_own h, h]
    exact ⟨s2, s3⟩
  refine ⟨fun c m m' hm hm' he => ?_, fun c m hm hs => ?_, fun c hr he hack => ?_, fun c m hr he hm hd hlt => ?_⟩
  · rcases (E.sent_iff c m).1 hm with a | a <;> rcases (E.sent_iff c m').1 hm' with b | b
    · rw [(hnew c m a).2, (hnew c m' b).2]
    · rw [(hnew c m a).2, hold c m' b (by rw [← he]; exact (hnew c m a).1)]
    · rw [(hnew c m' b).2, hold c m a (by rw [he]; exact (hnew c m' b).1)]
    · exact V.same c m m' a b he
  · rcases (E.sent_iff c m).1 hm with a | a
    · exact (hnew c m a).2
    · exact hold c m a hs
  · by_cases h : T.owner c = p
    · have hopp : T.owner (T.opp c) ≠ p := fun h' => hT.opp_ne c (h'.trans h.symm)
      obtain ⟨hlog, hseq, hen, _⟩ := E.shrink hT I hn h ⟨he, Or.inl hack⟩
      obtain ⟨_, kack⟩ := E.keep hT h he hlog
      have hna : o.acted = none := by
        cases hx : o.acted with
        | none => rfl
        | some s =>
          exfalso
          obtain ⟨_, _, _, k, _⟩ := E.con.acted s hx
          rw [E.st_own h] at he
          exact he k
      have he0 : (UNet.st T N c).enabled ≠ 0 := by rw [← hen]; exact he
      have hfl : ∀ pkt, rcv = some (c, pkt) →
          pkt.enabled < (UNet.st T N c).enabled ∨ pkt.enabled = allOnes := fun pkt hp => by
        have a2 := (E.con.adjNew c pkt hp).2 (by rw [← E.st_own h]; exact he) (by
          simp only; rw [own_st h, ← E.ch_own h]; exact hlog)
        simp only at a2
        rw [own_st h] at a2
        exact a2
      obtain ⟨v1, v2⟩ := E.view_now hV I V ht h hr he0 (kack hack) hfl
      rw [E.st_other hopp, E.vals_own hV hna h]
      refine ⟨v1, fun m hm hsrc => ?_⟩
      have hm0 := E.sent_other hT hopp hm
      by_cases hrc : ∃ pkt, rcv = some (c, pkt)
      · obtain ⟨pkt, hp⟩ := hrc
        rw [E.ch_own h, (E.con.adjNew c pkt hp).1] at hsrc
        rw [V.same _ m pkt hm0 (E.rcv c pkt hp).2.1 hsrc]
        exact v2 pkt hp
      · have := E.con.adj c (fun pkt hp => hrc ⟨pkt, hp⟩)
        simp only at this
        rw [own_st h] at this
        rw [E.ch_own h, this] at hsrc
        have hack' : (UNet.ch T N c).ack = true := by
          rcases kack hack with hack | ⟨pkt, q1, _⟩
          · exact hack
          · exact absurd ⟨pkt, q1⟩ hrc
        exact (V.view c hr he0 hack').2 m hm0 hsrc
    · rw [E.st_other h] at he ⊢
      rw [E.ch_other h] at hack ⊢
      obtain ⟨v1, v2⟩ := V.view c hr he hack
      by_cases h' : T.owner (T.opp c) = p
      · have hna : o.acted = none := by
          cases hx : o.acted with
          | none => rfl
          | some s =>
            exfalso
            refine I.me c ⟨⟨he, Or.inl hack⟩, E.acted_avail hT hx h' ?_⟩
            rw [← h', ← hR c]; exact hr
        have hval : (T.proto (T.owner (T.opp c))).emit (T.opp c) (UNet.st T N' (T.opp c)).vals =
            (T.proto (T.owner (T.opp c))).emit (T.opp c) (UNet.st T N (T.opp c)).vals := by
          rw [E.vals_own hV hna h', h', withPkt_emit hV]
        refine ⟨by rw [hval]; exact v1, fun m hm hsrc => ?_⟩
        rcases (E.sent_iff _ m).1 hm with a | a
        · exact (hnew _ m a).2
        · rw [hval]; exact v2 m a hsrc
      · rw [E.st_other h']
        exact ⟨v1, fun m hm hsrc => v2 m (E.sent_other hT h' hm) hsrc⟩
  · by_cases h : T.owner c = p
    · have hopp : T.owner (T.opp c) ≠ p := fun h' => hT.opp_ne c (h'.trans h.symm)
      obtain ⟨_, hseq, hen, _⟩ := E.shrink hT I hn h ⟨he, Or.inr ⟨m, hm, hd, hlt⟩⟩
      rw [E.st_other hopp]
      exact V.pkts c m hr (by rw [← hen]; exact he) (E.sent_other hT hopp hm) (by rw [← hseq]; exact hd)
        (by rw [← hen]; exact hlt)
    · rw [E.st_other h] at he hlt
      rw [E.ch_other h] at hd
      by_cases h' : T.owner (T.opp c) = p
      · rcases (E.sent_iff _ m).1 hm with a | a
        · exact (hnew _ m a).2
        · have hna : o.acted = none := by
            cases hx : o.acted with
            | none => rfl
            | some s =>
              exfalso
              refine I.me c ⟨⟨he, Or.inr ⟨m, a, hd, hlt⟩⟩, E.acted_avail hT hx h' ?_⟩
              rw [← h', ← hR c]; exact hr
          rw [E.vals_own hV hna h', V.pkts c m hr he a hd hlt, h', withPkt_emit hV]
      · rw [E.st_other h']
        exact V.pkts c m hr he (E.sent_other hT h' hm) hd hlt

end step

theorem tame_of_ok {T : UTopo P C S PV} {N : UNet P C S PV} {e : NEv P C PV} {rcv : Option (C × UPkt PV)}
    (hok : NoUnknownFlag T N e) (hr : ∀ c pkt, rcv = some (c, pkt) → e = .recv c pkt)
    (hd : ∀ c pkt, rcv = some (c, pkt) → pkt.dst = (UNet.ch T N c).seq) : Tame T N rcv :=
  fun c pkt hp he hm => hok c pkt (hr c pkt hp) he (hd c pkt hp) hm

theorem reach_netInv {T : UTopo P C S PV} (hT : GoodTopo T) {N : UNet P C S PV}
    (h : NReach T (NoUnknownFlag T) N) : NetInv T N := by
  induction h with
  | start h _ => exact netInv_start h
  | step _ hok hs hn ih =>
    obtain ⟨p, rcv, stale, E, hr⟩ := nstep_ev hT ih.head hs
    exact netInv_step hT ih E hn (tame_of_ok hok hr fun c pkt hp => (E.rcv c pkt hp).2.2)

theorem reach_valInv {T : UTopo P C S PV} (hT : GoodTopo T) {view : C → S → PV} (hV : ViewLaws T view)
    (hR : MutualReads T) {N : UNet P C S PV} (h : NReach T (NoUnknownFlag T) N) : ValInv T view N := by
  induction h with
  | start h _ => exact valInv_start h
  | step hp hok hs hn ih =>
    have I := reach_netInv hT hp
    obtain ⟨p, rcv, stale, E, hr⟩ := nstep_ev hT I.head hs
    exact valInv_step hT hV hR I ih E hn (tame_of_ok hok hr fun c pkt hp => (E.rcv c pkt hp).2.2)

end Verif.Proofs
