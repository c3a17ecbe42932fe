import Mathlib.Logic.Function.Basic
import Mathlib.Data.Nat.Notation

/-!
Model of the UDP implementation of shared memory protocols, src/udp-impl/protocol.c.

One process is a state `UState` with a table of channels; a channel end is an element of an arbitrary
type `C`.  `action_assign`, `assume_assign` and the tables of variables per channel of `act.h` are the
fields of `UProto`.  `Randomize` takes the next number of `tape`, which is arbitrary.  Integers of a
fixed width are natural numbers below the bound.  The field `log` of a channel is not in the code: it
lists the sequence numbers used on the channel so far, the current one first.

Not modelled: sockets, host names, checksums, byte order and timing; which packets arrive is arbitrary.
The entries of `values` of a packet that no variable is assigned to are left out.
-/

namespace Verif.Model

/-- `SeqId`, src/udp-impl/protocol.c:8-12 and 59-61: two 16-bit fields. -/
structure SeqId where
  idx : ℕ
  key : ℕ
  deriving DecidableEq, Repr

/-- `Packet`, src/udp-impl/protocol.c:14-20. -/
structure UPkt (PV : Type) where
  src : SeqId
  dst : SeqId
  enabled : ℕ
  values : PV
  deriving DecidableEq, Repr

/-- `Channel`, src/udp-impl/protocol.c:31-42, without the host; `log` is a ghost field. -/
structure UChan where
  seq : SeqId
  adj : SeqId
  ack : Bool
  reply : Bool
  skips : ℕ
  log : List SeqId
  deriving DecidableEq, Repr

/-- `State`, src/udp-impl/protocol.c:44-54, with the random numbers still to be drawn. -/
structure UState (C S : Type) where
  enabled : ℕ
  vals : S
  chans : C → UChan
  tape : ℕ → ℕ

/-- What `act.h` and src/udp-impl/protocol.c:672-683 provide for one process: its channels in order,
`action_assign`, `fix_process_state`, copying the values of a packet, the values put into a packet, and
whether the process reads a variable of the neighbour. -/
structure UProto (C S PV : Type) where
  chs : List C
  act : S → S
  fix : S → S
  merge : C → PV → S → S
  emit : C → S → PV
  reads : C → Bool

/-- `~(uint32_t)0` -/
def allOnes : ℕ := 4294967295

/-- `NQuickTimeouts`, src/udp-impl/protocol.h:33-35. -/
def nQuick : ℕ := 15

/-- What a handler does: the new state, the packets sent with the channel each is sent on, the returned
code, and the values the process acted on if it acted. -/
structure UOut (C S PV : Type) where
  st : UState C S
  sent : List (C × UPkt PV)
  ret : ℕ
  acted : Option S

variable {C S PV : Type} [DecidableEq C] [DecidableEq S]

/-- Assignments to fields of one channel. -/
def UState.setChan (st : UState C S) (c : C) (ch : UChan) : UState C S :=
  { st with chans := Function.update st.chans c ch }

/-- `CMD_seq`, src/udp-impl/protocol.c:225-234. -/
def cmdSeq (c : C) (st : UState C S) : UState C S :=
  let ch := st.chans c
  let s : SeqId := ⟨(ch.seq.idx + 1) % 65536, st.tape 0 % 65536⟩
  { st with
    tape := fun n => st.tape (n + 1)
    chans := Function.update st.chans c
      { ch with seq := s, ack := false, reply := true, log := s :: ch.log } }

/-- `CMD_seq_all`, src/udp-impl/protocol.c:247-253. -/
def cmdSeqAll (l : List C) (st : UState C S) : UState C S :=
  l.foldl (fun st c => cmdSeq c st) st

/-- `CMD_enable`, src/udp-impl/protocol.c:265-273. -/
def cmdEnable (pr : UProto C S PV) (st : UState C S) : UState C S :=
  let x := st.tape 0 % 4294967296
  let e := if x = 0 ∨ x = allOnes then x ^^^ 1 else x
  cmdSeqAll pr.chs { st with enabled := e, tape := fun n => st.tape (n + 1) }

/-- `CMD_disable`, src/udp-impl/protocol.c:278-283. -/
def cmdDisable (pr : UProto C S PV) (st : UState C S) : UState C S :=
  cmdSeqAll pr.chs { st with enabled := 0 }

/-- The result of `CMD_act (st, 0)`, src/udp-impl/protocol.c:691-716. -/
def canAct (pr : UProto C S PV) (s : S) : Bool := decide (pr.act s ≠ s)

/-- `while (CMD_act(st, 1)) {}`, src/udp-impl/protocol.c:997-999. -/
def actLoop (pr : UProto C S PV) : ℕ → S → Option S
  | 0, _ => none
  | k + 1, s => if canAct pr s then actLoop pr k (pr.act s) else some s

/-- The packet of `CMD_send1`, src/udp-impl/protocol.c:725-735. -/
def mkPkt (pr : UProto C S PV) (c : C) (st : UState C S) (e : ℕ) : UPkt PV :=
  ⟨(st.chans c).seq, (st.chans c).adj, e, pr.emit c st.vals⟩

/-- The state after `CMD_send1`, src/udp-impl/protocol.c:736-737. -/
def sendSt (c : C) (st : UState C S) : UState C S :=
  st.setChan c { st.chans c with skips := nQuick - 1, reply := false }

/-- `CMD_send_all`, src/udp-impl/protocol.c:754-763. -/
def sendAll (pr : UProto C S PV) : List C → UState C S → UState C S × List (C × UPkt PV)
  | [], st => (st, [])
  | c :: l, st =>
    if st.enabled ≠ 0 ∧ (st.chans c).ack then sendAll pr l st
    else
      let r := sendAll pr l (sendSt c st)
      (r.1, (c, mkPkt pr c st st.enabled) :: r.2)

/-- `all_adj_acknowledged`, src/udp-impl/protocol.c:769-777. -/
def allAck (pr : UProto C S PV) (st : UState C S) : Bool :=
  pr.chs.all fun c => !pr.reads c || (st.chans c).ack

/-- The first statement of `update_enabled`, src/udp-impl/protocol.c:786-788. -/
def sanitize (st : UState C S) : UState C S :=
  if st.enabled = allOnes then { st with enabled := 0 } else st

/-- `update_enabled`, src/udp-impl/protocol.c:783-803. -/
def updateEnabled (pr : UProto C S PV) (st : UState C S) : UState C S × Bool :=
  let st := sanitize st
  if canAct pr st.vals then
    if st.enabled = 0 then (cmdEnable pr st, true) else (st, false)
  else
    if st.enabled ≠ 0 then (cmdDisable pr st, true) else (st, false)

/-- `handle_recv` for a packet with another sequence number, src/udp-impl/protocol.c:868-894. -/
def recvStale (pr : UProto C S PV) (c : C) (pkt : UPkt PV) (st : UState C S) : UOut C S PV :=
  let ch := st.chans c
  if pkt.src = ch.adj ∧ ch.ack = false ∧ ch.reply = false then
    ⟨st.setChan c { ch with reply := true }, [], 0, none⟩
  else
    let e := if st.enabled ≠ 0 ∧ st.enabled < pkt.enabled then allOnes else st.enabled
    ⟨st.setChan c { ch with reply := false }, [(c, ⟨ch.seq, pkt.src, e, pr.emit c st.vals⟩)], 1, none⟩

/-- Copying the values and noting the acknowledgement, src/udp-impl/protocol.c:896-917. -/
def recvValues (pr : UProto C S PV) (c : C) (pkt : UPkt PV) (st : UState C S) : UState C S :=
  let st := { st with vals := pr.merge c pkt.values st.vals }
  if st.enabled ≠ 0 ∧ pkt.enabled < st.enabled then st.setChan c { st.chans c with ack := true } else st

/-- src/udp-impl/protocol.c:919-929: the state, `bcast` and `reply`. -/
def recvUpdate (pr : UProto C S PV) (c : C) (adjActed : Bool) (st : UState C S) :
    UState C S × Bool × Bool :=
  let u := updateEnabled pr st
  if u.2 then (u.1, true, false)
  else if adjActed ∧ u.1.enabled = 0 then
    let st := cmdSeq c u.1
    (st.setChan c { st.chans c with ack := true }, false, true)
  else (u.1, false, false)

/-- src/udp-impl/protocol.c:931-941. -/
def recvAdj (c : C) (pkt : UPkt PV) (st : UState C S) : UState C S :=
  if (st.chans c).adj ≠ pkt.src then
    let st := st.setChan c { st.chans c with adj := pkt.src }
    if pkt.enabled ≠ 0 ∧ pkt.enabled ≠ allOnes ∧ st.enabled = 0 ∧ pkt.dst = (st.chans c).seq then cmdSeq c st
    else st
  else st

/-- src/udp-impl/protocol.c:943-951: the value of `reply`. -/
def recvReply (c : C) (pkt : UPkt PV) (st : UState C S) (reply : Bool) : Bool :=
  if pkt.enabled = allOnes then true
  else if pkt.enabled ≠ 0 then (if (st.chans c).ack then reply else true)
  else reply

/-- src/udp-impl/protocol.c:955-966: the state and `bcast`. -/
def recvTie (pr : UProto C S PV) (c : C) (pkt : UPkt PV) (st : UState C S) (bcast : Bool) :
    UState C S × Bool :=
  if pkt.enabled = st.enabled then (cmdEnable pr st, true)
  else if pkt.enabled > st.enabled then
    (if pkt.enabled ≠ allOnes then cmdSeq c st else st, bcast)
  else (st, bcast)

/-- src/udp-impl/protocol.c:953-990: the state, `bcast` and `reply`. -/
def recvPrio (pr : UProto C S PV) (c : C) (pkt : UPkt PV) (st : UState C S) (bcast reply : Bool) :
    UState C S × Bool × Bool :=
  if st.enabled ≠ 0 then
    let t := recvTie pr c pkt st bcast
    (t.1, t.2, if pkt.enabled = allOnes then reply else if (t.1.chans c).ack then false else reply)
  else if pkt.dst = (st.chans c).seq then
    let st := st.setChan c { st.chans c with ack := true }
    if reply then (st, bcast, true)
    else if (st.chans c).reply then (st, bcast, true)
    else (st.setChan c { st.chans c with reply := true }, bcast, false)
  else (st, bcast, reply)

/-- src/udp-impl/protocol.c:992-1003: the state, `bcast` and the values acted on. -/
def recvAct (pr : UProto C S PV) (fuel : ℕ) (st : UState C S) (bcast : Bool) :
    Option (UState C S × Bool × Option S) :=
  if st.enabled ≠ 0 ∧ allAck pr st then
    match actLoop pr fuel st.vals with
    | none => none
    | some v => some (cmdDisable pr { st with vals := v }, true, some st.vals)
  else some (st, bcast, none)

/-- src/udp-impl/protocol.c:1005-1018. -/
def recvSend (pr : UProto C S PV) (c : C) (st : UState C S) (bcast reply : Bool) (acted : Option S) :
    UOut C S PV :=
  if bcast then
    let r := sendAll pr pr.chs st
    ⟨r.1, r.2, 2, acted⟩
  else if reply then ⟨sendSt c st, [(c, mkPkt pr c st st.enabled)], 1, acted⟩
  else ⟨st, [], 0, acted⟩

/-- `handle_recv`, src/udp-impl/protocol.c:859-1019.  `none` if the process never stops acting. -/
def handleRecv (pr : UProto C S PV) (fuel : ℕ) (c : C) (pkt : UPkt PV) (st : UState C S) :
    Option (UOut C S PV) :=
  if pkt.dst ≠ (st.chans c).seq then some (recvStale pr c pkt st)
  else
    let adjActed := decide (pr.merge c pkt.values st.vals ≠ st.vals)
    let u := recvUpdate pr c adjActed (recvValues pr c pkt st)
    let st3 := recvAdj c pkt u.1
    let w := recvPrio pr c pkt st3 u.2.1 (recvReply c pkt st3 u.2.2)
    match recvAct pr fuel w.1 w.2.1 with
    | none => none
    | some (st5, bcast, acted) => some (recvSend pr c st5 bcast w.2.2 acted)

/-- The reset at the start of `handle_timeout`, src/udp-impl/protocol.c:1026-1030. -/
def timeoutReset (pr : UProto C S PV) (st : UState C S) : UState C S :=
  if st.enabled ≠ 0 ∧ allAck pr st then { st with enabled := 0 } else st

/-- The loop of `handle_timeout`, src/udp-impl/protocol.c:1032-1056. -/
def timeoutLoop (pr : UProto C S PV) : List C → UState C S → UState C S × List (C × UPkt PV)
  | [], st => (st, [])
  | c :: l, st =>
    let st1 := if (st.chans c).skips ≥ nQuick / 2 + nQuick
      then st.setChan c { st.chans c with skips := nQuick - 1 } else st
    let ch := st1.chans c
    if ch.ack then
      if st1.enabled ≠ 0 then timeoutLoop pr l st1
      else if ch.skips > 0 then timeoutLoop pr l (st1.setChan c { ch with skips := ch.skips - 1 })
      else
        let st2 := sendSt c (st1.setChan c { ch with ack := false })
        let x := st2.tape 0 % 4294967296
        let st3 := { st2.setChan c { st2.chans c with skips := nQuick / 2 + x % nQuick } with
          tape := fun n => st2.tape (n + 1) }
        let r := timeoutLoop pr l st3
        (r.1, (c, mkPkt pr c st1 allOnes) :: r.2)
    else
      let st2 := sendSt c st1
      let x := st2.tape 0 % 4294967296
      let st3 := { st2.setChan c { st2.chans c with skips := nQuick / 2 + x % nQuick } with
        tape := fun n => st2.tape (n + 1) }
      let r := timeoutLoop pr l st3
      (r.1, (c, mkPkt pr c st1 st1.enabled) :: r.2)

/-- `handle_timeout`, src/udp-impl/protocol.c:1022-1057. -/
def handleTimeout (pr : UProto C S PV) (st : UState C S) : UOut C S PV :=
  let r := timeoutLoop pr pr.chs (updateEnabled pr (timeoutReset pr st)).1
  ⟨r.1, r.2, 0, none⟩

/-- What happens to a process in one round of the main loop. -/
inductive UEv (C PV : Type) where
  | recv (c : C) (pkt : UPkt PV)
  | timeout

/-- One round of the main loop, src/udp-impl/protocol.c:1163-1206: `fix_process_state`, then the packet
received or the timeout. -/
def ustep (pr : UProto C S PV) (fuel : ℕ) (e : UEv C PV) (st : UState C S) : Option (UOut C S PV) :=
  let st := { st with vals := pr.fix st.vals }
  match e with
  | .recv c pkt => handleRecv pr fuel c pkt st
  | .timeout => some (handleTimeout pr st)

/-! The network. -/

/-- The processes and channel ends: who owns a channel end and which end is at the other side
(`process_of_channel`, src/udp-impl/act.h). -/
structure UTopo (P C S PV : Type) where
  proto : P → UProto C S PV
  owner : C → P
  opp : C → C

/-- All processes, and all packets sent so far with the channel end each was sent from.  Packets are never
removed: a packet may be lost, delayed, overtaken and delivered many times. -/
structure UNet (P C S PV : Type) where
  procs : P → UState C S
  sent : List (C × UPkt PV)

/-- A timeout of a process, or the arrival of a packet at a channel end. -/
inductive NEv (P C PV : Type) where
  | timeout (p : P)
  | recv (c : C) (pkt : UPkt PV)

variable {P : Type} [DecidableEq P] [DecidableEq PV]

/-- The effect of the output of process `p`. -/
def UNet.put (N : UNet P C S PV) (p : P) (o : UOut C S PV) : UNet P C S PV :=
  ⟨Function.update N.procs p o.st, o.sent ++ N.sent⟩

/-- One event in the network, with what the process does: `none` if the packet was not sent. -/
def nstep (T : UTopo P C S PV) (fuel : ℕ) (e : NEv P C PV) (N : UNet P C S PV) :
    Option (UNet P C S PV × UOut C S PV) :=
  match e with
  | .timeout p =>
    match ustep (T.proto p) fuel .timeout (N.procs p) with
    | none => none
    | some o => some (N.put p o, o)
  | .recv c pkt =>
    if (T.opp c, pkt) ∈ N.sent then
      match ustep (T.proto (T.owner c)) fuel (.recv c pkt) (N.procs (T.owner c)) with
      | none => none
      | some o => some (N.put (T.owner c) o, o)
    else none

end Verif.Model
