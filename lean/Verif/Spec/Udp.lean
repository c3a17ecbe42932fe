import Verif.Model.Udp
import Mathlib.Logic.Function.Iterate

/-!
Specification of the UDP implementation: permission to act, executions, and views of the neighbours.
-/

namespace Verif.Spec
open Verif.Model

variable {P C S PV : Type} [DecidableEq C] [DecidableEq S] [DecidableEq P] [DecidableEq PV]

/-- An execution of one process: `σ` are the states before the rounds of the main loop, `ev` what happens
and `out` what the process does. -/
structure IsURun (pr : UProto C S PV) (fuel : ℕ) (N : ℕ) (ev : ℕ → UEv C PV) (σ : ℕ → UState C S)
    (out : ℕ → UOut C S PV) : Prop where
  step : ∀ n < N, ustep pr fuel (ev n) (σ n) = some (out n)
  next : ∀ n < N, σ (n + 1) = (out n).st
  own : ∀ n < N, ∀ c pkt, ev n = .recv c pkt → c ∈ pr.chs

/-- Specification: at time `n` the process has permission on channel `c`.  At some time `m ≤ n` it received
on `c` a packet that repeats its sequence number of that channel and has a lower priority, and the process
has been waiting with the same priority and the same sequence number of that channel ever since. -/
def HasPermission (ev : ℕ → UEv C PV) (σ : ℕ → UState C S) (n : ℕ) (c : C) : Prop :=
  ∃ m ≤ n, ∃ pkt, ev m = .recv c pkt ∧ pkt.dst = ((σ n).chans c).seq ∧ pkt.enabled < (σ n).enabled ∧
    ∀ j, m ≤ j → j ≤ n → (σ j).enabled = (σ n).enabled ∧ ((σ j).chans c).seq = ((σ n).chans c).seq ∧
      ((σ j).chans c).log = ((σ n).chans c).log

/-- The state of the process that owns a channel end. -/
def UNet.st (T : UTopo P C S PV) (N : UNet P C S PV) (c : C) : UState C S := N.procs (T.owner c)

/-- A channel end. -/
def UNet.ch (T : UTopo P C S PV) (N : UNet P C S PV) (c : C) : UChan := (UNet.st T N c).chans c

/-- Channels belong to their owners and connect two different processes. -/
structure GoodTopo (T : UTopo P C S PV) : Prop where
  chs : ∀ p c, c ∈ (T.proto p).chs ↔ T.owner c = p
  opp_opp : ∀ c, T.opp (T.opp c) = c
  opp_ne : ∀ c, T.owner (T.opp c) ≠ T.owner c

/-- A start without garbage: nothing has been sent, an enabled process has no acknowledgement, and the
sequence number that a process has for a neighbour is one that the neighbour has used. -/
structure CleanStart (T : UTopo P C S PV) (N : UNet P C S PV) : Prop where
  sent : N.sent = []
  lt : ∀ p, (N.procs p).enabled < allOnes
  ack : ∀ c, (UNet.st T N c).enabled ≠ 0 → (UNet.ch T N c).ack = false
  head : ∀ c, (UNet.ch T N c).log.head? = some (UNet.ch T N c).seq
  adj : ∀ c, (UNet.ch T N c).adj ∈ (UNet.ch T N (T.opp c)).log

/-- No sequence number has been used twice on a channel. -/
def NoReuse (T : UTopo P C S PV) (N : UNet P C S PV) : Prop := ∀ c, (UNet.ch T N c).log.Nodup

/-- Executions of the network from a clean start in which no sequence number is used twice.  `L` lists the
events with what the process did, the last event first; `ok` restricts the events considered. -/
inductive NReach (T : UTopo P C S PV) (ok : UNet P C S PV → NEv P C PV → Prop) : UNet P C S PV → Prop
  | start {N} : CleanStart T N → NoReuse T N → NReach T ok N
  | step {N N' o fuel e} : NReach T ok N → ok N e → nstep T fuel e N = some (N', o) → NoReuse T N' →
      NReach T ok N'

/-- Every event is considered. -/
def AnyEvent (_ : UNet P C S PV) (_ : NEv P C PV) : Prop := True

/-- Specification: the process at this end waits to act and its neighbour has agreed. -/
def Granted (T : UTopo P C S PV) (N : UNet P C S PV) (c : C) : Prop :=
  (UNet.st T N c).enabled ≠ 0 ∧ (UNet.ch T N c).ack = true

/-- The event is not the arrival at a waiting process of a packet with the flag `~0` that repeats the
sequence number of the process but shows a sequence number of the neighbour that the process does not
know. -/
def NoUnknownFlag (T : UTopo P C S PV) (N : UNet P C S PV) (e : NEv P C PV) : Prop :=
  ∀ c pkt, e = .recv c pkt → (UNet.st T N c).enabled ≠ 0 → pkt.dst = (UNet.ch T N c).seq →
    pkt.enabled = allOnes → pkt.src = (UNet.ch T N c).adj

/-- `view c s` is what a process in state `s` knows about the variables of the neighbour at its channel `c`.
Copying the values of a packet sets that view and nothing else, acting changes only the own variables, and
all values are in their domains. -/
structure ViewLaws (T : UTopo P C S PV) (view : C → S → PV) : Prop where
  merge_same : ∀ p c v s, view c ((T.proto p).merge c v s) = v
  merge_other : ∀ p c c' v s, T.owner c = p → T.owner c' = p → c' ≠ c → view c' ((T.proto p).merge c v s) = view c' s
  merge_emit : ∀ p c c' v s, (T.proto p).emit c' ((T.proto p).merge c v s) = (T.proto p).emit c' s
  act : ∀ p c s, view c ((T.proto p).act s) = view c s
  fix : ∀ p s, (T.proto p).fix s = s

/-- Every process reads the variables of those neighbours that read its own. -/
def MutualReads (T : UTopo P C S PV) : Prop :=
  ∀ c, (T.proto (T.owner c)).reads c = (T.proto (T.owner (T.opp c))).reads (T.opp c)

end Verif.Spec
