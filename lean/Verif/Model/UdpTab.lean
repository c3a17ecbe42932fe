import Mathlib.Logic.Function.Basic
import Mathlib.Data.Nat.Notation

/-!
Model of the channels and tables of variables that are written for the UDP implementation, src/udp-ofile.cc:29-184, and
of how src/udp-impl/protocol.c uses them to copy values between processes.

A process is the list of its accesses in order (`pc.rvbls`).  A loop over processes with a loop over their variables
inside is one loop over the list of pairs.  Tables indexed by a process are functions; `Map::ensure` (cx/map.hh) gives the
entry, after inserting the default if there is none, and `Map::operator[]` inserts 0.  The text of the functions
`process_of_channel` and `variable_of_channel` is represented by the tests in it, in order.  Two texts of the
second function are equal exactly if their tests are.
-/

namespace Verif.Model

/-- An access of a process: the variable, its domain size, and whether it is a puppet and written,
src/udp-ofile.cc:42-49. -/
structure UAcc where
  vbl : ℕ
  domsz : ℕ
  puppet : Bool
  write : Bool
  deriving DecidableEq, Repr

/-- `Channel`, src/udp-ofile.cc:17-20. -/
structure UCh where
  pc : ℕ
  vbls : List ℕ
  deriving DecidableEq, Repr

/-- `chans` and `chan_map` of every process, src/udp-ofile.cc:24-25. -/
structure UTabNet where
  chans : ℕ → List UCh
  cmap : ℕ → ℕ → Option ℕ

/-- `Process::vbls`, src/udp-ofile.cc:42-51. -/
def udpVbls (pc : List UAcc) : List UAcc := pc.filter (·.puppet)

/-- The rounds of the loops over processes and their variables, src/udp-ofile.cc:40-42, 59-62, 71-74, 87-90. -/
def udpRounds (pcs : List (List UAcc)) : List (ℕ × UAcc) :=
  pcs.zipIdx.flatMap fun x => (udpVbls x.1).map fun a => (x.2, a)

/-- src/udp-ofile.cc:53-55; `n` is `pcs.sz()`. -/
def ownWriter (n : ℕ) (own : ℕ → ℕ) (e : ℕ × UAcc) : ℕ → ℕ :=
  if e.2.write = true ∧ own e.2.vbl = n then Function.update own e.2.vbl e.1 else own

/-- src/udp-ofile.cc:62-66. -/
def ownReader (n : ℕ) (own : ℕ → ℕ) (e : ℕ × UAcc) : ℕ → ℕ :=
  if own e.2.vbl = n then Function.update own e.2.vbl e.1 else own

/-- `owning`, src/udp-ofile.cc:35-68. -/
def udpOwning (pcs : List (List UAcc)) : ℕ → ℕ :=
  (udpRounds pcs).foldl (ownReader pcs.length)
    ((udpRounds pcs).foldl (ownWriter pcs.length) fun _ => pcs.length)

/-- `chan_map.ensure` and the growing of `chans`, src/udp-ofile.cc:77-82 and 95-99. -/
def ensureChan (st : UTabNet) (p q : ℕ) : UTabNet × ℕ :=
  let i := (st.cmap p q).getD (st.chans p).length
  (⟨if i = (st.chans p).length then Function.update st.chans p (st.chans p ++ [⟨q, []⟩]) else st.chans,
    Function.update st.cmap p (Function.update (st.cmap p) q (some i))⟩, i)

/-- src/udp-ofile.cc:100-102. -/
def pushVbl (st : UTabNet) (o i p v : ℕ) : UTabNet :=
  { st with chans := Function.update st.chans o ((st.chans o).modify i fun ch => ⟨p, ch.vbls ++ [v]⟩) }

/-- A round of `Set up channels for to others`, src/udp-ofile.cc:74-83. -/
def chanTo (own : ℕ → ℕ) (st : UTabNet) (e : ℕ × UAcc) : UTabNet :=
  if own e.2.vbl = e.1 then st else (ensureChan st e.1 (own e.2.vbl)).1

/-- A round of `Set up channels from others`, src/udp-ofile.cc:90-103. -/
def chanFrom (own : ℕ → ℕ) (st : UTabNet) (e : ℕ × UAcc) : UTabNet :=
  if own e.2.vbl = e.1 then st
  else
    let r := ensureChan st (own e.2.vbl) e.1
    pushVbl r.1 (own e.2.vbl) r.2 e.1 e.2.vbl

/-- The channels, src/udp-ofile.cc:70-105. -/
def udpNet (pcs : List (List UAcc)) : UTabNet :=
  (udpRounds pcs).foldl (chanFrom (udpOwning pcs))
    ((udpRounds pcs).foldl (chanTo (udpOwning pcs)) ⟨fun _ => [], fun _ _ => none⟩)

/-- `max_nchannels` and `max_nvbls`, src/udp-ofile.cc:107-116. -/
def udpMaxChans (pcs : List (List UAcc)) : ℕ :=
  (List.range pcs.length).foldl (fun m p =>
    if ((udpNet pcs).chans p).length > m then ((udpNet pcs).chans p).length else m) 0
@[inherit_doc udpMaxChans] def udpMaxVbls (pcs : List (List UAcc)) : ℕ :=
  pcs.foldl (fun m pc => if (udpVbls pc).length > m then (udpVbls pc).length else m) 0

/-- The macro `T` for the channels in order and what follows, src/udp-ofile.cc:125-139. -/
def procOfGo (self : ℕ) : List UCh → ℕ → ℕ
  | [], _ => self
  | ch :: l, c => if c = 0 then ch.pc else procOfGo self l (c - 1)

/-- `process_of_channel` as written, src/udp-ofile.cc:123-141. -/
def processOf (pcs : List (List UAcc)) (p c : ℕ) : ℕ :=
  if p < pcs.length then procOfGo p ((udpNet pcs).chans p) c else p

/-- `local_idcs[v]`, src/udp-ofile.cc:50. -/
def localIdx (vs : List UAcc) (v : ℕ) : ℕ :=
  vs.zipIdx.foldl (fun r x => if x.1.vbl = v then x.2 else r) 0

/-- The tests `channel_idx==c && i==i` with what they return, src/udp-ofile.cc:152-159 and 161-170. -/
def tabTests (vs : List UAcc) (l : List (List ℕ)) : List ((ℕ × ℕ) × ℕ) :=
  l.zipIdx.flatMap fun x => x.1.zipIdx.map fun y => ((x.2, y.2), localIdx vs y.1)

/-- The variables of the channels of the others to `p`, src/udp-ofile.cc:161-164; `none` is a null pointer or an index
outside a table. -/
def readLists (st : UTabNet) (p : ℕ) : Option (List (List ℕ)) :=
  (st.chans p).mapM fun ch => (st.cmap ch.pc p).bind fun j => ((st.chans ch.pc)[j]?).map (·.vbls)

/-- `str` of a process, the tests for writing and for reading, src/udp-ofile.cc:150-171. -/
def tabBody (st : UTabNet) (pc : List UAcc) (p : ℕ) : Option (List ((ℕ × ℕ) × ℕ) × List ((ℕ × ℕ) × ℕ)) :=
  (readLists st p).map fun r => (tabTests (udpVbls pc) ((st.chans p).map (·.vbls)), tabTests (udpVbls pc) r)

/-- The parts `if (pc.idx < k) { body }` after the first process, src/udp-ofile.cc:172-181. -/
def segGo {α : Type} [DecidableEq α] (prev : α) : ℕ → List α → List (ℕ × α)
  | k, [] => [(k, prev)]
  | k, s :: l => if s ≠ prev then (k, prev) :: segGo s (k + 1) l else segGo prev (k + 1) l

/-- The parts for all processes; `prev_str` is empty before the first, src/udp-ofile.cc:147-181. -/
def segList {α : Type} [DecidableEq α] : List α → List (ℕ × α)
  | [] => []
  | s :: l => segGo s 1 l

/-- The parts of `variable_of_channel`, src/udp-ofile.cc:143-181. -/
def udpTabs (pcs : List (List UAcc)) : Option (List (ℕ × (List ((ℕ × ℕ) × ℕ) × List ((ℕ × ℕ) × ℕ)))) :=
  (pcs.zipIdx.mapM fun x => tabBody (udpNet pcs) x.1 x.2).map segList

/-- A call of `variable_of_channel` as written, src/udp-ofile.cc:143-184; `M` is `Max_NVariables`. -/
def variableOf (M : ℕ) (tabs : List (ℕ × (List ((ℕ × ℕ) × ℕ) × List ((ℕ × ℕ) × ℕ)))) (p c i : ℕ)
    (writing : Bool) : ℕ :=
  match tabs.find? fun x => decide (p < x.1) with
  | none => M
  | some x =>
    match (if writing then x.2.1 else x.2.2).find? fun y => decide (y.1 = (c, i)) with
    | none => M
    | some y => y.2

/-- The loop that fills a packet, src/udp-impl/protocol.c:730-735 and 885-890; `tab i` is the result of
`variable_of_channel`. -/
def emitLoop (tab : ℕ → ℕ) (M : ℕ) (vals : ℕ → ℕ) : ℕ → ℕ → (ℕ → ℕ) → ℕ → ℕ
  | 0, _, pkt => pkt
  | k + 1, i, pkt => if tab i ≥ M then pkt else emitLoop tab M vals k (i + 1) (Function.update pkt i (vals (tab i)))

/-- The loop that copies the values of a packet, src/udp-impl/protocol.c:896-904. -/
def mergeLoop (tab : ℕ → ℕ) (M : ℕ) (pkt : ℕ → ℕ) : ℕ → ℕ → (ℕ → ℕ) → ℕ → ℕ
  | 0, _, vals => vals
  | k + 1, i, vals => if tab i ≥ M then vals else mergeLoop tab M pkt k (i + 1) (Function.update vals (tab i) (pkt i))

/-- What process `q` sends on its channel `d` and process `p` copies from its channel `c`: the new values of `p`,
src/udp-impl/protocol.c:729-735 and 896-904; `old` is the rest of the packet. -/
def udpCopy (M : ℕ) (tabs : List (ℕ × (List ((ℕ × ℕ) × ℕ) × List ((ℕ × ℕ) × ℕ)))) (q d p c : ℕ)
    (old valsq valsp : ℕ → ℕ) : ℕ → ℕ :=
  mergeLoop (fun i => variableOf M tabs p c i false) M
    (emitLoop (fun i => variableOf M tabs q d i true) M valsq M 0 old) M 0 valsp

end Verif.Model
