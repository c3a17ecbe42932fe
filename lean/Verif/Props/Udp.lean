import Verif.Proofs.UdpNet
import Mathlib.Data.Fintype.Prod
import Mathlib.Data.Fin.Basic

/-!
C46 and C47: permission to act and views of the neighbours in the UDP implementation.
-/

set_option linter.unusedSectionVars false

namespace Verif.Props
open Verif.Model Verif.Spec Verif.Proofs

variable {P C S PV : Type} [DecidableEq C] [DecidableEq S] [DecidableEq P] [DecidableEq PV]

/-- The values of a process change only when it acts, apart from putting values into their domains and
copying the values of the neighbours. -/
theorem C46_only_acting_changes {pr : UProto C S PV} {fuel N : ℕ} {ev : ℕ → UEv C PV} {σ : ℕ → UState C S}
    {out : ℕ → UOut C S PV} (h : IsURun pr fuel N ev σ out)
    (h0 : ∀ c ∈ pr.chs, ((σ 0).chans c).log.head? = some ((σ 0).chans c).seq) (n : ℕ) (hn : n < N) :
    ((out n).acted = none → (σ (n + 1)).vals = pr.fix (σ n).vals ∨
      ∃ c pkt, ev n = .recv c pkt ∧ pkt.dst = ((σ n).chans c).seq ∧
        (σ (n + 1)).vals = pr.merge c pkt.values (pr.fix (σ n).vals)) ∧
    (∀ s, (out n).acted = some s → ∃ c pkt, ev n = .recv c pkt ∧ pkt.dst = ((σ n).chans c).seq ∧
      s = pr.merge c pkt.values (pr.fix (σ n).vals) ∧ pr.act s ≠ s ∧
      (∃ k, (σ (n + 1)).vals = pr.act^[k] s) ∧ pr.act (σ (n + 1)).vals = (σ (n + 1)).vals) := by
  have hh := run_head h h0 n hn.le
  obtain ⟨rcv, stale, hc, k1, _, k3⟩ := ustep_contract pr fuel (ev n) (σ n) (out n) (h.own n hn) hh (h.step n hn)
  rw [h.next n hn]
  refine ⟨fun ha => ?_, fun s hs => ?_⟩
  · have := hc.vals ha
    rcases rcv with _ | ⟨c, pkt⟩
    · exact Or.inl this
    · exact Or.inr ⟨c, pkt, (k1 c pkt rfl).1, (k1 c pkt rfl).2, this⟩
  · obtain ⟨q1, q2, q3, _⟩ := hc.acted s hs
    have hca := acted_canAct pr fuel (ev n) (σ n) (out n) (h.own n hn) hh (h.step n hn) s hs
    rcases rcv with _ | ⟨c, pkt⟩
    · obtain ⟨_, _, k⟩ := k3 s hs
      simp at k
    · exact ⟨c, pkt, (k1 c pkt rfl).1, (k1 c pkt rfl).2, q1, hca, q2, q3⟩

/-- C46 for the channels that the process reads from (missing: the other channels, which the code does not
ask, see `C46_unread_skipped`): a process acts only if every neighbour whose variables it reads has agreed with its current
sequence number.  Afterwards it is not enabled, has no acknowledgement, cannot act any more, and uses a new
sequence number on every channel. -/
theorem C46_act_permission_partial {pr : UProto C S PV} {fuel N : ℕ} {ev : ℕ → UEv C PV} {σ : ℕ → UState C S}
    {out : ℕ → UOut C S PV} (h : IsURun pr fuel N ev σ out)
    (h0 : ∀ c ∈ pr.chs, ((σ 0).chans c).log = [((σ 0).chans c).seq])
    (hack0 : (σ 0).enabled ≠ 0 → ∀ c ∈ pr.chs, ((σ 0).chans c).ack = false) (n : ℕ) (hn : n < N) (s : S)
    (hs : (out n).acted = some s) :
    (∀ c ∈ pr.chs, pr.reads c = true → HasPermission ev σ n c) ∧ (σ (n + 1)).enabled = 0 ∧
    pr.act (σ (n + 1)).vals = (σ (n + 1)).vals ∧
    ∀ c ∈ pr.chs, ((σ (n + 1)).chans c).ack = false ∧
      ∃ l, ((σ (n + 1)).chans c).log = ((σ (n + 1)).chans c).seq :: l ++ ((σ n).chans c).log := by
  have hhead : ∀ c ∈ pr.chs, ((σ 0).chans c).log.head? = some ((σ 0).chans c).seq := fun c hc => by
    rw [h0 c hc]; rfl
  have hh := run_head h hhead n hn.le
  obtain ⟨rcv, stale, hc, k1, _, _⟩ := ustep_contract pr fuel (ev n) (σ n) (out n) (h.own n hn) hh (h.step n hn)
  obtain ⟨_, _, q3, q4, q5, q6⟩ := hc.acted s hs
  have hmid := hc.mid
  rw [h.next n hn]
  refine ⟨fun c hcc hr => ?_, q4, q3, fun c hcc => ⟨(q5 c hcc).2, ?_⟩⟩
  · obtain ⟨w1, w2, _⟩ := q6 c hcc hr
    rcases w2 with w2 | ⟨pkt, p1, p2⟩
    · rcases run_ack h hhead c hcc n hn.le w1 w2 with ⟨m, hm, pkt, r1, r2, r3, r4⟩ | ⟨r1, r2⟩
      · exact ⟨m, hm.le, pkt, r1, r2, r3, r4⟩
      · rw [hack0 (by rw [r2]; exact w1) c hcc] at r1
        simp at r1
    · obtain ⟨v1, v2⟩ := k1 c pkt p1
      refine ⟨n, le_refl n, pkt, v1, v2, p2, fun j hj hj' => ?_⟩
      have : j = n := by omega
      subst this
      exact ⟨rfl, rfl, rfl⟩
  · obtain ⟨l, hl⟩ := hmid.ext c hcc
    have hd := hmid.head c hcc
    rw [hl] at hd ⊢
    cases l with
    | nil => exact absurd hl (q5 c hcc).1
    | cons a l =>
      simp only [List.cons_append, List.head?_cons, Option.some.injEq] at hd
      exact ⟨l, by rw [← hd]⟩

/-- The priority of a process is never the flag `~0`, which is only for packets. -/
theorem C46_enabled_not_flag {pr : UProto C S PV} {fuel N : ℕ} {ev : ℕ → UEv C PV} {σ : ℕ → UState C S}
    {out : ℕ → UOut C S PV} (h : IsURun pr fuel N ev σ out)
    (h0 : ∀ c ∈ pr.chs, ((σ 0).chans c).log = [((σ 0).chans c).seq]) (hlt : (σ 0).enabled < allOnes) :
    ∀ n ≤ N, (σ n).enabled < allOnes := by
  intro n
  induction n with
  | zero => exact fun _ => hlt
  | succ n ih =>
    intro hn
    have hhead : ∀ c ∈ pr.chs, ((σ 0).chans c).log.head? = some ((σ 0).chans c).seq := fun c hc => by
      rw [h0 c hc]; rfl
    obtain ⟨rcv, stale, hc, _, _, _⟩ := ustep_contract pr fuel (ev n) (σ n) (out n) (h.own n (by omega))
      (run_head h hhead n (by omega)) (h.step n (by omega))
    rw [h.next n (by omega)]
    exact hc.lt (ih (by omega))

/-! The network. -/

/-- C47, under the condition that no waiting process accepts a packet with the flag `~0` from a sequence
number it does not know: two neighbours never both wait with the agreement of the other. -/
theorem C47_exclusion_partial {T : UTopo P C S PV} (hT : GoodTopo T) {N : UNet P C S PV}
    (h : NReach T (NoUnknownFlag T) N) (c : C) : ¬ (Granted T N c ∧ Granted T N (T.opp c)) := by
  rintro ⟨⟨a1, a2⟩, b1, b2⟩
  exact (reach_netInv hT h).me c ⟨⟨a1, Or.inl a2⟩, b1, Or.inl b2⟩

/-- C47, under the same condition: a process that acts has the current values of all variables it reads. -/
theorem C47_current_view_partial {T : UTopo P C S PV} (hT : GoodTopo T) {view : C → S → PV}
    (hV : ViewLaws T view) (hR : MutualReads T) {N N' : UNet P C S PV} (h : NReach T (NoUnknownFlag T) N)
    {fuel : ℕ} {e : NEv P C PV} {o : UOut C S PV} (hok : NoUnknownFlag T N e)
    (hs : nstep T fuel e N = some (N', o)) {s : S} (hact : o.acted = some s) :
    ∃ p, (∀ q, q ≠ p → N'.procs q = N.procs q) ∧ N'.procs p = o.st ∧
      ∀ c, T.owner c = p → (T.proto p).reads c = true →
        view c s = (T.proto (T.owner (T.opp c))).emit (T.opp c) (N.procs (T.owner (T.opp c))).vals ∧
        ¬ Granted T N (T.opp c) := by
  have I := reach_netInv hT h
  have V := reach_valInv hT hV hR h
  obtain ⟨p, rcv, stale, E, hr⟩ := nstep_ev hT I.head hs
  have ht := tame_of_ok hok hr fun c pkt hp => (E.rcv c pkt hp).2.2
  refine ⟨p, fun q hq => ?_, ?_, fun c hc hrd => ⟨?_, fun hg => ?_⟩⟩
  · rw [E.net]; unfold UNet.put; simp only; rw [Function.update_of_ne hq]
  · rw [E.net]; unfold UNet.put; simp only; rw [Function.update_self]
  · obtain ⟨q1, _, _, _, _, q6⟩ := E.con.acted s hact
    obtain ⟨w1, w2, w3⟩ := q6 c ((hT.chs p c).2 hc) hrd
    simp only at w1 w2 w3 q1
    rw [own_st hc] at w1 w2 w3
    have := (E.view_now hV I V ht hc (by rw [hc]; exact hrd) w1 w2 w3).1
    rw [q1, hV.fix, own_st hc]
    exact this
  · exact I.me c ⟨E.acted_avail hT hact hc hrd, hg.1, Or.inl hg.2⟩

/-! The maximal matching ring of src/udp-impl/act.h:73-126 with three processes. -/

/-- The end of a channel: the process, and whether it is the channel to the right. -/
abbrev End3 := Fin 3 × Bool

/-- `values`: left, own, right. -/
abbrev Vals3 := Fin 3 × Fin 3 × Fin 3

/-- `action_assign`, src/udp-impl/act.h:107-115. -/
def matchAct (x : Vals3) : Vals3 :=
  let l := x.1
  let r := x.2.2
  let y := x.2.1
  let y := if l = 1 ∧ y ≠ 0 ∧ r = 2 then 0 else y
  let y := if l ≠ 1 ∧ y = 0 ∧ r ≠ 2 then 2 else y
  let y := if l ≠ 1 ∧ y ≠ 1 ∧ r = 2 then 1 else y
  let y := if l = 1 ∧ y ≠ 2 ∧ r ≠ 2 then 2 else y
  (l, y, r)

/-- The variables of the channels, src/udp-impl/act.h:74-104. -/
def matchProto (p : Fin 3) : UProto End3 Vals3 (Fin 3) where
  chs := [(p, false), (p, true)]
  act := matchAct
  fix := id
  merge := fun c v s => if c.2 then (s.1, s.2.1, v) else (v, s.2.1, s.2.2)
  emit := fun _ s => s.2.1
  reads := fun _ => true

/-- The ring. -/
def matchRing : UTopo (Fin 3) End3 Vals3 (Fin 3) where
  proto := matchProto
  owner := fun c => c.1
  opp := fun c => if c.2 then (c.1 + 1, false) else (c.1 - 1, true)

/-- What a process knows about its neighbour. -/
def matchView (c : End3) (s : Vals3) : Fin 3 := if c.2 then s.2.2 else s.1

theorem matchRing_good : GoodTopo matchRing where
  chs := by decide
  opp_opp := by decide
  opp_ne := by decide

theorem matchRing_mutual : MutualReads matchRing := fun _ => rfl

theorem matchRing_laws : ViewLaws matchRing matchView where
  merge_same := by
    rintro p ⟨q, b⟩ v s
    cases b <;> rfl
  merge_other := by
    rintro p ⟨q, b⟩ ⟨q', b'⟩ v s h h' hne
    have hb : b' ≠ b := fun hb => hne (by rw [hb, show q' = q from h'.trans h.symm])
    cases b <;> cases b' <;> first | rfl | exact absurd rfl hb
  merge_emit := by
    rintro p ⟨q, b⟩ c' v s
    cases b <;> rfl
  act := by
    rintro p ⟨q, b⟩ s
    cases b <;> rfl
  fix := fun _ _ => rfl


/-- A packet with the given indices of sequence numbers; the random keys are 0 in this execution. -/
def pk (src dst enabled : ℕ) (v : Fin 3) : UPkt (Fin 3) := ⟨⟨src, 0⟩, ⟨dst, 0⟩, enabled, v⟩

/-- A channel at the start. -/
def ch0 (ack : Bool) : UChan := ⟨⟨0, 0⟩, ⟨0, 0⟩, ack, false, 0, [⟨0, 0⟩]⟩

/-- The start: the values are 0, 2, 0, all views are right, no process is enabled. -/
def matchStart : UNet (Fin 3) End3 Vals3 (Fin 3) where
  procs := fun p =>
    if p = 0 then ⟨0, (0, 0, 2), fun _ => ch0 false, fun n => [3].getD n 0⟩
    else if p = 1 then ⟨0, (0, 2, 0), fun c => ch0 (!c.2), fun n => [0, 0, 0, 0, 7].getD n 0⟩
    else ⟨0, (2, 0, 0), fun _ => ch0 false, fun n => [9].getD n 0⟩
  sent := []

/-- The events until processes 0 and 1 both wait with the agreement of the other. -/
def matchEvents : List (NEv (Fin 3) End3 (Fin 3)) :=
  [.timeout 1, .timeout 0, .recv (1, false) (pk 1 0 3 0), .recv (0, true) (pk 1 1 0 2),
   .timeout 2, .recv (1, true) (pk 1 0 9 0), .recv (2, false) (pk 1 1 0 2), .recv (0, false) (pk 1 0 9 0),
   .recv (2, true) (pk 1 1 allOnes 0), .recv (0, false) (pk 1 1 9 0), .recv (2, true) (pk 2 1 3 0),
   .recv (1, true) (pk 2 1 0 2), .recv (0, true) (pk 0 0 allOnes 2), .recv (1, false) (pk 1 0 allOnes 0),
   .recv (1, false) (pk 1 0 allOnes 0), .recv (0, true) (pk 2 1 allOnes 2), .recv (1, false) (pk 1 2 3 0)]

/-- The events after that until process 0 is about to act. -/
def matchEvents' : List (NEv (Fin 3) End3 (Fin 3)) :=
  [.recv (2, false) (pk 2 2 7 2), .recv (1, true) (pk 3 2 0 2)]

/-- Execution of a list of events, checking `ok` and that no sequence number is used twice. -/
def nrunOk (T : UTopo (Fin 3) End3 Vals3 (Fin 3))
    (ok : UNet (Fin 3) End3 Vals3 (Fin 3) → NEv (Fin 3) End3 (Fin 3) → Bool) (fuel : ℕ) :
    List (NEv (Fin 3) End3 (Fin 3)) → UNet (Fin 3) End3 Vals3 (Fin 3) → Option (UNet (Fin 3) End3 Vals3 (Fin 3))
  | [], N => some N
  | e :: l, N =>
    match nstep T fuel e N with
    | none => none
    | some r => if ok N e ∧ ∀ c, (UNet.ch T r.1 c).log.Nodup then nrunOk T ok fuel l r.1 else none

theorem nrunOk_reach {T : UTopo (Fin 3) End3 Vals3 (Fin 3)}
    {ok : UNet (Fin 3) End3 Vals3 (Fin 3) → NEv (Fin 3) End3 (Fin 3) → Bool}
    {okP : UNet (Fin 3) End3 Vals3 (Fin 3) → NEv (Fin 3) End3 (Fin 3) → Prop}
    (hok : ∀ N e, ok N e = true → okP N e) {fuel : ℕ} (l : List (NEv (Fin 3) End3 (Fin 3)))
    {N N' : UNet (Fin 3) End3 Vals3 (Fin 3)} (h : NReach T okP N) (hr : nrunOk T ok fuel l N = some N') :
    NReach T okP N' := by
  induction l generalizing N with
  | nil =>
    simp only [nrunOk, Option.some.injEq] at hr
    rw [← hr]; exact h
  | cons e l ih =>
    simp only [nrunOk] at hr
    cases hs : nstep T fuel e N with
    | none => rw [hs] at hr; simp at hr
    | some r =>
      rw [hs] at hr
      simp only at hr
      split at hr
      · next hc => exact ih (.step h (hok N e hc.1) hs hc.2) hr
      · simp at hr

theorem matchStart_reach {okP : UNet (Fin 3) End3 Vals3 (Fin 3) → NEv (Fin 3) End3 (Fin 3) → Prop} :
    NReach matchRing okP matchStart := by
  refine .start ⟨rfl, by decide, by decide, by decide, by decide⟩ ?_
  show ∀ c, _
  decide

/-- Every event is allowed. -/
def anyOk (_ : UNet (Fin 3) End3 Vals3 (Fin 3)) (_ : NEv (Fin 3) End3 (Fin 3)) : Bool := true

/-- The property fails: in the matching ring of act.h two neighbours both wait with the agreement of the
other although no sequence number is used twice. -/
theorem C47_both_granted : ∃ N, NReach matchRing AnyEvent N ∧ Granted matchRing N (0, true) ∧
    Granted matchRing N (matchRing.opp (0, true)) := by
  have h : ∃ N, nrunOk matchRing anyOk 5 matchEvents matchStart = some N :=
    Option.isSome_iff_exists.1 (by decide +kernel)
  obtain ⟨N, hN⟩ := h
  have hg : ∀ M, nrunOk matchRing anyOk 5 matchEvents matchStart = some M →
      Granted matchRing M (0, true) ∧ Granted matchRing M (matchRing.opp (0, true)) := by
    unfold Granted
    have : ((nrunOk matchRing anyOk 5 matchEvents matchStart).all fun M =>
      decide (((UNet.st matchRing M (0, true)).enabled ≠ 0 ∧ (UNet.ch matchRing M (0, true)).ack = true) ∧
        ((UNet.st matchRing M (matchRing.opp (0, true))).enabled ≠ 0 ∧
          (UNet.ch matchRing M (matchRing.opp (0, true))).ack = true))) = true := by decide +kernel
    intro M hM
    rw [hM] at this
    simpa using this
  exact ⟨N, nrunOk_reach (fun _ _ _ => trivial) _ matchStart_reach hN, hg N hN⟩

/-- The property fails: continuing that execution, process 0 acts although it knows the value 2 of process 1,
which has acted in the meantime and has the value 1. -/
theorem C47_acts_on_stale_value : ∃ N N' o s, NReach matchRing AnyEvent N ∧
    nstep matchRing 5 (.recv (0, false) (pk 2 2 0 2)) N = some (N', o) ∧ o.acted = some s ∧
    matchView (0, true) s = 2 ∧ (matchProto 1).emit (matchRing.opp (0, true)) (N.procs 1).vals = 1 := by
  have h : ∃ N, nrunOk matchRing anyOk 5 (matchEvents ++ matchEvents') matchStart = some N :=
    Option.isSome_iff_exists.1 (by decide +kernel)
  obtain ⟨N, hN⟩ := h
  have hg : ((nrunOk matchRing anyOk 5 (matchEvents ++ matchEvents') matchStart).all fun M =>
      ((nstep matchRing 5 (.recv (0, false) (pk 2 2 0 2)) M).any fun r =>
        (r.2.acted.any fun s => decide (matchView (0, true) s = 2))) &&
      decide ((matchProto 1).emit (matchRing.opp (0, true)) (M.procs 1).vals = 1)) = true := by decide +kernel
  rw [hN] at hg
  simp only [Option.all_some, Bool.and_eq_true, decide_eq_true_eq] at hg
  obtain ⟨h1, h2⟩ := hg
  cases hs : nstep matchRing 5 (.recv (0, false) (pk 2 2 0 2)) N with
  | none => rw [hs] at h1; simp at h1
  | some r =>
    rw [hs] at h1
    simp only [Option.any_some] at h1
    cases ha : r.2.acted with
    | none => rw [ha] at h1; simp at h1
    | some s =>
      rw [ha] at h1
      simp only [Option.any_some, decide_eq_true_eq] at h1
      exact ⟨N, r.1, r.2, s, nrunOk_reach (fun _ _ _ => trivial) _ matchStart_reach hN, hs, ha, h1, h2⟩

/-! Cases meeting the hypotheses of the theorems: in the matching ring with the values 0, 1, 2 process 0 asks
its neighbours and acts. -/

/-- Check of `NoUnknownFlag`. -/
def flagOk (N : UNet (Fin 3) End3 Vals3 (Fin 3)) (e : NEv (Fin 3) End3 (Fin 3)) : Bool :=
  match e with
  | .timeout _ => true
  | .recv c pkt => decide ((UNet.st matchRing N c).enabled ≠ 0 → pkt.dst = (UNet.ch matchRing N c).seq →
      pkt.enabled = allOnes → pkt.src = (UNet.ch matchRing N c).adj)

theorem flagOk_sound (N : UNet (Fin 3) End3 Vals3 (Fin 3)) (e : NEv (Fin 3) End3 (Fin 3))
    (h : flagOk N e = true) : NoUnknownFlag matchRing N e := by
  intro c pkt he
  subst he
  simpa only [flagOk, decide_eq_true_eq] using h

/-- The start. -/
def tameStart : UNet (Fin 3) End3 Vals3 (Fin 3) where
  procs := fun p =>
    if p = 0 then ⟨0, (2, 0, 1), fun _ => ch0 false, fun n => [3].getD n 0⟩
    else if p = 1 then ⟨0, (0, 1, 2), fun _ => ch0 false, fun _ => 0⟩
    else ⟨0, (1, 2, 0), fun _ => ch0 false, fun _ => 0⟩
  sent := []

/-- The events until process 0 acts. -/
def tameEvents : List (NEv (Fin 3) End3 (Fin 3)) :=
  [.timeout 0, .recv (1, false) (pk 1 0 3 0), .recv (2, true) (pk 1 0 3 0), .recv (0, true) (pk 1 1 0 1)]

example : ∃ N N' o s, NReach matchRing (NoUnknownFlag matchRing) N ∧ Granted matchRing N (0, true) ∧
    NoUnknownFlag matchRing N (.recv (0, false) (pk 1 1 0 2)) ∧
    nstep matchRing 5 (.recv (0, false) (pk 1 1 0 2)) N = some (N', o) ∧ o.acted = some s := by
  have h0 : NReach matchRing (NoUnknownFlag matchRing) tameStart := by
    refine .start ⟨rfl, by decide, by decide, by decide, by decide⟩ ?_
    show ∀ c, _
    decide
  have h : ∃ N, nrunOk matchRing flagOk 5 tameEvents tameStart = some N :=
    Option.isSome_iff_exists.1 (by decide +kernel)
  obtain ⟨N, hN⟩ := h
  have hg : ((nrunOk matchRing flagOk 5 tameEvents tameStart).all fun M =>
      decide ((UNet.st matchRing M (0, true)).enabled ≠ 0 ∧ (UNet.ch matchRing M (0, true)).ack = true) &&
      flagOk M (.recv (0, false) (pk 1 1 0 2)) &&
      ((nstep matchRing 5 (.recv (0, false) (pk 1 1 0 2)) M).any fun r => r.2.acted.isSome)) = true := by
    decide +kernel
  rw [hN] at hg
  simp only [Option.all_some, Bool.and_eq_true, decide_eq_true_eq] at hg
  obtain ⟨⟨h1, h2⟩, h3⟩ := hg
  cases hs : nstep matchRing 5 (.recv (0, false) (pk 1 1 0 2)) N with
  | none => rw [hs] at h3; simp at h3
  | some r =>
    rw [hs] at h3
    simp only [Option.any_some] at h3
    obtain ⟨s, ha⟩ := Option.isSome_iff_exists.1 h3
    exact ⟨N, r.1, r.2, s, nrunOk_reach flagOk_sound _ h0 hN, h1, flagOk_sound _ _ h2, hs, ha⟩

/-- The events at process 0 in the same execution. -/
def tameEv (n : ℕ) : UEv End3 (Fin 3) :=
  match n with
  | 0 => .timeout
  | 1 => .recv (0, true) (pk 1 1 0 1)
  | _ => .recv (0, false) (pk 1 1 0 2)

/-- What process 0 does. -/
def tameOut (st : UState End3 Vals3) (n : ℕ) : UOut End3 Vals3 (Fin 3) :=
  (ustep (matchProto 0) 5 (tameEv n) st).getD ⟨st, [], 0, none⟩

/-- The states of process 0. -/
def tameSt : ℕ → UState End3 Vals3
  | 0 => tameStart.procs 0
  | n + 1 => (tameOut (tameSt n) n).st

example : IsURun (matchProto 0) 5 3 tameEv tameSt (fun n => tameOut (tameSt n) n) ∧
    (∀ c ∈ (matchProto 0).chs, ((tameSt 0).chans c).log = [((tameSt 0).chans c).seq]) ∧
    ((tameSt 0).enabled ≠ 0 → ∀ c ∈ (matchProto 0).chs, ((tameSt 0).chans c).ack = false) ∧
    (tameSt 0).enabled < allOnes ∧ (tameOut (tameSt 2) 2).acted = some (2, 0, 1) := by
  refine ⟨⟨fun n hn => ?_, fun n hn => rfl, fun n hn c pkt he => ?_⟩, by decide, by decide, by decide, by
    decide +kernel⟩
  · have h : ∀ k : Fin 3, (ustep (matchProto 0) 5 (tameEv k) (tameSt k)).isSome = true := by decide +kernel
    obtain ⟨o, ho⟩ := Option.isSome_iff_exists.1 (h ⟨n, hn⟩)
    show ustep (matchProto 0) 5 (tameEv n) (tameSt n) = some (tameOut (tameSt n) n)
    unfold tameOut
    simp only at ho
    rw [ho]; rfl
  · match n, hn with
    | 0, _ => simp [tameEv] at he
    | 1, _ =>
      simp only [tameEv, UEv.recv.injEq] at he
      rw [← he.1]; decide
    | 2, _ =>
      simp only [tameEv, UEv.recv.injEq] at he
      rw [← he.1]; decide

/-! A process that copies the value of its left neighbour (channel `false`) and only shows its value to the
right neighbour (channel `true`). -/

/-- The protocol; `values` are left and own. -/
def copyProto : UProto Bool (Fin 2 × Fin 2) (Fin 2) where
  chs := [false, true]
  act := fun s => (s.1, s.1)
  fix := id
  merge := fun c v s => if c then s else (v, s.2)
  emit := fun _ s => s.2
  reads := fun c => !c

/-- The events: a timeout, then the answer of the left neighbour. -/
def copyEv (n : ℕ) : UEv Bool (Fin 2) :=
  match n with
  | 0 => .timeout
  | _ => .recv false ⟨⟨1, 0⟩, ⟨1, 0⟩, 0, 1⟩

/-- What the process does. -/
def copyOut (st : UState Bool (Fin 2 × Fin 2)) (n : ℕ) : UOut Bool (Fin 2 × Fin 2) (Fin 2) :=
  (ustep copyProto 5 (copyEv n) st).getD ⟨st, [], 0, none⟩

/-- The states of the process. -/
def copySt : ℕ → UState Bool (Fin 2 × Fin 2)
  | 0 => ⟨0, (1, 0), fun _ => ch0 false, fun n => [3].getD n 0⟩
  | n + 1 => (copyOut (copySt n) n).st

/-- C46 fails for channels from which nothing is read: the process acts although it has not received any
packet on the channel to the right neighbour. -/
theorem C46_unread_skipped : ∃ (pr : UProto Bool (Fin 2 × Fin 2) (Fin 2)) (ev : ℕ → UEv Bool (Fin 2))
    (σ : ℕ → UState Bool (Fin 2 × Fin 2)) (out : ℕ → UOut Bool (Fin 2 × Fin 2) (Fin 2)) (c : Bool),
    IsURun pr 5 2 ev σ out ∧ (∀ c ∈ pr.chs, ((σ 0).chans c).log = [((σ 0).chans c).seq]) ∧
    (σ 0).enabled = 0 ∧ (out 1).acted = some (1, 0) ∧ (σ 2).vals = (1, 1) ∧ c ∈ pr.chs ∧
    ¬ HasPermission ev σ 1 c := by
  refine ⟨copyProto, copyEv, copySt, fun n => copyOut (copySt n) n, true,
    ⟨fun n hn => ?_, fun n hn => rfl, fun n hn c pkt he => ?_⟩, by decide, by decide, by decide +kernel,
    by decide +kernel, by decide, ?_⟩
  · have h : ∀ k : Fin 2, (ustep copyProto 5 (copyEv k) (copySt k)).isSome = true := by decide +kernel
    obtain ⟨o, ho⟩ := Option.isSome_iff_exists.1 (h ⟨n, hn⟩)
    show ustep copyProto 5 (copyEv n) (copySt n) = some (copyOut (copySt n) n)
    unfold copyOut
    simp only at ho
    rw [ho]; rfl
  · cases c <;> decide
  · rintro ⟨m, hm, pkt, he, _⟩
    match m, hm with
    | 0, _ => simp [copyEv] at he
    | 1, _ => simp [copyEv] at he

end Verif.Props
