import Verif.Proofs.ActRead
import Verif.Props.Action

/-!
C97 (`Pc::actions` finds the actions of a process from its transitions) and C98 (the actions written to
a file are the actions found when it is read): src/xnpc.cc:97-283, src/prot-xfile.cc:558-604,
src/prot-ofile.cc:170-267.
-/

set_option linter.unusedSectionVars false

namespace Verif.Props
open Verif.Model Verif.Spec Verif.Proofs

section
variable {V : Type} [Fintype V] [DecidableEq V] {dom : V → ℕ}

/-- **C97**.  For a process where nothing is random and whose variables are distinct (or, if several accesses mean
the same variable, all of them are readable), `Pc::actions` ends
whatever states are chosen; it gives valid actions, each once, each of them found for some transition; and
the actions describe a pair of states exactly if the process has a transition that looks the same to it:
the first state agrees on the readable variables, the second on the written ones. -/
theorem C97_actions_cover {pk : Picker V dom} (hpk : Picker.Ok pk) {p : PcXn V dom} (hok : PcOk p.pc)
    (hnd : AliasOk p.pc) :
    ∃ L, pcActions pk p = some L ∧ L.Nodup ∧
      (∀ w ∈ L, List.Forall₂ (· < ·) w p.pc.spec.doms ∧
        ∃ s t, (s, t) ∈ p.puppet ∧ s ∈ p.closed ∧ GuardIs p.pc w s ∧ AssignIs p.pc w t) ∧
      ∀ s t, (∃ w ∈ L, GuardIs p.pc w s ∧ AssignIs p.pc w t) ↔
        ∃ s' t', (s', t') ∈ p.puppet ∧ s' ∈ p.closed ∧ SameRead p.pc s s' ∧ ∀ v ∈ p.pc.wvbls, t' v = t v := by
  obtain ⟨L, h1, h2, h3, h4⟩ := pre_loop hpk hok hnd
    ((p.puppet.filter fun e => e.1 ∈ p.closed).card + 1) (p.puppet.filter fun e => e.1 ∈ p.closed) [] (by omega)
  refine ⟨L, h1, h2, fun w hw => ?_, fun s t => ?_⟩
  · obtain ⟨s, t, hx, hf⟩ := h3 w hw
    have hd := found_doms hok hf
    obtain ⟨hx1, hx2⟩ := Finset.mem_filter.1 hx
    exact ⟨hd, s, t, hx1, hx2, (guard_iff hok hd).1 hf.pre, (assign_iff hok).1 hf.img.is⟩
  · have := h4 s t
    constructor
    · rintro ⟨w, hw, hg, ha⟩
      obtain ⟨s0, t0, _, hf⟩ := h3 w hw
      obtain ⟨s', t', hx, hr, hs⟩ := this.2 ⟨w, hw, (guard_iff hok (found_doms hok hf)).2 hg, (assign_iff hok).2 ha⟩
      obtain ⟨hx1, hx2⟩ := Finset.mem_filter.1 hx
      exact ⟨s', t', hx1, hx2, hr, (sameW_iff hok).1 hs⟩
    · rintro ⟨s', t', hx1, hx2, hr, hs⟩
      obtain ⟨w, hw, hg, ha⟩ := this.1 ⟨s', t', Finset.mem_filter.2 ⟨hx1, hx2⟩, hr, (sameW_iff hok).2 hs⟩
      obtain ⟨s0, t0, _, hf⟩ := h3 w hw
      exact ⟨w, hw, (guard_iff hok (found_doms hok hf)).1 hg, (assign_iff hok).1 ha⟩

/-- **C97, without values for keeping**: the actions found are exactly the valid actions that describe
some transition. -/
theorem C97_actions_exact {pk : Picker V dom} (hpk : Picker.Ok pk) {p : PcXn V dom} (hok : PcOk p.pc)
    (hnd : AliasOk p.pc) (hk : NoKeep p.pc.spec) :
    ∃ L, pcActions pk p = some L ∧ L.Nodup ∧
      ∀ w, w ∈ L ↔ List.Forall₂ (· < ·) w p.pc.spec.doms ∧
        ∃ s t, (s, t) ∈ p.puppet ∧ s ∈ p.closed ∧ GuardIs p.pc w s ∧ AssignIs p.pc w t := by
  obtain ⟨L, h1, h2, h3, h4⟩ := C97_actions_cover hpk hok hnd
  refine ⟨L, h1, h2, fun w => ⟨h3 w, ?_⟩⟩
  rintro ⟨hd, s, t, hx, hc, hg, ha⟩
  obtain ⟨w', hw', hg', ha'⟩ := (h4 s t).2 ⟨s, t, hx, hc, fun _ _ _ _ _ _ => rfl, fun _ _ => rfl⟩
  rwa [vals_unique hok hk hd (h3 w' hw').1 hg ha hg' ha']

/-- **C97, numbers of actions**.  If some process of the symmetry has distinct variables, `PcSymm::actions`
gives the numbers of the actions that describe a transition of the first such process. -/
theorem C97_symm_actions {pk : Picker V dom} (hpk : Picker.Ok pk) {c : PcComm} {membs : List (PcXn V dom)}
    {p : PcXn V dom} (hp : representativePc membs = some p) (hc : p.pc.spec = c.pc) (hok : PcOk p.pc)
    (hk : NoKeep c.pc) :
    p ∈ membs ∧ p.pc.rvbls.Nodup ∧ ∃ S, symmActions pk c membs = some S ∧
      ∀ a, a ∈ S ↔ ∃ w, List.Forall₂ (· < ·) w c.pc.doms ∧ a = actId c w ∧
        ∃ s t, (s, t) ∈ p.puppet ∧ s ∈ p.closed ∧ GuardIs p.pc w s ∧ AssignIs p.pc w t := by
  have hm : p ∈ membs := List.mem_of_find?_eq_some hp
  have hn := List.find?_some hp
  simp only [Bool.and_eq_true, decide_eq_true_eq] at hn
  obtain ⟨L, h1, _, h3⟩ := C97_actions_exact hpk hok (aliasOk_of_nodup hn.1) (by rw [hc]; exact hk)
  refine ⟨hm, hn.1, (L.map (actId c)).toFinset, ?_, fun a => ?_⟩
  · unfold symmActions
    rw [hp]
    simp only [h1, Option.map_some]
  · rw [List.mem_toFinset, List.mem_map]
    simp only [h3, hc]
    constructor
    · rintro ⟨w, ⟨h4, h5⟩, rfl⟩
      exact ⟨w, h4, rfl, h5⟩
    · rintro ⟨w, h4, rfl, h5⟩
      exact ⟨w, ⟨h4, h5⟩, rfl⟩

/-- **C97, numbers of actions without representative**.  If no process of the symmetry has distinct variables,
`PcSymm::actions` gives the numbers of the actions that describe a transition of any process. -/
theorem C97_symm_actions_all {pk : Picker V dom} (hpk : Picker.Ok pk) {c : PcComm} {membs : List (PcXn V dom)}
    (hp : representativePc membs = none) (hc : ∀ p ∈ membs, p.pc.spec = c.pc ∧ PcOk p.pc ∧ AliasOk p.pc)
    (hk : NoKeep c.pc) :
    ∃ S, symmActions pk c membs = some S ∧
      ∀ a, a ∈ S ↔ ∃ w, List.Forall₂ (· < ·) w c.pc.doms ∧ a = actId c w ∧
        ∃ p ∈ membs, ∃ s t, (s, t) ∈ p.puppet ∧ s ∈ p.closed ∧ GuardIs p.pc w s ∧ AssignIs p.pc w t := by
  have hall : ∀ l : List (PcXn V dom), (∀ p ∈ l, p ∈ membs) → ∃ L, l.mapM (pcActions pk) = some L ∧
      ∀ w, w ∈ L.flatten ↔ List.Forall₂ (· < ·) w c.pc.doms ∧
        ∃ p ∈ l, ∃ s t, (s, t) ∈ p.puppet ∧ s ∈ p.closed ∧ GuardIs p.pc w s ∧ AssignIs p.pc w t := by
    intro l
    induction l with
    | nil => intro _; exact ⟨[], rfl, by simp⟩
    | cons p l ih =>
      intro hl
      obtain ⟨hs, hok, hal⟩ := hc p (hl p (by simp))
      obtain ⟨L, h1, -, h2⟩ := C97_actions_exact hpk hok hal (by rw [hs]; exact hk)
      obtain ⟨Ls, h3, h4⟩ := ih fun q hq => hl q (by simp [hq])
      refine ⟨L :: Ls, by rw [List.mapM_cons, h1, h3]; rfl, fun w => ?_⟩
      rw [List.flatten_cons, List.mem_append, h2, h4, hs]
      constructor
      · rintro (⟨e1, e2⟩ | ⟨e1, q, hq, e2⟩)
        · exact ⟨e1, p, by simp, e2⟩
        · exact ⟨e1, q, by simp [hq], e2⟩
      · rintro ⟨e1, q, hq, e2⟩
        rcases List.mem_cons.1 hq with rfl | hq
        · exact Or.inl ⟨e1, e2⟩
        · exact Or.inr ⟨e1, q, hq, e2⟩
  obtain ⟨L, h1, h2⟩ := hall membs fun _ h => h
  refine ⟨(L.flatten.map (actId c)).toFinset, ?_, fun a => ?_⟩
  · unfold symmActions
    rw [hp]
    simp only [h1, Option.map_some]
  · rw [List.mem_toFinset, List.mem_map]
    simp only [h2]
    constructor
    · rintro ⟨w, ⟨e1, e2⟩, rfl⟩; exact ⟨w, e1, rfl, e2⟩
    · rintro ⟨w, e1, rfl, e2⟩; exact ⟨w, ⟨e1, e2⟩, rfl⟩

/-- The transitions of an action look like the action. -/
theorem xn_describes {pc : SPc V dom} (hok : PcOk pc) {w : List ℕ} (hw : List.Forall₂ (· < ·) w pc.spec.doms)
    {x : Finset (VSt V dom × VSt V dom)} (hx : xnOfPc pc w = some x) {s t : VSt V dom} (h : (s, t) ∈ x) :
    GuardIs pc w s ∧ AssignIs pc w t := by
  obtain ⟨y, hy, hiff⟩ := xnOfPc_spec hok hw
  rw [hx] at hy; cases hy
  obtain ⟨⟨hg, _⟩, he⟩ := (hiff s t).1 h
  refine ⟨fun r v acc g h1 h2 h3 h4 => hg (v, g) (mem_actOf_guards.2 ⟨r, acc, h1, h2, h3, h4⟩), ?_⟩
  intro j r v acc a h1 h2 h3 h4
  have := he (v, if a = acc.domsz then none else some a)
    ((mem_actOf_writes hok.len).2 ⟨r, j, acc, a, h1, h2, h3, h4, rfl⟩)
  by_cases ha : a = acc.domsz
  · exact .inl ha
  · rw [if_neg ha] at this
    exact .inr this

/-- **C98, from actions to transitions and back**.  If the transitions of the process are those of a set
of valid actions, then `Pc::actions` gives exactly the actions of the set that have a transition from a
closed state, each once. -/
theorem C98_actions_back {pk : Picker V dom} (hpk : Picker.Ok pk) {p : PcXn V dom} (hok : PcOk p.pc)
    (hnd : AliasOk p.pc) (hk : NoKeep p.pc.spec) {A : List (List ℕ)}
    (hA : ∀ w ∈ A, List.Forall₂ (· < ·) w p.pc.spec.doms)
    (hp : ∀ e, e ∈ p.puppet ↔ ∃ w ∈ A, ∃ x, xnOfPc p.pc w = some x ∧ e ∈ x) :
    ∃ L, pcActions pk p = some L ∧ L.Nodup ∧
      ∀ w, w ∈ L ↔ w ∈ A ∧ ∃ x s t, xnOfPc p.pc w = some x ∧ (s, t) ∈ x ∧ s ∈ p.closed := by
  obtain ⟨L, h1, h2, h3⟩ := C97_actions_exact hpk hok hnd hk
  refine ⟨L, h1, h2, fun w => ?_⟩
  rw [h3]
  constructor
  · rintro ⟨hd, s, t, hx, hc, hg, ha⟩
    obtain ⟨w', hw', x, hxx, hst⟩ := (hp _).1 hx
    obtain ⟨hg', ha'⟩ := xn_describes hok (hA w' hw') hxx hst
    obtain rfl := vals_unique hok hk hd (hA w' hw') hg ha hg' ha'
    exact ⟨hw', x, s, t, hxx, hst, hc⟩
  · rintro ⟨hw, x, s, t, hxx, hst, hc⟩
    obtain ⟨hg, ha⟩ := xn_describes hok (hA w hw) hxx hst
    exact ⟨hA w hw, s, t, (hp _).2 ⟨w, hw, x, hxx, hst⟩, hc, hg, ha⟩

end

section
variable {n : ℕ} {dom : Fin n → ℕ} {isPred : String → Bool}

/-- **C98, through a file**.  Let every written variable of the process be readable and nothing be
random; let the variables be distinct and the references as in C96.  Then the section `puppet:` written
for actions that each have a transition is read, its actions are evaluated and added to the process,
and `Pc::actions` finds exactly the actions written that have a transition from a closed state. -/
theorem C98_file_round_trip {pk : Picker (Fin n) dom} (hpk : Picker.Ok pk) (s0 : FSt n dom) {c : RdPc n dom}
    {ρ : IMap} {ref : ℕ → String × Ex}
    (hR : ∀ r < c.pc.spec.access.length, isId (ref r).1 ∧ ∃ j, Shape isPred .expr (ref r).2 j)
    (hr : Resolves c ρ ref) (hok : PcOk c.pc) (hnd : c.pc.rvbls.Nodup)
    (hrand : ∀ v ∈ c.pc.rvbls, c.random v = false)
    (hwr : ∀ acc ∈ c.pc.spec.access, acc.writeCk = true → acc.syntReadCk = true)
    {A : List (List ℕ)} (hne : A ≠ []) (hA : ∀ w ∈ A, List.Forall₂ (· < ·) w c.pc.spec.doms)
    (hg : ∀ w ∈ A, guardEqs c.pc.spec ref w ≠ []) (hm : ∀ w ∈ A, xnOfPc c.pc w ≠ some ∅)
    {t : List Char} (ht : puppetText c.pc.spec (fun r => exText (refEx ref r)) A = some t)
    (scc : Finset (FSt n dom × FSt n dom) → Finset (FSt n dom)) (closed : Finset (FSt n dom)) :
    ∃ u Ts X L, t = "\n  ".toList ++ u ∧
      (∀ rest, ∃ K, ∀ k ≥ K, puppetP isPred k (u ++ rest) = some (some (Ts, rest))) ∧
      (∃ K, ∀ k ≥ K, addActions c k ρ scc Ts ∅ = some X) ∧
      pcActions pk ⟨c.pc, X, closed⟩ = some L ∧ L.Nodup ∧
      ∀ w, w ∈ L ↔ w ∈ A ∧ ∃ x s t, xnOfPc c.pc w = some x ∧ (s, t) ∈ x ∧ s ∈ closed := by
  obtain ⟨u, Ts, h1, h2, h3⟩ := puppet_read hR ht hg hne
  have hwnd : c.pc.wvbls.Nodup := by
    rw [SPc.wvbls]
    refine List.Nodup.filterMap ?_ (List.nodup_range.filter _)
    intro r r' v h1 h2
    rw [Option.mem_def] at h1 h2
    exact nodup_get hnd h1 h2
  have hwo : c.pc.spec.access.any Access.syntWriteonlyCk = false := by
    rw [List.any_eq_false]
    intro acc hacc
    simp only [Access.syntWriteonlyCk, Bool.and_eq_true, Bool.not_eq_true', not_and, Bool.not_eq_true]
    intro h
    by_contra hc
    rw [hwr acc hacc (by simpa using hc)] at h
    exact absurd h (by simp)
  have hkeep : NoKeep c.pc.spec := by
    intro acc hacc hcon
    by_cases hw : acc.writeCk = true
    · have hsr := hwr acc hacc hw
      have := hok.norand acc hacc
      unfold Access.wdomsz at hcon
      rw [hw, this] at hcon
      simp only [Access.syntReadCk, Access.puppetCk, Access.readCk, Bool.and_eq_true, Bool.or_eq_true,
        decide_eq_true_eq] at hsr
      simp only [Access.pureShadowCk, Bool.not_true, Bool.false_eq_true, if_false, decide_eq_true_eq] at hcon
      split_ifs at hcon with hc1 hc2
      · rw [hc1] at hsr; simp at hsr
      · rw [hc2] at hsr; simp at hsr
      · omega
    · unfold Access.wdomsz at hcon
      simp [hw] at hcon
  -- the transitions collected
  have hloop : ∀ (A : List (List ℕ)) (Ts : List ActTree), List.Forall₂ (IsTree c.pc.spec ref) A Ts →
      (∀ w ∈ A, List.Forall₂ (· < ·) w c.pc.spec.doms) → (∀ w ∈ A, xnOfPc c.pc w ≠ some ∅) →
      ∀ X0 : Finset (FSt n dom × FSt n dom), ∃ X, (∃ K, ∀ k ≥ K, addActions c k ρ scc Ts X0 = some X) ∧
        ∀ e, e ∈ X ↔ e ∈ X0 ∨ ∃ w ∈ A, ∃ x, xnOfPc c.pc w = some x ∧ e ∈ x := by
    intro A Ts hF
    induction hF with
    | nil => intro _ _ X0; exact ⟨X0, ⟨0, fun k _ => rfl⟩, by simp⟩
    | @cons w T A Ts hT _ ih =>
      intro hA hm X0
      obtain ⟨P, x, hP, hx, hiff, heq⟩ := tree_meaning s0 hr hok hwnd hrand (hA w (by simp)) hT
      have hPx : P = x := by
        refine heq fun hnil => hm w (by simp) ?_
        obtain ⟨_, _, l, hl, _, hTa⟩ := hT
        rw [hx]
        congr 1
        rw [hnil, asgsOf, eq_comm, List.map_eq_nil_iff] at hTa
        subst hTa
        obtain ⟨y, hy, hyi⟩ := xnOfPc_spec hok (hA w (by simp))
        rw [hx] at hy; cases hy
        rw [Finset.eq_empty_iff_forall_notMem]
        rintro ⟨s, t⟩ hst
        obtain ⟨⟨hg, ⟨v, o⟩, hw, a, rfl, hne'⟩, _⟩ := (hyi s t).1 hst
        obtain ⟨r, j, acc, a', q1, q2, q3, q4, q5⟩ := (mem_actOf_writes hok.len).1 hw
        obtain ⟨v', acc', g, a'', w1, w2, w3, w4, w5, w6⟩ := wfacts hok (hA w (by simp)) q1
        rw [q3] at w2; cases w2
        rw [q4] at w4; cases w4
        simp only at q2 q5 hne'
        rw [q2] at w1; cases w1
        have hsr := hwr acc (List.mem_of_getElem? q3) w5
        by_cases ha : a' = acc.domsz
        · rw [if_pos ha] at q5; cases q5
        rw [if_neg ha] at q5; cases q5
        have : ¬ Mentions c.pc.spec w (j, r, a) := fun hmn => by
          have := (hl _).2 hmn
          simp at this
        have hst : Still c.pc.spec w := by
          by_contra hcon
          exact this ⟨acc, q1, q3, q4, ha, fun h => absurd h hcon⟩
        have := hst j r acc g a q1 q3 w3 q4
        have hwo' : ¬ acc.syntWriteonlyCk = true := by simp [Access.syntWriteonlyCk, hsr]
        rw [if_neg hwo'] at this
        refine hne' ?_
        rw [← this.1]
        exact hg (v, g) (mem_actOf_guards.2 ⟨r, acc, q2, q3, w3, hsr⟩)
      obtain ⟨X, ⟨K, hK⟩, hX⟩ := ih (fun w hw => hA w (by simp [hw])) (fun w hw => hm w (by simp [hw])) (X0 ∪ P)
      obtain ⟨K', hK'⟩ := hP
      refine ⟨X, ⟨max K K', fun k hk => ?_⟩, fun e => ?_⟩
      · have hk' : parseAction c k ρ T true = some P := hK' k (le_trans (le_max_right _ _) hk)
        rw [addActions, hk']
        simp only [hwo, Bool.false_and, Bool.false_eq_true, if_false]
        exact hK k (le_trans (le_max_left _ _) hk)
      · rw [hX, Finset.mem_union, hPx, or_assoc]
        refine or_congr_right ?_
        constructor
        · rintro (h | ⟨w', hw', hx'⟩)
          · exact ⟨w, by simp, x, hx, h⟩
          · exact ⟨w', by simp [hw'], hx'⟩
        · rintro ⟨w', hw', x', hx', he⟩
          rcases List.mem_cons.1 hw' with rfl | hw'
          · rw [hx] at hx'; cases hx'; exact .inl he
          · exact .inr ⟨w', hw', x', hx', he⟩
  obtain ⟨X, hX, hXi⟩ := hloop A Ts h2 hA hm ∅
  obtain ⟨L, g1, g2, g3⟩ := C98_actions_back (p := ⟨c.pc, X, closed⟩) hpk hok (aliasOk_of_nodup hnd) hkeep hA
    (fun e => by rw [hXi]; simp)
  exact ⟨u, Ts, X, L, h1, h3, hX, g1, g2, g3⟩

end

/-! ### Examples and witnesses -/

/-- The states of two variables of domain size 2, in some order. -/
def ringStates : List (VSt (Fin 2) ringDom) :=
  [fun _ => (0 : Fin 2), fun i => if i = 0 then (0 : Fin 2) else (1 : Fin 2),
    fun i => if i = 0 then (1 : Fin 2) else (0 : Fin 2), fun _ => (1 : Fin 2)]

/-- Takes the first state. -/
def ringPick : Picker (Fin 2) ringDom where
  pre X := ringStates.find? fun s => ringStates.any fun t => decide ((s, t) ∈ X)
  img P := ringStates.find? fun s => decide (s ∈ P)

theorem ringStates_all : ∀ s : VSt (Fin 2) ringDom, s ∈ ringStates := by decide +kernel

/-- The choice is allowed. -/
theorem ringPick_ok : Picker.Ok ringPick := by
  constructor
  · intro X hX
    obtain ⟨⟨s, t⟩, hst⟩ := Finset.nonempty_iff_ne_empty.2 hX
    have : (ringPick.pre X).isSome := by
      rw [ringPick, List.find?_isSome]
      exact ⟨s, ringStates_all s, List.any_eq_true.2 ⟨t, ringStates_all t, by simpa using hst⟩⟩
    obtain ⟨u, hu⟩ := Option.isSome_iff_exists.1 this
    have h := List.find?_some hu
    obtain ⟨t', _, ht'⟩ := List.any_eq_true.1 h
    exact ⟨u, t', hu, by simpa using ht'⟩
  · intro P hP
    obtain ⟨s, hs⟩ := Finset.nonempty_iff_ne_empty.2 hP
    have : (ringPick.img P).isSome := by
      rw [ringPick, List.find?_isSome]
      exact ⟨s, ringStates_all s, by simpa using hs⟩
    obtain ⟨u, hu⟩ := Option.isSome_iff_exists.1 this
    exact ⟨u, hu, by simpa using List.find?_some hu⟩

/-- The hypotheses of C97 and C98 hold for the process of the ring, and its two actions are found. -/
example : NoKeep ringPc.spec ∧ ringPc.rvbls.Nodup ∧
    (∀ acc ∈ ringPc.spec.access, acc.writeCk = true → acc.syntReadCk = true) ∧
    xnOfPc ringPc [0, 1, 0] ≠ some ∅ ∧ xnOfPc ringPc [1, 0, 1] ≠ some ∅ ∧
    ((xnOfPc ringPc [1, 0, 1]).bind fun x => (xnOfPc ringPc [0, 1, 0]).bind fun y =>
      pcActions ringPick ⟨ringPc, x ∪ y, Finset.univ⟩) = some [[0, 1, 0], [1, 0, 1]] ∧
    ((xnOfPc ringPc [1, 0, 1]).bind fun x => (xnOfPc ringPc [0, 1, 0]).bind fun y =>
      symmActions ringPick ⟨ringPc.spec, 0, 0⟩ [⟨{ ringPc with rvbls := [0, 0] }, ∅, ∅⟩,
        ⟨ringPc, x ∪ y, Finset.univ⟩]) = some {2, 5} := by
  refine ⟨by unfold NoKeep; decide, by decide, by decide, by decide +kernel, by decide +kernel,
    by decide +kernel, by decide +kernel⟩

/-- Two processes of a ring of size one, where both accesses mean the same variable: there is no representative,
and the action of the second process is found. -/
example : (∀ p ∈ [(⟨{ ringPc with rvbls := [0, 0] }, ∅, ∅⟩ : PcXn (Fin 2) ringDom),
      ⟨{ ringPc with rvbls := [1, 1] }, Finset.univ.filter fun e => (e.1 1).val = 0 ∧ (e.2 1).val = 1, Finset.univ⟩],
      AliasOk p.pc) ∧
    representativePc [(⟨{ ringPc with rvbls := [0, 0] }, ∅, ∅⟩ : PcXn (Fin 2) ringDom),
      ⟨{ ringPc with rvbls := [1, 1] }, Finset.univ.filter fun e => (e.1 1).val = 0 ∧ (e.2 1).val = 1,
        Finset.univ⟩] = none ∧
    symmActions ringPick ⟨ringPc.spec, 0, 0⟩ [⟨{ ringPc with rvbls := [0, 0] }, ∅, ∅⟩,
      ⟨{ ringPc with rvbls := [1, 1] }, Finset.univ.filter fun e => (e.1 1).val = 0 ∧ (e.2 1).val = 1,
        Finset.univ⟩] = some {1} := by
  refine ⟨?_, by decide +kernel, by decide +kernel⟩
  have key : ∀ (pc : SPc (Fin 2) ringDom), pc.spec = ringPc.spec → AliasOk pc := by
    intro pc hpc r r' v a _ _ _ h
    rw [hpc] at h
    have : ∀ a ∈ ringPc.spec.access, a.syntReadCk = true ∧ a.wdomsz ≠ a.domsz + 1 := by decide
    exact this a (List.mem_of_getElem? h)
  intro p hp
  simp only [List.mem_cons, List.not_mem_nil, or_false] at hp
  rcases hp with rfl | rfl <;> exact key _ rfl

/-- A process that reads one variable and writes another that it cannot read. -/
def blindPc : SPc (Fin 2) ringDom where
  symm := 0
  spec := ⟨[⟨.read, .direct, 2⟩, ⟨.effect, .puppet, 2⟩], []⟩
  rvbls := [0, 1]
  okay := ∅

/-- **C98 fails with write-only variables**: if the actions of a process assign every value to such a
variable, `Pc::actions` gives instead one action that leaves it as it is, and this action has no
transitions at all: the process has lost its actions. -/
theorem C98_write_only_lost :
    ((xnOfPc blindPc [0, 0, 0]).map fun x => decide (x = ∅)) = some false ∧
    ((xnOfPc blindPc [0, 0, 1]).map fun x => decide (x = ∅)) = some false ∧
    ((xnOfPc blindPc [0, 0, 0]).bind fun x => (xnOfPc blindPc [0, 0, 1]).bind fun y =>
      pcActions ringPick ⟨blindPc, x ∪ y, Finset.univ⟩) = some [[0, 0, 2]] ∧
    xnOfPc blindPc [0, 0, 2] = some ∅ := by
  refine ⟨by decide +kernel, by decide +kernel, by decide +kernel, by decide +kernel⟩

/-- **C97 needs distinct variables**: a process of a ring of size one whose two references mean the same
variable, one of them unreadable.  Only the action with the guard 0 is found, although there are transitions
from states with value 1. -/
theorem C97_alias :
    ∃ (pc : SPc (Fin 2) ringDom) (X : Finset (VSt (Fin 2) ringDom × VSt (Fin 2) ringDom)),
      pc.rvbls = [0, 0] ∧ pcActions ringPick ⟨pc, X, Finset.univ⟩ = some [[0, 0, 1]] ∧
      ∃ s t, (s, t) ∈ X ∧ (s 0).val = 1 := by
  refine ⟨{ blindPc with rvbls := [0, 0], spec := ⟨[⟨.read, .direct, 2⟩, ⟨.yield, .direct, 2⟩], []⟩ },
    Finset.univ.filter fun e => (e.2 0).val = 1, rfl, by decide +kernel,
    fun _ => (1 : Fin 2), fun _ => (1 : Fin 2), by decide +kernel, by decide +kernel⟩

end Verif.Props
