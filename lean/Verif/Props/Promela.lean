import Verif.Proofs.Promela

/-!
# Property C109: the Promela models

`promela` is `OPutPromelaModel` (src/promela.cc:147-239) and `unrollAction` is `Net::unroll_action`
(src/xnsys.cc:414-477), see Model/Promela; the meaning of the written models is in Spec/Promela.
-/

set_option linter.unusedSectionVars false

namespace Verif.Props
open Verif.Spec Verif.Model Verif.Proofs

variable {σ : Type} [DecidableEq σ]

/-- C109 (unrolling): whatever states are picked, an action is unrolled to the list, without repetitions, of what its
transitions read and write; accesses to pure shadow variables and random writes are listed as 0. -/
theorem C109_unroll {pick : Finset σ → Option σ} (hp : ∀ S : Finset σ, S.Nonempty → ∃ s ∈ S, pick S = some s)
    (c : ℕ) (k : PmKind) (rd : σ → PmAcc → ℕ) (xn : Finset (σ × σ)) (assume : Finset σ) :
    ∃ acts, unrollAction true c k rd pick xn assume = some acts ∧ acts.Nodup ∧
      ∀ a, a ∈ acts ↔ ∃ e ∈ xn, e.1 ∈ assume ∧ a.kind = c ∧
        a.guards = k.accs.map (fun x => if x.acc.role = .shadow then 0 else rd e.1 x) ∧
        a.assigns = (k.accs.filter fun x => x.acc.writeCk).map
          (fun x => if x.acc.role = .shadow ∨ x.acc.type = .randomWrite then 0 else rd e.2 x) := by
  obtain ⟨acts, h1, h2, h3⟩ := unrollPre_spec (c := c) (k := k) (rd := rd) hp _
    (xn.filter fun e => e.1 ∈ assume) (Nat.lt_succ_self _)
  have hG : ∀ s, unrollGuards k rd s = k.accs.map (fun x => if x.acc.role = .shadow then 0 else rd s x) := by
    intro s
    refine List.map_congr_left fun x _ => ?_
    rcases x with ⟨⟨ty, ro, d⟩, v, e⟩
    cases ty <;> cases ro <;> rfl
  have hA : ∀ t, unrollAssigns k rd t = (k.accs.filter fun x => x.acc.writeCk).map
      (fun x => if x.acc.role = .shadow ∨ x.acc.type = .randomWrite then 0 else rd t x) := by
    intro t
    refine List.map_congr_left fun x hx => ?_
    have hx := (List.mem_filter.mp hx).2
    rcases x with ⟨⟨ty, ro, d⟩, v, e⟩
    cases ty <;> cases ro <;> first | rfl | exact absurd hx (by simp [Access.writeCk])
  refine ⟨acts, h1, h2, fun a => ?_⟩
  rw [h3]
  constructor
  · rintro ⟨e, he, rfl⟩
    obtain ⟨he1, he2⟩ := Finset.mem_filter.mp he
    exact ⟨e, he1, he2, rfl, hG _, hA _⟩
  · rintro ⟨e, he1, he2, hc, hg, ha⟩
    refine ⟨e, Finset.mem_filter.mpr ⟨he1, he2⟩, ?_⟩
    rw [hG, hA, ← hg, ← ha, ← hc]

/-- C109 (references): for every process of the kind, the written index is within the array, and is the index
expression modulo the number of members. -/
theorem C109_reference (size : ℕ → ℕ) (k : PmKind) (a : PmAcc) (hsz : 0 < size a.vbl) (j : ℕ) (hj : j < k.membs) :
    (pmRef size k a).loc size j = some (a.expr j % size a.vbl).toNat :=
  pmRef_loc size k a hsz j hj

/-- The members of arrays that process `j` accesses. -/
def pmMembs (size : ℕ → ℕ) (l : List PmAcc) (j : ℕ) : List (ℕ × ℕ) :=
  l.map fun a => (a.vbl, (a.expr j % (size a.vbl : ℤ)).toNat)

/-- What is assumed of the system and its actions. -/
structure PmSetting (size : ℕ → ℕ) (kinds : List PmKind) (acts : List PmAct) : Prop where
  nonempty : ∀ k ∈ kinds, ∀ a ∈ k.accs, 0 < size a.vbl
  lengths : ∀ a ∈ acts, ∀ k, kinds[a.kind]? = some k →
    a.guards.length = k.accs.length ∧ a.assigns.length = k.waccs.length
  distinct : ∀ k ∈ kinds, ∀ j < k.membs, (pmMembs size k.waccs j).Nodup

/-- No kind of processes without actions comes before one with actions. -/
def NoGap (kinds : List PmKind) (acts : List PmAct) : Prop :=
  ∀ a ∈ acts, ∀ k, kinds[a.kind]? = some k → 0 < k.membs →
    ∀ c < a.kind, ∀ k', kinds[c]? = some k' → 0 < k'.membs → ∃ a' ∈ acts, a'.kind = c

/-- C109 (moves): if no kind without actions comes before one with actions, then the moves of the written model are
the steps of the processes by the listed actions.  (Full statement: without `NoGap`; it fails, see `C109_gap`.) -/
theorem C109_moves_partial {size : ℕ → ℕ} {kinds : List PmKind} {acts : List PmAct}
    (hs : PmSetting size kinds acts) (hgap : NoGap kinds acts) {sort : List PmAct → List PmAct}
    (hsort : ∀ l, (sort l).Perm l) (s t : PmState) :
    PmStep size (promela size sort acts kinds) s t ↔
      ∃ a ∈ acts, ∃ k, kinds[a.kind]? = some k ∧ ∃ j < k.membs,
        PmProto (pmMembs size k.accs j) (pmMembs size k.waccs j) a.guards a.assigns s t := by
  have hmem : ∀ a, a ∈ sort acts ↔ a ∈ acts := fun a => (hsort acts).mem_iff
  have hmove : ∀ a ∈ acts, ∀ k, kinds[a.kind]? = some k → ∀ j < k.membs,
      (((∀ g ∈ (pmAction size k a).1, ∃ m, g.1.loc size (j : ℤ) = some m ∧ s g.1.vbl m = g.2) ∧
        pmAssign size j (pmAction size k a).2 s = some t) ↔
      PmProto (pmMembs size k.accs j) (pmMembs size k.waccs j) a.guards a.assigns s t) := by
    intro a ha k hk j hj
    have hkm := List.mem_of_getElem? hk
    exact pmMove_iff size k a j hj (hs.nonempty k hkm) (hs.lengths a ha k hk).1 (hs.lengths a ha k hk).2
      (hs.distinct k hkm j hj) s t
  have hcount : ∀ ks1 k ks2, kinds = ks1 ++ k :: ks2 → 0 < k.membs → (∃ a ∈ acts, a.kind = ks1.length) →
      ((pmKinds size (sort acts) 0 ks1 1).map PmProc.count).sum = (ks1.map PmKind.membs).sum := by
    intro ks1 k ks2 hk hm ⟨a, ha, hak⟩
    apply pmKinds_count
    intro i k' hi hm'
    have hlt : i < ks1.length := (List.getElem?_eq_some_iff.mp hi).1
    obtain ⟨a', ha', he⟩ := hgap a ha k (by rw [hk, hak]; simp) hm i (by omega) k'
      (by rw [hk, List.getElem?_append_left hlt]; exact hi) hm'
    exact ⟨a', (hmem _).mpr ha', by omega⟩
  constructor
  · rintro ⟨pre, p, post, hsplit, q, hq, a0, ha0, hmv⟩
    obtain ⟨ks1, k, ks2, hk, rfl, hp⟩ := pmKinds_split size (sort acts) p post kinds 0 1 pre hsplit
    rcases pmKind_cases size (sort acts) (0 + ks1.length) k (1 + (ks1.map PmKind.membs).sum) with ⟨he, _⟩ | ⟨he, hm, a1, ha1, hak1⟩
    · rw [he] at hp; exact absurd hp (by simp)
    · rw [he] at hp
      have hp := (List.cons.inj hp).1
      subst hp
      obtain ⟨a, haf, rfl⟩ := List.mem_map.mp ha0
      obtain ⟨ha, hak⟩ := List.mem_filter.mp haf
      have hak : a.kind = ks1.length := by simpa using hak
      have ha := (hmem _).mp ha
      have hka : kinds[a.kind]? = some k := by rw [hk, hak]; simp
      refine ⟨a, ha, k, hka, q, hq, (hmove a ha k hka q hq).mp ?_⟩
      rw [hcount ks1 k ks2 hk hm ⟨a, ha, hak⟩] at hmv
      have hi : ((1 + (ks1.map PmKind.membs).sum + q : ℕ) : ℤ) - ((1 + (ks1.map PmKind.membs).sum : ℕ) : ℤ) = (q : ℤ) := by
        push_cast; omega
      simp only [hi] at hmv
      exact hmv
  · rintro ⟨a, ha, k, hka, j, hj, hpr⟩
    have hmv := (hmove a ha k hka j hj).mpr hpr
    obtain ⟨hlt, hget⟩ := List.getElem?_eq_some_iff.mp hka
    have hk : kinds = kinds.take a.kind ++ k :: kinds.drop (a.kind + 1) := by
      rw [← hget, List.cons_getElem_drop_succ, List.take_append_drop]
    have hlen : (kinds.take a.kind).length = a.kind := by rw [List.length_take]; omega
    generalize kinds.take a.kind = ks1 at hk hlen
    generalize kinds.drop (a.kind + 1) = ks2 at hk
    rcases pmKind_cases size (sort acts) (0 + ks1.length) k (1 + (ks1.map PmKind.membs).sum) with ⟨_, h0 | h0⟩ | ⟨he, hm, _⟩
    · omega
    · exact absurd (by omega) (h0 a ((hmem _).mpr ha))
    · refine ⟨pmKinds size (sort acts) 0 ks1 1, ⟨k.membs, 1 + (ks1.map PmKind.membs).sum,
          ((sort acts).filter fun a => a.kind = 0 + ks1.length).map (pmAction size k)⟩, pmKinds size (sort acts) (0 + ks1.length + 1) ks2
        (1 + (ks1.map PmKind.membs).sum + k.membs), ?_, j, ?_, pmAction size k a, ?_, ?_⟩
      · unfold promela
        rw [hk, pmKinds_append, pmKinds, he]
        rfl
      · exact hj
      · exact List.mem_map.mpr ⟨a, List.mem_filter.mpr ⟨(hmem _).mpr ha, by simpa using hlen.symm⟩, rfl⟩
      · rw [hcount ks1 k ks2 hk hm ⟨a, ha, hlen.symm⟩]
        have hi : ((1 + (ks1.map PmKind.membs).sum + j : ℕ) : ℤ) - ((1 + (ks1.map PmKind.membs).sum : ℕ) : ℤ) = (j : ℤ) := by
          push_cast; omega
        simp only [hi]
        exact hmv

/-- C109 (the whole model): if no kind without actions comes before one with actions, every kind has a representative
process, and there are no pure shadow variables and no random writes, then the moves of the written model are the steps
of the processes: process `j` of a kind steps from `s` to `t` if there is a transition of one of the actions of the kind
whose values it has before and after, and everything it does not write is kept.  (Full statement: without these
restrictions; see `C109_gap`, `C109_shadow`, `C109_random`, `C109_no_representative`.) -/
theorem C109_model_partial {size : ℕ → ℕ} {kinds : List PmKind} {units : List (PmUnit σ)}
    {rd : ℕ → σ → PmAcc → ℕ} {pick : Finset σ → Option σ}
    (hp : ∀ S : Finset σ, S.Nonempty → ∃ s ∈ S, pick S = some s)
    (hkind : ∀ u ∈ units, u.kind < kinds.length ∧ u.rep = true)
    (hplain : ∀ k ∈ kinds, ∀ a ∈ k.accs, a.acc.role ≠ .shadow ∧ a.acc.type ≠ .randomWrite)
    (hsize : ∀ k ∈ kinds, ∀ a ∈ k.accs, 0 < size a.vbl)
    (hdist : ∀ k ∈ kinds, ∀ j < k.membs, (pmMembs size k.waccs j).Nodup)
    {sort : List PmAct → List PmAct} (hsort : ∀ l, (sort l).Perm l) :
    ∃ acts, unrollAll kinds rd pick units = some acts ∧
      (NoGap kinds acts → ∀ s t : PmState, PmStep size (promela size sort acts kinds) s t ↔
        ∃ u ∈ units, ∃ e ∈ u.xn, e.1 ∈ u.assume ∧ ∃ k, kinds[u.kind]? = some k ∧ ∃ j < k.membs,
          PmProto (pmMembs size k.accs j) (pmMembs size k.waccs j)
            (k.accs.map (rd u.kind e.1)) (k.waccs.map (rd u.kind e.2)) s t) := by
  have hall : ∃ acts, unrollAll kinds rd pick units = some acts ∧
      ∀ a, a ∈ acts ↔ ∃ u ∈ units, ∃ e ∈ u.xn, e.1 ∈ u.assume ∧ ∃ k, kinds[u.kind]? = some k ∧
        a = ⟨u.kind, k.accs.map (rd u.kind e.1), k.waccs.map (rd u.kind e.2)⟩ := by
    induction units with
    | nil => exact ⟨[], rfl, by simp⟩
    | cons u us ih =>
      obtain ⟨acts, h1, h2⟩ := ih fun v hv => hkind v (List.mem_cons_of_mem _ hv)
      obtain ⟨hlt, hrep⟩ := hkind u List.mem_cons_self
      have hk : kinds[u.kind]? = some kinds[u.kind] := List.getElem?_eq_getElem hlt
      have hkm : kinds[u.kind] ∈ kinds := List.getElem_mem hlt
      generalize kinds[u.kind] = k at hk hkm
      obtain ⟨acts0, h3, _, h4⟩ := C109_unroll hp u.kind k (rd u.kind) u.xn u.assume
      have hG : ∀ s, k.accs.map (fun x => if x.acc.role = .shadow then 0 else rd u.kind s x) =
          k.accs.map (rd u.kind s) := fun s =>
        List.map_congr_left fun x hx => if_neg (hplain k hkm x hx).1
      have hA : ∀ s, (k.accs.filter fun x => x.acc.writeCk).map
          (fun x => if x.acc.role = .shadow ∨ x.acc.type = .randomWrite then 0 else rd u.kind s x) =
          k.waccs.map (rd u.kind s) := fun s =>
        List.map_congr_left fun x hx => by
          have := hplain k hkm x (List.mem_filter.mp hx).1
          exact if_neg (by tauto)
      refine ⟨acts0 ++ acts, ?_, fun a => ?_⟩
      · simp only [unrollAll, hk, hrep, h3, h1, Option.map_some]
      · rw [List.mem_append, h2, h4]
        constructor
        · rintro (⟨e, he, hea, hc, hg, ha⟩ | ⟨v, hv, h⟩)
          · refine ⟨u, List.mem_cons_self, e, he, hea, k, hk, ?_⟩
            rcases a with ⟨c, g, w⟩
            simp only at hc hg ha
            subst hc
            rw [hg, ha, hG, hA]
          · exact ⟨v, List.mem_cons_of_mem _ hv, h⟩
        · rintro ⟨v, hv, e, he, hea, k', hk', rfl⟩
          rcases List.mem_cons.mp hv with rfl | hv
          · rw [hk] at hk'
            cases hk'
            exact Or.inl ⟨e, he, hea, rfl, (hG _).symm, (hA _).symm⟩
          · exact Or.inr ⟨v, hv, e, he, hea, k', hk', rfl⟩
  obtain ⟨acts, h1, h2⟩ := hall
  refine ⟨acts, h1, fun hgap s t => ?_⟩
  have hs : PmSetting size kinds acts := by
    refine ⟨hsize, ?_, hdist⟩
    intro a ha k hk
    obtain ⟨u, _, e, _, _, k', hk', rfl⟩ := (h2 a).mp ha
    simp only at hk
    rw [hk] at hk'
    cases hk'
    simp
  rw [C109_moves_partial hs hgap hsort]
  constructor
  · rintro ⟨a, ha, k, hk, j, hj, h⟩
    obtain ⟨u, hu, e, he, hea, k', hk', rfl⟩ := (h2 a).mp ha
    simp only at hk
    rw [hk] at hk'
    cases hk'
    exact ⟨u, hu, e, he, hea, k, hk, j, hj, h⟩
  · rintro ⟨u, hu, e, he, hea, k, hk, j, hj, h⟩
    exact ⟨_, (h2 _).mpr ⟨u, hu, e, he, hea, k, hk, rfl⟩, k, hk, j, hj, h⟩

/-! ### Cases -/

/-- A variable per process; a process reads that of its left neighbour and writes its own. -/
def pmCaseKind : PmKind :=
  ⟨3, [⟨⟨.read, .direct, 2⟩, 0, fun i => i - 1⟩, ⟨⟨.write, .direct, 2⟩, 0, fun i => i⟩]⟩

/-- The value that is read is copied. -/
def pmCaseActs (c : ℕ) : List PmAct := [⟨c, [0, 1], [0]⟩, ⟨c, [1, 0], [1]⟩]

/-- The setting of `C109_moves_partial` for two kinds, and a move: process 0 reads the member 2. -/
example : PmSetting (fun _ => 3) [pmCaseKind] (pmCaseActs 0) ∧ NoGap [pmCaseKind] (pmCaseActs 0) ∧
    PmProto (pmMembs (fun _ => 3) pmCaseKind.accs 0) (pmMembs (fun _ => 3) pmCaseKind.waccs 0) [1, 0] [1]
      (fun _ m => if m = 2 then 1 else 0) (fun x m => if x = 0 ∧ m = 0 then 1 else if m = 2 then 1 else 0) := by
  refine ⟨⟨fun _ _ _ _ => by decide, ?_, ?_⟩, ?_, ?_, ?_, ?_⟩
  · intro a ha k hk
    simp only [pmCaseActs, List.mem_cons, List.not_mem_nil, or_false] at ha
    rcases ha with rfl | rfl <;> (cases hk; decide)
  · intro k hk j hj
    rw [List.mem_singleton.mp hk]
    exact List.nodup_singleton _
  · intro a ha k hk _ c hc
    simp only [pmCaseActs, List.mem_cons, List.not_mem_nil, or_false] at ha
    rcases ha with rfl | rfl <;> simp at hc
  · decide
  · decide
  · intro x m h
    have h : ¬ (x = 0 ∧ m = 0) := by
      rintro ⟨rfl, rfl⟩
      exact h (by decide)
    exact if_neg h

/-- References of the case: `x[(i-1+3)%3]` and `x[i]`. -/
example : (pmRef (fun _ => 3) pmCaseKind ⟨⟨.read, .direct, 2⟩, 0, fun i => i - 1⟩).add = 3 ∧
    (pmRef (fun _ => 3) pmCaseKind ⟨⟨.read, .direct, 2⟩, 0, fun i => i - 1⟩).mod = 3 ∧
    (pmRef (fun _ => 3) pmCaseKind ⟨⟨.read, .direct, 2⟩, 0, fun i => i⟩).mod = 0 := by decide

/-- One process with its own variable. -/
def pmOneKind : PmKind := ⟨1, [⟨⟨.write, .direct, 2⟩, 0, fun i => i⟩]⟩

/-- C109 (gap): if a kind without actions comes before, the processes of a later kind get wrong numbers: here the only
process refers to `x[-1]`, the protocol has a step and the written model has none. -/
theorem C109_gap : ∃ (size : ℕ → ℕ) (kinds : List PmKind) (acts : List PmAct) (s t : PmState),
    PmSetting size kinds acts ∧
      (∃ a ∈ acts, ∃ k, kinds[a.kind]? = some k ∧ ∃ j < k.membs,
        PmProto (pmMembs size k.accs j) (pmMembs size k.waccs j) a.guards a.assigns s t) ∧
      ∀ s' t', ¬ PmStep size (promela size id acts kinds) s' t' := by
  refine ⟨fun _ => 1, [⟨1, []⟩, pmOneKind], [⟨1, [0], [1]⟩], fun _ _ => 0,
    fun x m => if x = 0 ∧ m = 0 then 1 else 0, ⟨fun _ _ _ _ => by decide, ?_, ?_⟩, ?_, ?_⟩
  · intro a ha k hk
    rw [List.mem_singleton.mp ha] at hk ⊢
    cases hk
    decide
  · intro k hk j hj
    simp only [List.mem_cons, List.not_mem_nil, or_false] at hk
    rcases hk with rfl | rfl
    · exact List.nodup_nil
    · exact List.nodup_singleton _
  · refine ⟨_, List.mem_singleton.mpr rfl, pmOneKind, rfl, 0, by decide, by decide, by decide, ?_⟩
    intro x m h
    exact if_neg fun ⟨hx, hm⟩ => h (by subst hx; subst hm; decide)
  · rintro s' t' ⟨pre, p, post, he, q, hq, a, ha, hg, _⟩
    have he : [(⟨1, 2, [pmAction (fun _ => 1) pmOneKind ⟨1, [0], [1]⟩]⟩ : PmProc)] = pre ++ p :: post := he
    cases pre with
    | cons _ pre => cases pre <;> simp at he
    | nil =>
      simp only [List.nil_append, List.cons.injEq] at he
      obtain ⟨rfl, _⟩ := he
      have hq : q = 0 := by simpa using hq
      subst hq
      have ha := List.mem_singleton.mp ha
      subst ha
      obtain ⟨m, hm, _⟩ := hg (pmRef (fun _ => 1) pmOneKind ⟨⟨.write, .direct, 2⟩, 0, fun i => i⟩, 0)
        List.mem_cons_self
      revert hm
      have : (pmRef (fun _ => 1) pmOneKind ⟨⟨.write, .direct, 2⟩, 0, fun i => i⟩).loc (fun _ => 1)
          (((1 + (([] : List PmProc).map PmProc.count).sum + 0 : ℕ) : ℤ) - ((2 : ℕ) : ℤ)) = none := by decide
      rw [this]
      simp

/-- States of one process: its variables 0 and 1, of two values each. -/
abbrev PmTwo := Fin 2 × Fin 2

/-- The values of the accesses. -/
def pmTwoRd (s : PmTwo) (a : PmAcc) : ℕ := if a.vbl = 0 then s.1.val else s.2.val

/-- A process that writes variable 0 and, as a shadow, variable 1. -/
def pmShadowKind : PmKind :=
  ⟨1, [⟨⟨.write, .direct, 2⟩, 0, fun i => i⟩, ⟨⟨.write, .shadow, 2⟩, 1, fun i => i⟩]⟩

/-- A process that reads and writes variable 0 and writes variable 1 randomly. -/
def pmRandomKind : PmKind :=
  ⟨1, [⟨⟨.write, .direct, 2⟩, 0, fun i => i⟩, ⟨⟨.randomWrite, .direct, 2⟩, 1, fun i => i⟩]⟩

/-- C109 (shadow variables): they are written nevertheless, as guards and assignments of 0; whatever is picked, an
action that changes the variable from 0 to 1, whatever the shadow variable is, is unrolled to one that needs the shadow
variable to be 0. -/
theorem C109_shadow (pick : Finset PmTwo → Option PmTwo)
    (hp : ∀ S : Finset PmTwo, S.Nonempty → ∃ s ∈ S, pick S = some s) :
    ∃ acts, unrollAction true 0 pmShadowKind pmTwoRd pick
        {((0, 0), (1, 1)), ((0, 1), (1, 1))} Finset.univ = some acts ∧
      (∀ a, a ∈ acts ↔ a = ⟨0, [0, 0], [1, 0]⟩) := by
  obtain ⟨acts, h1, _, h2⟩ := C109_unroll hp 0 pmShadowKind pmTwoRd
    {((0, 0), (1, 1)), ((0, 1), (1, 1))} Finset.univ
  refine ⟨acts, h1, fun a => ?_⟩
  rw [h2]
  constructor
  · rintro ⟨e, he, -, hc, hg, ha⟩
    rcases a with ⟨c, g, w⟩
    simp only [Finset.mem_insert, Finset.mem_singleton] at he
    simp only at hc hg ha
    subst hc hg ha
    rcases he with rfl | rfl <;> rfl
  · rintro rfl
    exact ⟨((0, 0), (1, 1)), by decide, Finset.mem_univ _, rfl, rfl, rfl⟩

/-- C109 (random writes): they are written as assignments of 0, although the action also has transitions that write
1. -/
theorem C109_random (pick : Finset PmTwo → Option PmTwo)
    (hp : ∀ S : Finset PmTwo, S.Nonempty → ∃ s ∈ S, pick S = some s) :
    ∃ acts, unrollAction true 0 pmRandomKind pmTwoRd pick
        {((0, 0), (1, 0)), ((0, 0), (1, 1))} Finset.univ = some acts ∧
      (∀ a, a ∈ acts ↔ a = ⟨0, [0, 0], [1, 0]⟩) := by
  obtain ⟨acts, h1, _, h2⟩ := C109_unroll hp 0 pmRandomKind pmTwoRd
    {((0, 0), (1, 0)), ((0, 0), (1, 1))} Finset.univ
  refine ⟨acts, h1, fun a => ?_⟩
  rw [h2]
  constructor
  · rintro ⟨e, he, -, hc, hg, ha⟩
    rcases a with ⟨c, g, w⟩
    simp only [Finset.mem_insert, Finset.mem_singleton] at he
    simp only at hc hg ha
    subst hc hg ha
    rcases he with rfl | rfl <;> rfl
  · rintro rfl
    exact ⟨((0, 0), (1, 0)), by decide, Finset.mem_univ _, rfl, rfl, rfl⟩

/-- C109 (no representative): without a representative process, the actions of a kind are left out. -/
theorem C109_no_representative (c : ℕ) (k : PmKind) (rd : σ → PmAcc → ℕ) (pick : Finset σ → Option σ)
    (xn : Finset (σ × σ)) (assume : Finset σ) : unrollAction false c k rd pick xn assume = some [] := rfl

/-- A way to pick that meets the hypotheses. -/
example : ∃ pick : Finset PmTwo → Option PmTwo, ∀ S : Finset PmTwo, S.Nonempty → ∃ s ∈ S, pick S = some s := by
  classical
  refine ⟨fun S => if h : S.Nonempty then some h.choose else none, fun S h => ⟨h.choose, h.choose_spec, dif_pos h⟩⟩

/-- The hypotheses of `C109_model_partial` for the process with its own variable. -/
example : (∀ k ∈ [pmCaseKind], ∀ a ∈ k.accs, a.acc.role ≠ .shadow ∧ a.acc.type ≠ .randomWrite) ∧
    (∀ k ∈ [pmCaseKind], ∀ j < k.membs, (pmMembs (fun _ => 3) k.waccs j).Nodup) := by
  refine ⟨?_, ?_⟩
  · intro k hk a ha
    rw [List.mem_singleton.mp hk] at ha
    simp only [pmCaseKind, List.mem_cons, List.not_mem_nil, or_false] at ha
    rcases ha with rfl | rfl <;> simp
  · intro k hk j _
    rw [List.mem_singleton.mp hk]
    exact List.nodup_singleton _

end Verif.Props
