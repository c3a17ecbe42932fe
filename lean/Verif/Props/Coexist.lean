import Verif.Proofs.Coexist

set_option linter.unusedSectionVars false

/-!
C44: the check whether two actions can be used together.

Full property: `coexist_ck(a,b) = coexist_ck(b,a)`, and it holds only if the two actions together are
deterministic and self-disabling for their process when those options are set.

Determinism, and with `force_disabling` that neither action enables the other, is proved; the decision is
characterised exactly.  Symmetry is proved with `force_disabling`, and otherwise if not both actions enable
each other or the two combined actions are equally safe; `C44_asymmetric` shows that it fails otherwise.  What
is missing: an action that changes only write-only variables stays enabled after itself
(`C44_self_loop_accepted`).
-/

namespace Verif.Props

open Verif.Model Verif.Spec Verif.Proofs

/-- Exact decision for two actions of one process. -/
theorem C44_exact (p : ℕ) (pc : PcSymm) (safe : List ℕ → Bool) (force pure : Bool) (a b : List ℕ)
    (ha : IsAct pc a) (hb : IsAct pc b) :
    coexistCk p p pc safe force pure a b = true ↔
      ¬ BothEnabled pc a b ∧
        (Apart pc a b ∨ HasRandomWrite pc ∨
          ((HasWriteOnly pc ∨ ¬ SelfLoop pc a ∧ ¬ SelfLoop pc b) ∧
            (Enables pc a b ∧ ¬ SelfLoop pc b → force = false ∧ safe (mixed pc a b) = false) ∧
            (¬ (Enables pc a b ∧ ¬ SelfLoop pc b) → Enables pc b a ∧ ¬ SelfLoop pc a →
              force = false ∧ safe (mixed pc b a) = false))) := by
  have hdet := enLoop_det (pc := pc) (a := a) (b := b)
  have hen := enLoop_en (pc := pc) (a := a) (b := b)
  have hboth := bothEnabled_iff ha hb
  have hap := apart_iff ha hb
  have hadj := adjEql_iff (pc := pc) (a := a) (b := b)
  have hrnd := random_iff (pc := pc)
  have hwo := writeonly_iff (pc := pc)
  unfold coexistCk
  simp only [ne_eq, not_true_eq_false, if_false]
  by_cases hD : ∃ j, Differs pc a b j
  · have hA : readableAdjEql pc a b = false := by
      rw [Bool.eq_false_iff, Ne, hadj]
      intro h
      obtain ⟨j, x, hx, hr, hd⟩ := hD
      exact hd (h j x hx hr)
    have hB : ¬ BothEnabled pc a b := fun h => hboth.1 h hD
    have hd2 := hdet.2 hD
    simp only [hA, Bool.false_and, Bool.and_false, Bool.false_eq_true, if_false, hd2, Bool.not_true, hB,
      not_false_eq_true, true_and]
    by_cases hF : ∃ i, Fixed pc a b i
    · have he : (enLoop pc a b (List.range pc.access.length) true false).1 = false := by
        rw [Bool.eq_false_iff, Ne, hen]
        exact fun h => h _ hF.choose_spec
      simp [he, hap.2 hF]
    · have he : (enLoop pc a b (List.range pc.access.length) true false).1 = true :=
        hen.2 fun j hj => hF ⟨j, hj⟩
      have hnA : ¬ Apart pc a b := fun h => hF (hap.1 h)
      by_cases hR : HasRandomWrite pc
      · simp [he, hrnd.2 hR, hR]
      · have hr2 : (List.range pc.wmap.length).any (pc.wacc Access.randomWriteCk) = false := by
          rw [Bool.eq_false_iff, Ne, hrnd]; exact hR
        have hsa := selfLoop_iff ha hR
        have hsb := selfLoop_iff hb hR
        have heab : Enables pc a b ↔ assignsGuard pc a b = true := by
          rw [enables_iff ha hb hR]
          exact ⟨fun h => h.1, fun h => ⟨h, fun j hj => hF ⟨j, hj⟩⟩⟩
        have heba : Enables pc b a ↔ assignsGuard pc b a = true := by
          rw [enables_iff hb ha hR]
          exact ⟨fun h => h.1, fun h => ⟨h, fun j hj => hF ⟨j, fixed_comm.1 hj⟩⟩⟩
        simp only [he, hr2, Bool.not_true, Bool.false_eq_true, if_false, hnA, hR, false_or, hsa, hsb, heab, heba,
          ← hwo, mixed, mixAct]
        generalize assignsGuard pc a a = s1
        generalize assignsGuard pc b b = s2
        generalize assignsGuard pc a b = s3
        generalize assignsGuard pc b a = s4
        generalize (List.range pc.wmap.length).any (pc.wacc Access.syntWriteonlyCk) = w
        generalize safe _ = t1
        generalize safe _ = t2
        cases s1 <;> cases s2 <;> cases s3 <;> cases s4 <;> cases w <;> cases t1 <;> cases t2 <;> cases force <;>
          decide
  · have hB : BothEnabled pc a b := hboth.2 hD
    have hd2 : (enLoop pc a b (List.range pc.access.length) true false).2 = false := by
      rw [Bool.eq_false_iff, Ne, hdet]; exact hD
    simp [hd2, hB]

/-- Actions of different processes are never in conflict. -/
theorem C44_other_process (p q : ℕ) (h : p ≠ q) (pc : PcSymm) (safe : List ℕ → Bool) (force pure : Bool)
    (a b : List ℕ) : coexistCk p q pc safe force pure a b = true := by
  simp [coexistCk, h]

/-- Actions accepted together are deterministic: no local state enables both. -/
theorem C44_deterministic (p : ℕ) (pc : PcSymm) (safe : List ℕ → Bool) (force pure : Bool) (a b : List ℕ)
    (ha : IsAct pc a) (hb : IsAct pc b) (h : coexistCk p p pc safe force pure a b = true) (s : ℕ → ℕ) :
    ¬ (LEnabled pc a s ∧ LEnabled pc b s) :=
  fun hs => ((C44_exact p pc safe force pure a b ha hb).1 h).1 ⟨s, hs⟩

/-- With `force_disabling` and without random writes, after one of the actions the other can only be enabled
if it changes nothing but write-only variables. -/
theorem C44_disabling_partial (p : ℕ) (pc : PcSymm) (safe : List ℕ → Bool) (pure : Bool) (a b : List ℕ)
    (ha : IsAct pc a) (hb : IsAct pc b) (hn : ¬ HasRandomWrite pc)
    (h : coexistCk p p pc safe true pure a b = true) :
    (∀ s t, LStep pc a s t → LEnabled pc b t → SelfLoop pc b ∧ HasWriteOnly pc) ∧
    (∀ s t, LStep pc b s t → LEnabled pc a t → SelfLoop pc a ∧ HasWriteOnly pc) := by
  obtain ⟨-, h2⟩ := (C44_exact p pc safe true pure a b ha hb).1 h
  rcases h2 with h2 | h2 | ⟨h3, h4, h5⟩
  · have hF := (apart_iff ha hb).1 h2
    refine ⟨fun s t hs ht => ?_, fun s t hs ht => ?_⟩
    · exact absurd hF.choose_spec (((enables_iff ha hb hn).1 ⟨s, t, hs, ht⟩).2 _)
    · exact absurd (fixed_comm.1 hF.choose_spec) (((enables_iff hb ha hn).1 ⟨s, t, hs, ht⟩).2 _)
  · exact absurd h2 hn
  · have hab : Enables pc a b → SelfLoop pc b := fun he => by
      by_contra hsl
      cases (h4 ⟨he, hsl⟩).1
    have hba : Enables pc b a → SelfLoop pc a := fun he => by
      by_contra hsl
      have h6 := h5 (fun h6 => h6.2 (hab h6.1)) ⟨he, hsl⟩
      cases h6.1
    refine ⟨fun s t hs ht => ?_, fun s t hs ht => ?_⟩
    · have h6 := hab ⟨s, t, hs, ht⟩
      exact ⟨h6, h3.resolve_right fun h7 => h7.2 h6⟩
    · have h6 := hba ⟨s, t, hs, ht⟩
      exact ⟨h6, h3.resolve_right fun h7 => h7.1 h6⟩

/-- With `force_disabling`, a rejected pair is not deterministic, or one action enables the other, or one is a
self loop although the process has no write-only variable. -/
theorem C44_rejected (p : ℕ) (pc : PcSymm) (safe : List ℕ → Bool) (pure : Bool) (a b : List ℕ)
    (ha : IsAct pc a) (hb : IsAct pc b) (h : coexistCk p p pc safe true pure a b = false) :
    BothEnabled pc a b ∨ Enables pc a b ∨ Enables pc b a ∨
      (¬ HasWriteOnly pc ∧ (SelfLoop pc a ∨ SelfLoop pc b)) := by
  by_contra hc
  push Not at hc
  obtain ⟨h1, h2, h3, h4⟩ := hc
  have : coexistCk p p pc safe true pure a b = true := by
    refine (C44_exact p pc safe true pure a b ha hb).2 ⟨h1, Or.inr (Or.inr ⟨?_, ?_, ?_⟩)⟩
    · by_cases hw : HasWriteOnly pc
      · exact Or.inl hw
      · exact Or.inr (h4 hw)
    · exact fun h5 => absurd h5.1 h2
    · exact fun _ h5 => absurd h5.1 h3
  rw [h] at this
  cases this

/-- The option `pure_actions` has no effect. -/
theorem C44_pure_actions_no_effect (p q : ℕ) (pc : PcSymm) (safe : List ℕ → Bool) (force : Bool) (a b : List ℕ) :
    coexistCk p q pc safe force true a b = coexistCk p q pc safe force false a b := by
  unfold coexistCk
  by_cases hA : readableAdjEql pc a b = true
  · have hd : (enLoop pc a b (List.range pc.access.length) true false).2 = false := by
      rw [Bool.eq_false_iff, Ne, enLoop_det]
      rintro ⟨j, x, hx, hr, hd⟩
      exact hd (adjEql_iff.1 hA j x hx hr)
    simp [hd]
  · simp [Bool.eq_false_iff.2 hA]

/-- Symmetry, unless both actions enable each other and only one of the combined actions is safe. -/
theorem C44_symmetric_partial (p q : ℕ) (pc : PcSymm) (safe : List ℕ → Bool) (force pure : Bool) (a b : List ℕ)
    (ha : IsAct pc a) (hb : IsAct pc b)
    (h : force = true ∨ ¬ (Enables pc a b ∧ Enables pc b a) ∨ safe (mixed pc a b) = safe (mixed pc b a)) :
    coexistCk p q pc safe force pure a b = coexistCk q p pc safe force pure b a := by
  by_cases hpq : p = q
  · subst hpq
    have hB : BothEnabled pc a b ↔ BothEnabled pc b a := by
      unfold BothEnabled; simp only [and_comm]
    have hA : Apart pc a b ↔ Apart pc b a := by
      rw [apart_iff ha hb, apart_iff hb ha]
      exact exists_congr fun i => fixed_comm
    rw [Bool.eq_iff_iff, C44_exact p pc safe force pure a b ha hb, C44_exact p pc safe force pure b a hb ha, hB, hA]
    refine and_congr_right fun _ => or_congr_right (or_congr_right ?_)
    by_cases h1 : Enables pc a b <;> by_cases h2 : Enables pc b a <;> by_cases h3 : SelfLoop pc a <;>
      by_cases h4 : SelfLoop pc b <;> cases force <;> simp_all
  · rw [C44_other_process p q hpq, C44_other_process q p (Ne.symm hpq)]

section Safe

variable {V : Type} [Fintype V] [DecidableEq V] {dom : V → ℕ}

/-- Without write-only variables, an action that assigns what it reads has no transitions. -/
theorem selfLoop_empty (pc : SPc V dom) (hw : ¬ HasWriteOnly pc.spec) (a : List ℕ)
    (hs : assignsGuard pc.spec a a = true) (hr : ¬ HasRandomWrite pc.spec) :
    ∀ x, xnOfPc pc a = some x → x = ∅ := by
  intro x hx
  unfold xnOfPc at hx
  cases h1 : pc.wEnts a with
  | none => simp [h1] at hx
  | some ws =>
    cases h2 : pc.rEnts a with
    | none => simp [h1, h2] at hx
    | some rs =>
      simp only [h1, h2] at hx
      split at hx
      · have hent : ∀ w ∈ ws, w.acc ∈ pc.spec.access ∧ Written w.acc ∧ (Readable w.acc → w.aguard = w.assign) := by
          intro w hwm
          unfold SPc.wEnts at h1
          obtain ⟨e, he, hf⟩ := (mem_mapM_iff h1 w).1 hwm
          simp only [Option.bind_eq_some_iff, Option.map_eq_some_iff] at hf
          obtain ⟨v, hv, acc, hacc, g, hg, y, hy, rfl⟩ := hf
          have hw1 : pc.spec.wmap[e.2]? = some e.1 := List.mem_zipIdx_iff_getElem?.1 he
          obtain ⟨x', hx', hwr⟩ := mem_wmap_written.1 (List.mem_of_getElem? hw1)
          rw [hacc] at hx'
          cases hx'
          refine ⟨List.mem_of_getElem? hacc, hwr, fun hrd => ?_⟩
          have h3 := assignsGuard_iff.1 hs e.1 acc hacc hwr hrd
          rw [asg, slot_wmap hw1, actGuard, List.getD_eq_getElem?_getD, List.getD_eq_getElem?_getD, hy, hg] at h3
          exact h3.symm
        have hnr : ∀ w ∈ ws, w.acc.randomWriteCk = false := fun w hwm => by
          rw [Bool.eq_false_iff]
          intro h
          exact hr ⟨w.acc, (hent w hwm).1, by simpa [Access.randomWriteCk] using h⟩
        have hrd : ∀ w ∈ ws, Readable w.acc := fun w hwm => by
          by_contra h
          exact hw ⟨w.acc, (hent w hwm).1, (hent w hwm).2.1, h⟩
        have hp : (ws.any fun w => w.acc.syntReadCk && w.acc.randomWriteCk) = false := by
          rw [Bool.eq_false_iff]
          intro h
          obtain ⟨w, hwm, h⟩ := List.any_eq_true.1 h
          simp [hnr w hwm] at h
        have hl : (ws.all fun w => !(w.acc.syntReadCk && !w.acc.randomWriteCk && w.aguard != w.assign)) = true := by
          rw [List.all_eq_true]
          intro w hwm
          simp [(hent w hwm).2.2 (hrd w hwm)]
        have hf : (ws.foldl (fun g w =>
            if w.acc.syntWriteonlyCk && decide (w.assign < w.acc.domsz)
            then g ∪ Finset.univ.filter fun e : VSt V dom × VSt V dom => (e.1 w.v).val ≠ w.assign else g) ∅) =
            (∅ : Finset (VSt V dom × VSt V dom)) := by
          clear h1 hl hp hnr hent
          revert hrd
          clear hx
          rename_i hcl
          clear hcl
          induction ws with
          | nil => intro _; rfl
          | cons w l ih =>
            intro hrd
            have : w.acc.syntWriteonlyCk = false := by
              simp [Access.syntWriteonlyCk, (syntReadCk_iff _).2 (hrd w (by simp))]
            simp only [List.foldl_cons, this, Bool.false_and, Bool.false_eq_true, if_false]
            exact ih fun w hw => hrd w (by simp [hw])
        simp only [hp, hl, Bool.not_false, Bool.and_self, if_true, hf, Finset.inter_empty, Option.some.injEq] at hx
        rw [← hx]
        clear hx h2
        induction rs with
        | nil => rfl
        | cons r l ih =>
          simp only [List.foldl_cons, Finset.empty_inter]
          split <;> exact ih
      · cases hx

/-- Symmetry for processes without write-only variables, for the safety check of the program: if `a` and `b`
enable each other, both combined actions do nothing.  `reps` gives the actions represented by an action, of
which it is used that they do nothing if the action does nothing. -/
theorem C44_symmetric_no_writeonly (p q : ℕ) (pc : SPc V dom) (permit forbid mask : Finset (VSt V dom × VSt V dom))
    (reps : List ℕ → List (List ℕ)) (force pure : Bool) (a b : List ℕ)
    (ha : IsAct pc.spec a) (hb : IsAct pc.spec b) (hw : ¬ HasWriteOnly pc.spec)
    (hreps : ∀ x, IsAct pc.spec x → SelfLoop pc.spec x → ∀ r ∈ reps x, IsAct pc.spec r ∧ SelfLoop pc.spec r) :
    let safe := fun x => safeCk permit forbid ((representedXn pc mask (reps x)).getD ∅)
    coexistCk p q pc.spec safe force pure a b = coexistCk q p pc.spec safe force pure b a := by
  intro safe
  by_cases hR : HasRandomWrite pc.spec
  · by_cases hpq : p = q
    · subst hpq
      have hB : BothEnabled pc.spec a b ↔ BothEnabled pc.spec b a := by
        unfold BothEnabled; simp only [and_comm]
      rw [Bool.eq_iff_iff, C44_exact p pc.spec safe force pure a b ha hb,
        C44_exact p pc.spec safe force pure b a hb ha]
      simp [hR, hB]
    · rw [C44_other_process p q hpq, C44_other_process q p (Ne.symm hpq)]
  · refine C44_symmetric_partial p q pc.spec safe force pure a b ha hb ?_
    by_cases hen : Enables pc.spec a b ∧ Enables pc.spec b a
    · refine Or.inr (Or.inr ?_)
      have key : ∀ a b, IsAct pc.spec a → IsAct pc.spec b → Enables pc.spec b a →
          (representedXn pc mask (reps (mixed pc.spec a b))).getD ∅ = ∅ := by
        intro a b ha hb hba
        have hlen : pc.spec.access.length ≤ a.length := by rw [ha.1, slot]; omega
        have hlt : (a.take pc.spec.access.length).length = pc.spec.access.length := by simp [hlen]
        have hm : IsAct pc.spec (mixed pc.spec a b) := by
          refine ⟨?_, fun i x v hx hr hwx hv => ?_⟩
          · have := hb.1
            rw [mixed, List.length_append, hlt, List.length_drop, this, slot]
            omega
          · refine hb.2 i x v hx hr hwx ?_
            rw [← hv, mixed, List.getElem?_append_right (by rw [hlt, slot]; omega), hlt, List.getElem?_drop]
            congr 1
            rw [slot]; omega
        have hsl : SelfLoop pc.spec (mixed pc.spec a b) := by
          rw [selfLoop_iff hm hR, assignsGuard_iff]
          intro i x hx hwx hr
          have h1 := assignsGuard_iff.1 ((enables_iff hb ha hR).1 hba).1 i x hx hwx hr
          have hi := (List.getElem?_eq_some_iff.1 hx).1
          have h2 : asg pc.spec (mixed pc.spec a b) i = asg pc.spec b i := by
            rw [asg, asg, List.getD_eq_getElem?_getD, List.getD_eq_getElem?_getD, mixed,
              List.getElem?_append_right (by rw [hlt, slot]; omega), hlt, List.getElem?_drop]
            congr 2
            rw [slot]; omega
          have h3 : actGuard (mixed pc.spec a b) i = actGuard a i := by
            rw [actGuard, actGuard, List.getD_eq_getElem?_getD, List.getD_eq_getElem?_getD, mixed,
              List.getElem?_append_left (by rw [hlt]; exact hi), List.getElem?_take_of_lt hi]
          rw [h2, h3, h1]
        have hall := hreps _ hm hsl
        unfold representedXn
        cases hx : (reps (mixed pc.spec a b)).mapM (xnOfPc pc) with
        | none => rfl
        | some l =>
          have hl : ∀ x ∈ l, x = ∅ := by
            intro x hxl
            obtain ⟨r, hr, h⟩ := (mem_mapM_iff hx x).1 hxl
            exact selfLoop_empty pc hw r ((selfLoop_iff (hall r hr).1 hR).1 (hall r hr).2) hR x h
          have hf : l.foldl (fun xn x => xn ∪ x) ∅ = (∅ : Finset (VSt V dom × VSt V dom)) := by
            clear hx
            induction l with
            | nil => rfl
            | cons y l ih =>
              have hy := hl y (by simp)
              subst hy
              exact ih fun x hx => hl x (by simp [hx])
          simp [hf]
      show safeCk _ _ _ = safeCk _ _ _
      rw [key a b ha hb hen.2, key b a hb ha hen.1]
    · exact Or.inr (Or.inl hen)

end Safe

/-! ### Examples -/

/-- A process that writes `x` and yields `y`, both with values 0 and 1. -/
def exYield : PcSymm := ⟨[⟨.write, .direct, 2⟩, ⟨.yield, .direct, 2⟩], []⟩

/-- The process in a system with the variables `x` and `y`. -/
def exYieldPc : SPc (Fin 2) fun _ => 2 := ⟨0, exYield, [0, 1], ∅⟩

/-- The safety check when actions changing only `y` from 0 to 1 are forbidden. -/
def exSafe (x : List ℕ) : Bool :=
  safeCk (dom := fun _ : Fin 2 => 2) ∅
    (Finset.univ.filter fun e => e.1 0 = 0 ∧ e.2 0 = 0 ∧ e.2 1 = 1)
    ((representedXn exYieldPc ∅ [x]).getD ∅)

/-- Symmetry fails: `x=0 --> x:=1; y:=0` and `x=1 --> x:=0; y:=1` are accepted in one order and rejected in
the other. -/
theorem C44_asymmetric :
    coexistCk 0 0 exYield exSafe false false [0, 0, 1, 0] [1, 0, 0, 1] = true ∧
    coexistCk 0 0 exYield exSafe false false [1, 0, 0, 1] [0, 0, 1, 0] = false := by
  decide +kernel

/-- With `force_disabling`, an accepted action can stay enabled forever: `x=0 --> y:=1` with
`x=1 --> x:=1; y:=0`. -/
theorem C44_self_loop_accepted :
    coexistCk 0 0 exYield exSafe true false [0, 0, 0, 1] [1, 0, 1, 0] = true ∧
    LStep exYield [0, 0, 0, 1] (fun _ => 0) (fun i => if i = 1 then 1 else 0) ∧
    LEnabled exYield [0, 0, 0, 1] (fun i => if i = 1 then 1 else 0) := by
  refine ⟨by decide +kernel, ⟨?_, ?_⟩, ?_⟩
  · intro i x hx hr
    match i, hx with
    | 0, hx => rfl
    | 1, hx => rfl
    | i + 2, hx => simp [exYield] at hx
  · intro i x hx
    match i, hx with
    | 0, hx =>
      simp [exYield] at hx
      subst hx
      simp [Written, slot, exYield]
    | 1, hx =>
      simp [exYield] at hx
      subst hx
      simp [Written, slot, exYield]
    | i + 2, hx => simp [exYield] at hx
  · intro i x hx hr
    match i, hx with
    | 0, hx => rfl
    | 1, hx =>
      simp [exYield] at hx
      subst hx
      simp [Readable] at hr
    | i + 2, hx => simp [exYield] at hx

/-- A process that reads `y` and writes `x`. -/
def exRead : PcSymm := ⟨[⟨.read, .direct, 2⟩, ⟨.write, .direct, 3⟩], []⟩

theorem exRead_isAct (u v w : ℕ) (h : w < 3) : IsAct exRead [u, v, w] := by
  refine ⟨rfl, fun i x y hx hr hw hy => ?_⟩
  match i, hx with
  | 0, hx =>
    simp [exRead] at hx
    subst hx
    simp [Written] at hw
  | 1, hx =>
    simp [exRead] at hx
    subst hx
    simp [slot, exRead, Written] at hy
    show y < 3
    omega
  | i + 2, hx => simp [exRead] at hx

example : IsAct exRead [0, 0, 1] ∧ IsAct exRead [0, 2, 1] ∧ IsAct exRead [0, 1, 2] ∧
    coexistCk 0 0 exRead (fun _ => true) true false [0, 0, 1] [0, 2, 1] = true ∧
    coexistCk 0 0 exRead (fun _ => true) true false [0, 0, 1] [0, 1, 2] = false ∧
    coexistCk 0 0 exRead (fun _ => true) true false [0, 0, 1] [1, 1, 2] = true ∧
    coexistCk 0 0 exRead (fun _ => true) true false [0, 0, 1] [0, 0, 2] = false ∧
    coexistCk 0 0 exRead (fun _ => true) true false [0, 0, 0] [0, 1, 2] = false :=
  ⟨exRead_isAct _ _ _ (by decide), exRead_isAct _ _ _ (by decide), exRead_isAct _ _ _ (by decide),
    by decide +kernel⟩

example : ¬ HasRandomWrite exRead ∧ ¬ HasWriteOnly exRead := by
  constructor
  · rintro ⟨x, hx, h⟩
    simp [exRead] at hx
    rcases hx with rfl | rfl <;> simp at h
  · rintro ⟨x, hx, h, h2⟩
    simp [exRead] at hx
    rcases hx with rfl | rfl <;> simp [Written, Readable] at h h2

end Verif.Props
