import Verif.Proofs.ActionMean

/-!
C95 (a written action is read back as the tree of the action) and C96 (the action read back has the
meaning of the action written): the rules for actions, src/prot-xfile.leg:86-126, the writing of actions,
src/prot-ofile.cc:170-267, and `parse_action`, src/prot-xfile.cc:359-539.
-/

namespace Verif.Props
open Verif.Model Verif.Spec Verif.Proofs

variable {isPred : String → Bool}

/-- **C95, one action**.  If the process has a readable variable and the references are well formed, the
text written for an action is read as one action, with the guard and the assignments of the action, and
nothing of what follows is read. -/
theorem C95_action_read_back {pc : PcSymm} {ref : ℕ → String × Ex} {vals : List ℕ} {t : List Char}
    (hR : ∀ r < pc.access.length, isId (ref r).1 ∧ ∃ j, Shape isPred .expr (ref r).2 j)
    (h : actText pc (fun r => exText (refEx ref r)) vals = some t) (hr : guardEqs pc ref vals ≠ []) :
    ∃! T, IsTree pc ref vals T ∧
      ∀ rest, ∃ K, ∀ k ≥ K, actP isPred k (t ++ rest) = some (some (T, rest)) := by
  obtain ⟨T, h1, _, h2⟩ := actText_read hR h hr
  exact ⟨T, ⟨h1, h2⟩, fun T' h' => tree_unique h'.1 h1⟩

/-- **C95, all actions of a process**.  The section `puppet:` is read as the trees of the actions, in
order, up to its semicolon. -/
theorem C95_section_read_back {pc : PcSymm} {ref : ℕ → String × Ex} {acts : List (List ℕ)} {t : List Char}
    (hR : ∀ r < pc.access.length, isId (ref r).1 ∧ ∃ j, Shape isPred .expr (ref r).2 j)
    (h : puppetText pc (fun r => exText (refEx ref r)) acts = some t)
    (hr : ∀ vals ∈ acts, guardEqs pc ref vals ≠ []) (hne : acts ≠ []) :
    ∃ u Ts, t = "\n  ".toList ++ u ∧ List.Forall₂ (IsTree pc ref) acts Ts ∧
      ∀ rest, ∃ K, ∀ k ≥ K, puppetP isPred k (u ++ rest) = some (some (Ts, rest)) :=
  puppet_read hR h hr hne

variable {n : ℕ} {dom : Fin n → ℕ}

/-- **C96**.  Let the references mean the variables of the process (no constant has the same name), let
the process write each variable through one access only, and let nothing be random.  Then the text written
for an action is read back as an action whose transitions are those of the action written: the same set if
the text assigns anything; otherwise the action written has no transitions and the one read back has only
self-loops. -/
theorem C96_same_transitions (s0 : FSt n dom) {c : RdPc n dom} {ρ : IMap} {ref : ℕ → String × Ex}
    (hR : ∀ r < c.pc.spec.access.length, isId (ref r).1 ∧ ∃ j, Shape isPred .expr (ref r).2 j)
    (hr : Resolves c ρ ref) (hok : PcOk c.pc) (hnd : c.pc.wvbls.Nodup)
    (hrand : ∀ v ∈ c.pc.rvbls, c.random v = false) {vals : List ℕ}
    (hv : List.Forall₂ (· < ·) vals c.pc.spec.doms) (hne : guardEqs c.pc.spec ref vals ≠ [])
    {t : List Char} (ht : actText c.pc.spec (fun r => exText (refEx ref r)) vals = some t) :
    ∃ T P x, (∀ rest, ∃ K, ∀ k ≥ K, actP isPred k (t ++ rest) = some (some (T, rest))) ∧
      (∃ K, ∀ k ≥ K, parseAction c k ρ T true = some P) ∧ xnOfPc c.pc vals = some x ∧
      (∀ s t, (s, t) ∈ x ↔ (s, t) ∈ P ∧ ∃ v ∈ c.pc.wvbls, t v ≠ s v) ∧
      ((∃ m, Mentions c.pc.spec vals m) → P = x) ∧
      ((¬ ∃ m, Mentions c.pc.spec vals m) → x = ∅) := by
  obtain ⟨T, hT, _, h1⟩ := actText_read hR ht hne
  obtain ⟨P, x, h2, h3, h4, h5⟩ := tree_meaning s0 hr hok hnd hrand hv hT
  refine ⟨T, P, x, h1, h2, h3, h4, ?_, ?_⟩
  · rintro ⟨m, hm⟩
    refine h5 ?_
    obtain ⟨_, _, l, hl, _, hTa⟩ := hT
    rw [hTa]
    intro hnil
    rw [asgsOf, List.map_eq_nil_iff] at hnil
    have := (hl m).2 hm
    rw [hnil] at this
    simp at this
  · intro hno
    obtain ⟨y, hy1, hy2⟩ := xnOfPc_spec hok hv
    rw [h3] at hy1
    cases hy1
    rw [Finset.eq_empty_iff_forall_notMem]
    rintro ⟨s, t⟩ hst
    obtain ⟨⟨hg, ⟨v, o⟩, hw, a, rfl, hne'⟩, _⟩ := (hy2 s t).1 hst
    obtain ⟨r, j, acc, a', q1, q2, q3, q4, q5⟩ := (mem_actOf_writes hok.len).1 hw
    obtain ⟨v', acc', g, a'', w1, w2, w3, w4, w5, w6⟩ := wfacts hok hv q1
    rw [q3] at w2; cases w2
    rw [q4] at w4; cases w4
    simp only at q2 q5 hne'
    rw [q2] at w1; cases w1
    by_cases ha : a' = acc.domsz
    · rw [if_pos ha] at q5; cases q5
    rw [if_neg ha] at q5; cases q5
    have hst : Still c.pc.spec vals ∧ acc.pureShadowCk = false := by
      by_contra hcon
      refine hno ⟨(j, r, a), acc, q1, q3, q4, ha, fun hs => ?_⟩
      by_contra hps
      exact hcon ⟨hs, by simpa using hps⟩
    have := hst.1 j r acc g a q1 q3 w3 q4
    by_cases hwo : acc.syntWriteonlyCk = true
    · rw [if_pos hwo] at this
      refine ha (this ?_)
      have hps := hst.2
      simp only [Access.pureShadowCk, decide_eq_false_iff_not] at hps
      simp only [Access.puppetCk, Bool.or_eq_true, decide_eq_true_eq]
      cases hro : acc.role <;> simp_all
    · rw [if_neg hwo] at this
      have hsr : acc.syntReadCk = true := by
        simp only [Access.syntWriteonlyCk, w5, Bool.and_true, Bool.not_eq_true', Bool.not_eq_false] at hwo
        simpa using hwo
      refine hne' ?_
      rw [← this.1]
      exact hg (v, g) (mem_actOf_guards.2 ⟨r, acc, q2, q3, w3, hsr⟩)

/-! ### A process of a ring -/

/-- Two variables of domain size 2. -/
def ringDom : Fin 2 → ℕ := fun _ => 2

/-- Process 1 reads `x[i-1]` and writes `x[i]`. -/
def ringPc : SPc (Fin 2) ringDom where
  symm := 0
  spec := ⟨[⟨.read, .direct, 2⟩, ⟨.write, .direct, 2⟩], []⟩
  rvbls := [0, 1]
  okay := ∅

def ringEnv : EvalEnv 2 ringDom where
  consts := fun _ => none
  preds := fun _ => none
  lets := fun _ => none
  vbls := fun x => if x = "x" then some [0, 1] else none
  pc := some ⟨[0, 1], fun _ => none, fun _ => none⟩

def ringRd : RdPc 2 ringDom := ⟨ringEnv, ringPc, fun _ => false, fun _ => ∅⟩

def ringRef : ℕ → String × Ex
  | 0 => ("x", .arith .sub (.name "i") (.num 1))
  | _ => ("x", .name "i")

def ringIdx : IMap := fun x => if x = "i" then some 1 else none

theorem ring_refs (isPred : String → Bool) :
    ∀ r < ringPc.spec.access.length, isId (ringRef r).1 ∧ ∃ j, Shape isPred .expr (ringRef r).2 j := by
  have hx : isId "x" := ⟨'x', [], by simp, by decide, by simp⟩
  have hi : isId "i" := ⟨'i', [], by simp, by decide, by simp⟩
  have hn : Shape isPred (.value false) (.name "i") true := .name hi (by decide)
  have hp : ∀ e i, Shape isPred (.value false) e i → Shape isPred (.prod false) e i := fun e i h =>
    .up (nt := .prod false) rfl (.pow (.up (nt := .pow false) rfl (.val h)))
  intro r hr
  have : r = 0 ∨ r = 1 := by
    have : ringPc.spec.access.length = 2 := rfl
    omega
  rcases this with rfl | rfl
  · refine ⟨hx, true, shape_expr (shape_conj (.sum ?_))⟩
    exact .chain (nt := .sum false) (w := "-") (f := .arith .sub) rfl (by simp)
      (.up (nt := .sum false) rfl (hp _ _ hn)) (by rfl) (hp _ _ .num)
  · exact ⟨hx, true, shape_expr (shape_conj (.sum (shape_sum hn)))⟩

theorem ring_resolves : Resolves ringRd ringIdx ringRef := by
  intro r v hv
  have hr : r < 2 := (List.getElem?_eq_some_iff.1 hv).1
  have : r = 0 ∨ r = 1 := by omega
  rcases this with rfl | rfl
  · cases hv
    refine ⟨.ofInt 0, 0, [0, 1], 2, fun k hk => ?_, rfl, rfl, rfl, rfl, rfl⟩
    obtain ⟨j, rfl⟩ : ∃ j, k = j + 2 := ⟨k - 2, by omega⟩
    have : (IntFmla.ofInt 1 : IntFmla 2).binop .sub (.ofInt 1) = some (.ofInt 0) := by rfl
    simp [ringRef, evalI, ringRd, ringEnv, lookupInt, ringIdx, this]
  · cases hv
    refine ⟨.ofInt 1, 1, [0, 1], 1, fun k hk => ?_, rfl, rfl, rfl, rfl, rfl⟩
    obtain ⟨j, rfl⟩ : ∃ j, k = j + 1 := ⟨k - 1, by omega⟩
    simp [ringRef, evalI, ringRd, ringEnv, lookupInt, ringIdx]

/-- The hypotheses of C95 and C96 hold for this process, and this is the text of an action. -/
example : actText ringPc.spec (fun r => exText (refEx ringRef r)) [1, 0, 1] =
      some "( x[i-1]==1 && x[i]==0 --> x[i]:=1; )".toList ∧
    guardEqs ringPc.spec ringRef [1, 0, 1] ≠ [] ∧ PcOk ringPc ∧ ringPc.wvbls.Nodup ∧
    List.Forall₂ (· < ·) [1, 0, 1] ringPc.spec.doms ∧ Resolves ringRd ringIdx ringRef ∧
    (∃ m, Mentions ringPc.spec [1, 0, 1] m) := by
  refine ⟨by decide +kernel, by decide +kernel, ⟨rfl, ?_, ?_⟩, by decide, by decide, ring_resolves,
    (0, 1, 1), ⟨.write, .direct, 2⟩, rfl, rfl, rfl, by decide, fun h => ?_⟩
  · intro r v a h1 h2
    rcases r with _ | _ | r
    · cases h2; rfl
    · cases h2; rfl
    · cases h2
  · decide
  · have := h 0 1 ⟨.write, .direct, 2⟩ 0 1 rfl rfl rfl rfl
    revert this; decide

/-- The section with two actions is read back (C95). -/
example : puppetText ringPc.spec (fun r => exText (refEx ringRef r)) [[0, 1, 0], [1, 0, 1]] =
      some ("\n  puppet:\n    ( x[i-1]==0 && x[i]==1 --> x[i]:=0; )" ++
        "\n    ( x[i-1]==1 && x[i]==0 --> x[i]:=1; )\n    ;").toList ∧
    ((puppetP (fun _ => false) 99 ("puppet:\n    ( x[i-1]==0 && x[i]==1 --> x[i]:=0; )" ++
        "\n    ( x[i-1]==1 && x[i]==0 --> x[i]:=1; )\n    ;\n}").toList).join.map fun p => (p.1.length, p.2)) =
      some (2, "\n}".toList) := by
  decide +kernel

/-! ### Witnesses: what happens without the hypotheses -/

/-- **An action that assigns nothing new** is written without assignments; read back, it consists of
self-loops, though the action written has no transitions. -/
theorem C96_self_loop :
    ∃ T, actText ringPc.spec (fun r => exText (refEx ringRef r)) [1, 1, 1] =
        some "( x[i-1]==1 && x[i]==1 --> )".toList ∧
      actP (fun _ => false) 99 "( x[i-1]==1 && x[i]==1 --> )".toList = some (some (T, [])) ∧
      ((parseAction ringRd 99 ringIdx T true).map fun P => decide (P = ∅)) = some false ∧
      xnOfPc ringPc [1, 1, 1] = some ∅ := by
  refine ⟨⟨false, .and (.cmp false true false (refEx ringRef 0) (.num 1))
    (.cmp false true false (refEx ringRef 1) (.num 1)), []⟩, by decide +kernel, by decide +kernel,
    by decide +kernel, by decide +kernel⟩

/-- One variable of domain size 2. -/
def loneDom : Fin 1 → ℕ := fun _ => 2

/-- A process of a ring of size one: `x[0]` and `x[1]` are the same variable. -/
def lonePc : SPc (Fin 1) loneDom where
  symm := 0
  spec := ⟨[⟨.write, .direct, 2⟩, ⟨.write, .direct, 2⟩], []⟩
  rvbls := [0, 0]
  okay := ∅

def loneRd : RdPc 1 loneDom where
  env := ⟨fun _ => none, fun _ => none, fun _ => none, fun x => if x = "x" then some [0] else none,
    some ⟨[0, 0], fun _ => none, fun _ => none⟩⟩
  pc := lonePc
  random := fun _ => false
  cyc := fun _ => ∅

def loneRef : ℕ → String × Ex := fun r => ("x", .num r)

/-- **C96 fails if a process writes one variable through two accesses**: the loop of `parse_action` over
`wvbls` marks only the first position of the variable as assigned (src/prot-xfile.cc:428-442), so the
variable must also keep its value; the action read back has no transitions, the action written has one. -/
theorem C96_alias :
    ∃ T, actText lonePc.spec (fun r => exText (refEx loneRef r)) [0, 0, 1, 1] =
        some "( x[0]==0 && x[1]==0 --> x[0]:=1; x[1]:=1; )".toList ∧
      actP (fun _ => false) 99 "( x[0]==0 && x[1]==0 --> x[0]:=1; x[1]:=1; )".toList = some (some (T, [])) ∧
      parseAction loneRd 99 (fun _ => none) T true = some ∅ ∧
      ((xnOfPc lonePc [0, 0, 1, 1]).map fun x => decide (x = ∅)) = some false := by
  refine ⟨⟨false, .and (.cmp false true false (refEx loneRef 0) (.num 0))
    (.cmp false true false (refEx loneRef 1) (.num 0)),
    [.set (refEx loneRef 0) (.num 1), .set (refEx loneRef 1) (.num 1)]⟩, by decide +kernel, by decide +kernel,
    by decide +kernel, by decide +kernel⟩

/-- The process of the ring when there is also a constant `x`. -/
def ringConstRd : RdPc 2 ringDom :=
  { ringRd with env := { ringEnv with consts := fun x => if x = "x" then some [1] else none } }

/-- **C96 fails if a constant has the name of the variable**: in the guard the name means the constant
(`eval_vbl`, src/prot-xfile.cc:1601-1616), on the left of an assignment the variable. -/
theorem C96_constant :
    ∃ T, actText ringPc.spec (fun r => exText (refEx ringRef r)) [0, 0, 1] =
        some "( x[i-1]==0 && x[i]==0 --> x[i]:=1; )".toList ∧
      actP (fun _ => false) 99 "( x[i-1]==0 && x[i]==0 --> x[i]:=1; )".toList = some (some (T, [])) ∧
      parseAction ringConstRd 99 ringIdx T true = some ∅ ∧
      ((xnOfPc ringPc [0, 0, 1]).map fun x => decide (x = ∅)) = some false := by
  refine ⟨⟨false, .and (.cmp false true false (refEx ringRef 0) (.num 0))
    (.cmp false true false (refEx ringRef 1) (.num 0)), [.set (refEx ringRef 1) (.num 1)]⟩,
    by decide +kernel, by decide +kernel, by decide +kernel, by decide +kernel⟩

/-- **C95 fails for a process that reads no variable**: its actions are written without a guard, and that
text is not an action. -/
theorem C95_unguarded :
    actText ⟨[⟨.effect, .puppet, 2⟩], []⟩ (fun r => exText (refEx loneRef r)) [0, 1] =
        some "(  --> x[0]:=1; )".toList ∧
      actP (fun _ => false) 99 "(  --> x[0]:=1; )".toList = some none := by
  decide +kernel

end Verif.Props
