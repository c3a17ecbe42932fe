import Verif.Proofs.Eval
import Verif.Props.IntFmla

/-!
C40 (quantifiers) and C64 (expressions mean what they say): the evaluation of predicates and integer
expressions of specification files, src/prot-xfile.cc:1155-1725.
-/

set_option linter.unusedSectionVars false

namespace Verif.Props
open Verif.Model Verif.Spec Verif.Proofs

variable {n : ℕ} {dom : Fin n → ℕ}

/-! ### C40 -/

/-- **C40 (partial)**.  If the range of a quantifier evaluates to the numbers `l` and for each of them the
body evaluates to the matching member of `cs`, the quantifier evaluates, to exactly the states which are
in all, in some, in exactly one of the bodies; this includes `l = []`.  Missing from the full statement:
an empty range, which can only be written `i < e` with `e = 0`, is rejected (`C40_empty_rejected`); and
the bodies must leave the index map alone, which is not so if they use the same name again (see
`C64_shadowing`). -/
theorem C40_quantifiers_partial (env : EvalEnv n dom) (k : ℕ) (ρ : IMap) (q : Quant) (x : String) (r d : Ex)
    (f : IntFmla n) (hr : evalI env k ρ r = some (f, ρ)) (hv : f.vbls = [])
    (cs : List (Finset (FSt n dom)))
    (hb : List.Forall₂ (fun v c => evalP env k (Function.update ρ x (some v)) d =
      some (c, Function.update ρ x (some v))) f.stateMap cs) :
    ∃ pf, evalP env (k + 1) ρ (.quant q x r d) = some (pf, Function.update ρ x none) ∧
      ∀ s, s ∈ pf ↔ match q with
        | .all => ∀ c ∈ cs, s ∈ c
        | .ex => ∃ c ∈ cs, s ∈ c
        | .uniq => ∃ i : ℕ, (∃ c, cs[i]? = some c ∧ s ∈ c) ∧ ∀ j : ℕ, (∃ c, cs[j]? = some c ∧ s ∈ c) → j = i := by
  have hloop : ∀ (l : List ℤ) (cs : List (Finset (FSt n dom))),
      List.Forall₂ (fun v c => evalP env k (Function.update ρ x (some v)) d =
        some (c, Function.update ρ x (some v))) l cs →
      ∀ (st : Finset (FSt n dom) × Finset (FSt n dom)) (ρ1 : IMap),
        (∀ w, Function.update ρ1 x w = Function.update ρ x w) →
        ∃ ρ2, quantLoop q x (fun ρ' => evalP env k ρ' d) l st.1 st.2 ρ1 = some ((quantFold q cs st).1, ρ2) ∧
          ∀ w, Function.update ρ2 x w = Function.update ρ x w := by
    intro l cs h
    induction h with
    | nil => intro st ρ1 h1; exact ⟨ρ1, rfl, h1⟩
    | cons hd _ ih =>
      intro st ρ1 h1
      obtain ⟨ρ2, h2, h3⟩ := ih (quantStep q st.1 st.2 _) _ (fun w => Function.update_idem _ _ _)
      refine ⟨ρ2, ?_, h3⟩
      rw [quantLoop, h1, hd]
      exact h2
  obtain ⟨ρ2, h1, h2⟩ := hloop _ _ hb (quantInit q, ∅) ρ (fun _ => rfl)
  refine ⟨(quantFold q cs (quantInit q, ∅)).1, by rw [evalP]; simp only [hr, hv, if_true, h1, h2],
    fun s => ?_⟩
  have hval := quantFold_val q cs s
  cases q with
  | all =>
    simp only [mem_quantFold_all, quantInit, Finset.mem_univ, true_and]
  | ex =>
    simp only [mem_quantFold_ex, quantInit, Finset.notMem_empty, false_or]
  | uniq =>
    simp only [QuantVal, decide_eq_true_eq] at hval
    rw [hval]
    have key : ∀ i : ℕ, (∃ c, cs[i]? = some c ∧ s ∈ c) ↔ i < cs.length ∧ s ∈ cs.getD i ∅ := by
      intro i
      rw [List.getD_eq_getElem?_getD]
      constructor
      · rintro ⟨c, h, hs⟩
        exact ⟨(List.getElem?_eq_some_iff.1 h).1, by rw [h]; exact hs⟩
      · rintro ⟨hi, hs⟩
        rw [List.getElem?_eq_getElem hi] at hs
        exact ⟨_, List.getElem?_eq_getElem hi, hs⟩
    simp only [key, and_imp]

/-- The range `i < e` stands for the numbers from `0` to `e - 1`. -/
theorem C40_range (env : EvalEnv n dom) (k : ℕ) (ρ ρ1 : IMap) (e : Ex) (f : IntFmla n) (m : ℤ)
    (he : evalI env k ρ e = some (f, ρ1)) (hm : f.stateMap = [m]) (h0 : 0 < m) :
    ∃ g, evalI env (k + 1) ρ (.natDom e) = some (g, ρ1) ∧ g.vbls = [] ∧
      g.stateMap = (List.range m.toNat).map fun i : ℕ => (i : ℤ) := by
  refine ⟨_, by rw [evalI]; simp only [he, single, hm, h0, if_true]; rfl, ?_, ?_⟩
  · simp [IntFmla.ofSet]
  · simp [IntFmla.ofSet]

/-- A quantifier with an empty range `i < 0` (or a negative bound) is rejected. -/
theorem C40_empty_rejected (env : EvalEnv n dom) (ρ : IMap) (q : Quant) (x : String) (e d : Ex)
    (hm : ∀ k f ρ1, evalI env k ρ e = some (f, ρ1) → ∃ m, f.stateMap = [m] ∧ m ≤ 0) (k : ℕ) :
    evalP env k ρ (.quant q x (.natDom e) d) = none := by
  cases k with
  | zero => rw [evalP]
  | succ k =>
    have h : evalI env k ρ (.natDom e) = none := by
      cases k with
      | zero => rw [evalI]
      | succ k =>
        rw [evalI]
        cases he : evalI env k ρ e with
        | none => rfl
        | some t =>
          obtain ⟨f, ρ1⟩ := t
          obtain ⟨m, h1, h2⟩ := hm k f ρ1 he
          simp only [single, h1, Int.not_lt.2 h2, if_false]
    rw [evalP]
    simp only [h]

/-! ### C64 -/

/-- **C64**.  If no quantifier reuses a name that is bound or defined by a `let`, and the evaluation of a
predicate succeeds, then the result is exactly the set of states in which the predicate is true, the
others being those in which it is false, and the bindings are as before. -/
theorem C64_predicates (s0 : FSt n dom) (env : EvalEnv n dom) (k : ℕ) (ρ : IMap) (e : Ex) (D : Set String)
    (hfr : Fresh env D e) (hD : ∀ x, ρ x ≠ none → x ∈ D) (hL : ∀ x, ρ x ≠ none → env.lets x = none)
    (pf : Finset (FSt n dom)) (ρ' : IMap) (h : evalP env k ρ e = some (pf, ρ')) :
    ρ' = ρ ∧ ∀ s, (s ∈ pf ↔ Sem env ρ e s (.bool true)) ∧ (s ∉ pf ↔ Sem env ρ e s (.bool false)) := by
  obtain ⟨h1, h2⟩ := (eval_sound s0 env k ρ e D hfr hD hL).1 pf ρ' h
  refine ⟨h1, fun s => ?_⟩
  have hs := h2 s
  by_cases hp : s ∈ pf
  · simp only [hp, decide_true] at hs
    refine ⟨⟨fun _ => hs, fun _ => hp⟩, ⟨fun h => absurd hp h, fun h => ?_⟩⟩
    have := sem_unique hs _ h (by simp [Res.SameKind])
    simp at this
  · simp only [hp, decide_false] at hs
    refine ⟨⟨fun h => absurd h hp, fun h => ?_⟩, ⟨fun _ => hs, fun _ => hp⟩⟩
    have := sem_unique hs _ h (by simp [Res.SameKind])
    simp at this

/-- **C64** for integer expressions: there is a table of values, and it holds the meaning of the
expression in every state. -/
theorem C64_integers (s0 : FSt n dom) (env : EvalEnv n dom) (k : ℕ) (ρ : IMap) (e : Ex) (D : Set String)
    (hfr : Fresh env D e) (hD : ∀ x, ρ x ≠ none → x ∈ D) (hL : ∀ x, ρ x ≠ none → env.lets x = none)
    (f : IntFmla n) (ρ' : IMap) (h : evalI env k ρ e = some (f, ρ')) :
    ρ' = ρ ∧ ∃ V : FSt n dom → List ℤ, (∀ s l, Sem env ρ e s (.ints l) ↔ l = V s) ∧
      (f.vbls = [] → ∀ s, V s = f.stateMap) ∧
      (f.vbls ≠ [] → Denotes f (fun s => (V s).headD 0) ∧ ∀ s, (V s).length = 1) := by
  obtain ⟨h1, V, hV, h2⟩ := (eval_sound s0 env k ρ e D hfr hD hL).2 f ρ' h
  refine ⟨h1, V, fun s l => ⟨fun h => ?_, fun h => h ▸ h2 s⟩, ?_, ?_⟩
  · have := sem_unique (h2 s) _ h (by simp [Res.SameKind])
    simpa [eq_comm] using this
  · intro hv s
    rcases hV with ⟨-, -, -, -, h5⟩ | ⟨h6, -⟩
    · exact h5 s
    · exact absurd hv h6
  · intro hv
    rcases hV with ⟨h6, -⟩ | ⟨-, g, h6, h7⟩
    · exact absurd h6 hv
    · refine ⟨?_, fun s => by simp [h7]⟩
      have : (fun s => (V s).headD 0) = g := by funext s; simp [h7]
      rw [this]; exact h6

/-- The meaning of an expression as a predicate is unique. -/
theorem C64_unique (env : EvalEnv n dom) (ρ : IMap) (e : Ex) (s : FSt n dom) (b b' : Bool)
    (h : Sem env ρ e s (.bool b)) (h' : Sem env ρ e s (.bool b')) : b = b' := by
  have := sem_unique h _ h' (by simp [Res.SameKind])
  simpa using this

/-! ### Witnesses: what happens without the hypotheses -/

def exEnv : EvalEnv 2 exDom where
  consts := fun x => if x = "i" then some [5] else none
  preds := fun _ => none
  lets := fun x => if x = "j" then some (.num 7) else none
  vbls := fun x => if x = "x" then some [0, 1] else none
  pc := none

/-- `exists i < 2 : ((exists i < 1 : true) && i == 5)` -/
def exShadow : Ex :=
  .quant .ex "i" (.natDom (.num 2))
    (.and (.quant .ex "i" (.natDom (.num 1)) (.name "true")) (.cmp false true false (.name "i") (.num 5)))

/-- `forall j < 2 : j == 7`, where `let j := 7` is in scope -/
def exHidden : Ex := .quant .all "j" (.natDom (.num 2)) (.cmp false true false (.name "j") (.num 7))

/-- `x[0] != 0 && 6 / x[0] == 3` -/
def exGuarded : Ex :=
  .and (.cmp true false true (.aref "x" (.num 0)) (.num 0))
    (.cmp false true false (.arith .div (.num 6) (.aref "x" (.num 0))) (.num 3))

theorem sem_natDom (env : EvalEnv n dom) (ρ : IMap) (s : FSt n dom) (m : ℕ) (h : 0 < m) :
    Sem env ρ (.natDom (.num m)) s (.ints ((List.range m).map fun i : ℕ => (i : ℤ))) := by
  have := Sem.natDom (env := env) (ρ := ρ) (s := s) (Sem.num (k := m)) (by omega)
  simpa using this

/-- **C64 fails for a name bound twice**: the inner quantifier erases the outer index, so after it the
name means the constant `5`; the predicate is false in every state but evaluates to `true`. -/
theorem C64_shadowing :
    ((evalP exEnv 9 (fun _ => none) exShadow).map Prod.fst = some Finset.univ) ∧
    ∀ s, Sem exEnv (fun _ => none) exShadow s (.bool false) := by
  refine ⟨by decide +kernel, fun s => ?_⟩
  refine .quant (fun _ => false) (sem_natDom _ _ _ 2 (by decide)) (fun i hi => ?_) (by simp [QuantVal])
  refine .and_true (.quant (fun _ => true) (sem_natDom _ _ _ 1 (by decide)) (fun j hj => ?_)
    (by simp [QuantVal])) ?_
  · have := Sem.pname (env := exEnv) (ρ := Function.update (Function.update (fun _ => none) "i"
      (some ((List.range 2).map fun i : ℕ => (i : ℤ))[i])) "i" (some ((List.range 1).map fun i : ℕ => (i : ℤ))[j]))
      (s := s) (x := "true") (.inl ⟨rfl, rfl⟩)
    simpa using this
  · have hi' : i < 2 := by simpa using hi
    have h1 : Sem exEnv (Function.update (fun _ => none) "i" (some (((List.range 2).map fun i : ℕ => (i : ℤ))[i]'hi)))
        (.name "i") s (.ints [(i : ℤ)]) := .iname (by simp)
      (.inl (by rw [Function.update_self, List.getElem_map, List.getElem_range]))
    refine Sem.bool_cast (.cmp h1 .num) ?_
    simp
    omega

/-- **C64 fails for a quantified name hidden by a `let`.** -/
theorem C64_hidden :
    ((evalP exEnv 9 (fun _ => none) exHidden).map Prod.fst = some Finset.univ) ∧
    ∀ s, Sem exEnv (fun _ => none) exHidden s (.bool false) := by
  refine ⟨by decide +kernel, fun s => ?_⟩
  refine .quant (fun _ => false) (sem_natDom _ _ _ 2 (by decide)) (fun i hi => ?_)
    (by simpa [QuantVal] using ⟨0, by decide⟩)
  have hi' : i < 2 := by simpa using hi
  have h1 : Sem exEnv (Function.update (fun _ => none) "j" (some (((List.range 2).map fun i : ℕ => (i : ℤ))[i]'hi)))
      (.name "j") s (.ints [(i : ℤ)]) := .iname (by simp)
      (.inl (by rw [Function.update_self, List.getElem_map, List.getElem_range]))
  refine Sem.bool_cast (.cmp h1 .num) ?_
  simp
  omega

/-- Not everything that has a meaning is accepted: a division guarded by a condition on the state. -/
theorem C64_guarded_division_rejected :
    evalP exEnv 9 (fun _ => none) exGuarded = none ∧
    ∀ s, Sem exEnv (fun _ => none) exGuarded s (.bool (decide ((s 0).val = 2))) := by
  refine ⟨by decide +kernel, fun s => ?_⟩
  have hx : Sem exEnv (fun _ => none) (.aref "x" (.num 0)) s (.ints [((s 0).val : ℤ)]) :=
    .aref_vbl (l := [0, 1]) rfl rfl .num ⟨0, rfl, by simp⟩
  have h1 := Sem.cmp (lt := true) (eq := false) (gt := true) hx (Sem.num (k := 0))
  by_cases h0 : (s 0).val = 0
  · refine Sem.bool_cast (.and_false (Sem.bool_cast h1 ?_)) ?_
    · simp [h0]
    · simp [h0]
  · refine Sem.bool_cast (.and_true (Sem.bool_cast h1 ?_) (.cmp (.arith (l := [Int.tdiv 6 (s 0).val])
      .num hx ?_) .num)) ?_
    · simp; omega
    · simp [OpVal]; omega
    · have h3 : (s 0).val < 3 := (s 0).2
      have : (s 0).val = 1 ∨ (s 0).val = 2 := by omega
      rcases this with h | h <;> simp [h]

/-! ### A concrete case meeting the hypotheses -/

/-- `forall k < 2 : x[k] == x[k+1]` -/
def exAgree : Ex :=
  .quant .all "k" (.natDom (.num 2))
    (.cmp false true false (.aref "x" (.name "k")) (.aref "x" (.arith .add (.name "k") (.num 1))))

theorem exAgree_fresh : Fresh exEnv ∅ exAgree := by
  refine .quant (by simp) (by decide) (.natDom .num) (.cmp (.aref (.name fun e h => ?_))
    (.aref (.arith (.name fun e h => ?_) .num)))
  all_goals simp [exEnv] at h

/-- It evaluates to the states in which both variables agree. -/
example : (evalP exEnv 9 (fun _ => none) exAgree).map Prod.fst =
    some (Finset.univ.filter fun s : FSt 2 exDom => (s 0).val = (s 1).val) := by decide +kernel

example (pf ρ') (h : evalP exEnv 9 (fun _ => none) exAgree = some (pf, ρ')) :
    ∀ s, s ∈ pf ↔ Sem exEnv (fun _ => none) exAgree s (.bool true) := fun s =>
  ((C64_predicates exState exEnv 9 _ exAgree ∅ exAgree_fresh (by simp) (by simp) pf ρ' h).2 s).1

/-- `unique k < 2 : x[k] == 1` holds exactly if the two variables differ in being 1. -/
example : (evalP exEnv 9 (fun _ => none) (.quant .uniq "k" (.natDom (.num 2))
      (.cmp false true false (.aref "x" (.name "k")) (.num 1)))).map Prod.fst =
    some (Finset.univ.filter fun s : FSt 2 exDom => ¬ ((s 0).val = 1 ↔ (s 1).val = 1)) := by decide +kernel

/-- An empty range: `forall i < 0 : true`. -/
example (k : ℕ) : evalP exEnv k (fun _ => none) (.quant .all "k" (.natDom (.num 0)) (.name "true")) = none :=
  C40_empty_rejected exEnv _ .all "k" (.num 0) _ (by
    intro k f ρ1 h
    cases k with
    | zero => simp [evalI] at h
    | succ k =>
      simp only [evalI, Option.some.injEq, Prod.mk.injEq] at h
      obtain ⟨rfl, -⟩ := h
      exact ⟨0, by simp [IntFmla.ofInt], le_refl _⟩) k

end Verif.Props
