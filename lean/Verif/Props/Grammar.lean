import Verif.Proofs.GrammarTrip
import Verif.Proofs.GrammarTotal

/-!
C93 (an expression written to the output file is read back) and C94 (the reading of expressions ends):
the grammar of expressions, src/prot-xfile.leg:300-593 and 701-712, and `string_expression`,
src/prot-xfile.cc:980-1152.
-/

namespace Verif.Props
open Verif.Model Verif.Spec Verif.Proofs

/-- The text after an expression: none, or a closing bracket, a comma or a semicolon. -/
def Ends (r : List Char) : Prop := r = [] ∨ ∃ c t, r = c :: t ∧ c ∈ [')', ']', ',', ';']

theorem fol_ends {isPred : String → Bool} {nt : NT} {r : List Char} (h : Ends r) : Fol isPred nt r := by
  rcases h with rfl | ⟨c, t, rfl, h⟩
  · exact fol_nil
  · exact fol_close h

/-- **C93 (partial)**.  If a text is read as the tree `e`, then the text that `string_expression` writes
for `e` is read as `e` again, with the same kind (truth value or number), whatever follows it that may
follow an expression.  Missing from the full statement: `tidy e`, without which it is false
(`C93_equal_lost`). -/
theorem C93_read_back_partial {isPred : String → Bool} {k : ℕ} {s : List Char} {e : Ex} {i : Bool}
    {r : List Char} (h : parse isPred k .expr s = some (some ((e, i), r))) (ht : tidy e = true)
    {rest : List Char} (hr : Ends rest) :
    ∃ K, ∀ k' ≥ K, parse isPred k' .expr (exText e ++ rest) = some (some ((e, i), rest)) :=
  (shape_back (parse_shape k .expr s _ h ht)).read rest (fol_ends hr) fun _ => fol_ends hr

/-- Two texts of the same tidy tree: the text written is the same for all texts read as the tree, so
writing, reading and writing again gives the same text. -/
theorem C93_stable {isPred : String → Bool} {k : ℕ} {s : List Char} {e : Ex} {i : Bool}
    {r : List Char} (h : parse isPred k .expr s = some (some ((e, i), r))) (ht : tidy e = true)
    {rest : List Char} (hr : Ends rest) {k' : ℕ} {e' : Ex} {i' : Bool} {r' : List Char}
    (h' : parse isPred k' .expr (exText e ++ rest) = some (some ((e', i'), r'))) :
    e' = e ∧ i' = i ∧ r' = rest := by
  obtain ⟨K, hK⟩ := C93_read_back_partial h ht hr
  have := parse_det (hK K le_rfl) h'
  simp only [Option.some.injEq, Prod.mk.injEq] at this
  exact ⟨this.1.1.symm, this.1.2.symm, this.2.symm⟩

/-- **C94**.  The reading of an expression ends for every text: with a recursion depth of
`16 * length + 16` it gives a result, either no match or a match that consumes at least one character,
and more depth does not change it. -/
theorem C94_reading_ends (isPred : String → Bool) (s : List Char) :
    ∃ o, (∀ k ≥ 16 * s.length + 16, parse isPred k .expr s = some o) ∧
      ∀ a r, o = some (a, r) → r.length < s.length := by
  obtain ⟨o, h, hl⟩ := parse_tot (isPred := isPred) (16 * s.length + 15) .expr s (by simp [rank])
  exact ⟨o, fun k hk => parse_mono hk _ _ _ h, hl⟩

/-- An expression as it might be written by hand. -/
def egText : List Char :=
  "forall  i < N+1 :( x[ i-1 ] + (x[i]%3) ==2*y[(i)] // comment\n || !(y[0]<=min( 3,x[1])) )==>b;".toList

/-- The text written for it. -/
def egOut : List Char :=
  "forall i < N+1 : (x[i-1]+(x[i]%3)==2*y[(i)] || !(y[0]<=min(3,x[1]))) ==> b".toList

/-- The hypotheses of C93 hold for this text, and the text written is the normal form. -/
example : ∃ e i r, parse (fun _ => false) 200 .expr egText = some (some ((e, i), r)) ∧ tidy e = true ∧
    exText e = egOut ∧ Ends r ∧ parse (fun _ => false) 200 .expr (egOut ++ r) = some (some ((e, i), r)) := by
  refine ⟨((parse (fun _ => false) 200 .expr egText).join.map (·.1.1)).getD (.num 0), false, ";".toList, ?_⟩
  refine ⟨by decide +kernel, by decide +kernel, by decide +kernel, .inr ⟨';', [], rfl, by decide⟩, by decide +kernel⟩

/-- C94: a text whose alternatives are all tried in vain, and one that is left in the middle. -/
example : parse (fun _ => false) 33 .expr ")".toList = some none ∧
    parse (fun _ => false) 100 .expr "a+b then".toList =
      some (some ((.arith .add (.name "a") (.name "b"), true), " then".toList)) := by decide +kernel

/-! ### Witnesses: what happens without the hypothesis -/

/-- Three variables of domain size 2. -/
def egDom : Fin 3 → ℕ := fun _ => 2

def egEnv : EvalEnv 3 egDom where
  consts := fun _ => none
  preds := fun _ => none
  lets := fun _ => none
  vbls := fun x => if x = "x" then some [0, 1, 2] else none
  pc := none

/-- The state `0, 1, 1`. -/
def egState : FSt 3 egDom := fun i => (if i = 0 then 0 else 1 : Fin 2)

/-- `(x[0]==1) == (x[1]==1) && x[2]==0` -/
def egEqual : List Char := "(x[0]==1) == (x[1]==1) && x[2]==0".toList

def egIs (i v : ℕ) : Ex := .cmp false true false (.aref "x" (.num i)) (.num v)

/-- **C93 fails for `==` between truth values**: it binds more strongly than `&&` but is written as
`<=>`, which binds less.  The text above is read as a conjunction; what is written for it is read as an
equivalence; in the state `0, 1, 1` the first is false and the second true. -/
theorem C93_equal_lost :
    ∃ e e', parse (fun _ => false) 100 .expr egEqual = some (some ((e, false), [])) ∧
      exText e = "(x[0]==1) <=> (x[1]==1) && x[2]==0".toList ∧
      parse (fun _ => false) 100 .expr (exText e) = some (some ((e', false), [])) ∧
      ((evalP egEnv 9 (fun _ => none) e).map fun p => decide (egState ∈ p.1)) = some false ∧
      ((evalP egEnv 9 (fun _ => none) e').map fun p => decide (egState ∈ p.1)) = some true := by
  refine ⟨.and (.iff (.castB (egIs 0 1)) (.castB (egIs 1 1))) (egIs 2 0),
    .iff (.castB (egIs 0 1)) (.and (.castB (egIs 1 1)) (egIs 2 0)), by decide +kernel, by decide +kernel,
    by decide +kernel, by decide +kernel, by decide +kernel⟩

/-- **The text of an index under a `let` can mean something else than the index.**  With the `let` that
a symmetric link makes, `j` is `i+1`; the index `2*j` is evaluated with `j` as a whole, but written with
the text of `j` in place of the name, without parentheses: `2*i+1`.  (The variable `x[2*j]` of process 3
is `x[8]`, its name in the output file says `x[2*i+1]`, which is `x[7]`.) -/
theorem C93_let_lost :
    ∃ e e', parse (fun _ => false) 100 .expr "2*j".toList = some (some ((e, true), [])) ∧
      strEx (fun x => if x = "j" then some (exText (.arith .add (.name "i") (.num 1))) else none) e =
        "2*i+1".toList ∧
      parse (fun _ => false) 100 .expr "2*i+1".toList = some (some ((e', true), [])) ∧
      ((evalI { egEnv with lets := fun x => if x = "j" then some (.arith .add (.name "i") (.num 1)) else none } 9
        (fun x => if x = "i" then some 3 else none) e).bind fun f => single f.1) = some 8 ∧
      ((evalI egEnv 9 (fun x => if x = "i" then some 3 else none) e').bind fun f => single f.1) = some 7 := by
  refine ⟨.arith .mul (.num 2) (.name "j"), .arith .add (.arith .mul (.num 2) (.name "i")) (.num 1), ?_⟩
  decide +kernel

end Verif.Props
