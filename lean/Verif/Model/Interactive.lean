import Verif.Model.Loop
import Mathlib.Data.Fintype.Pi
import Mathlib.Data.Finset.Prod

/-!
Model of the interactive simulator, src/interactive.cc:83-128 and 181-214, 296-326.

The system has `n` variables, a formula is a set of states, a transition formula a set of pairs.  A line
of output (`x:=1; y:=0;`) is the list of its assignments; printing and parsing of the text are not
modelled.  Which state `P::Fmla::state` picks is a parameter, and so are the random numbers.
-/

namespace Verif.Model

variable {n : ℕ} {dom : Fin n → ℕ}

/-- States: `Table<uint> state`. -/
abbrev ISt (n : ℕ) (dom : Fin n → ℕ) : Type := (i : Fin n) → Fin (dom i)

/-- The text printed for one option, src/interactive.cc:117-123. -/
def optLine (s x : ISt n dom) : List (Fin n × ℕ) :=
  (List.finRange n).filterMap fun i => if x i ≠ s i then some (i, (x i).val) else none

/-- The inner loop of `next_options`, src/interactive.cc:113-126. -/
def optLoop (pick : Finset (ISt n dom) → ISt n dom) (s : ISt n dom) (fuel : ℕ)
    (localPf : Finset (ISt n dom)) (lines : List (List (Fin n × ℕ))) :
    Option (List (List (Fin n × ℕ))) :=
  loopFuel (fun st : Finset (ISt n dom) × List (List (Fin n × ℕ)) =>
    if st.1.Nonempty then
      let x := pick st.1
      .inr (st.1 \ {x}, st.2 ++ [optLine s x])
    else .inl st.2) fuel (localPf, lines)

/-- The loop over the variables, src/interactive.cc:111-127. -/
def optVbls (pick : Finset (ISt n dom) → ISt n dom) (s : ISt n dom) (fuel : ℕ) :
    List (Fin n) → Finset (ISt n dom) → List (List (Fin n × ℕ)) → Option (List (List (Fin n × ℕ)))
  | [], _, lines => some lines
  | v :: l, next, lines =>
    (optLoop pick s fuel (next.filter fun x => x v ≠ s v) lines).bind
      (optVbls pick s fuel l (next.filter fun x => ¬ x v ≠ s v))

/-- `Interactive::next_options`, src/interactive.cc:103-128. -/
def nextOptions (pick : Finset (ISt n dom) → ISt n dom) (xn : Finset (ISt n dom × ISt n dom))
    (mask : Finset (ISt n dom)) (fwd : Bool) (fuel : ℕ) (s : ISt n dom) :
    Option (List (List (Fin n × ℕ))) :=
  let next := if fwd then Finset.univ.filter (fun t => (s, t) ∈ xn)
    else Finset.univ.filter (fun t => (t, s) ∈ xn)
  optVbls pick s fuel (List.finRange n) (next ∩ mask) []

/-- `Interactive::assign` on the assignments of a line, src/interactive.cc:83-101. -/
def assignLine (s : ISt n dom) (line : List (Fin n × ℕ)) : ISt n dom :=
  line.foldl (fun s a => Function.update s a.1 ⟨a.2 % dom a.1, Nat.mod_lt _ (Fin.pos (s a.1))⟩) s

/-- The command `step`, src/interactive.cc:310-325: at most `k` steps, `rnd j` is the position picked
by the random number generator in a table of the given size.  The result lists the states visited. -/
def stepCmd (pick : Finset (ISt n dom) → ISt n dom) (xn : Finset (ISt n dom × ISt n dom))
    (mask : Finset (ISt n dom)) (fwd : Bool) (fuel : ℕ) (rnd : ℕ → ℕ → ℕ) :
    ℕ → ISt n dom → Option (List (ISt n dom))
  | 0, s => some [s]
  | k + 1, s =>
    match nextOptions pick xn mask fwd fuel s with
    | none => none
    | some [] => some [s]
    | some lines =>
      match lines[rnd k lines.length]? with
      | none => none
      | some line => (stepCmd pick xn mask fwd fuel rnd k (assignLine s line)).map (s :: ·)

/-- The loop of `randomize_state`, src/interactive.cc:200-213; the list is the shuffled `idcs`. -/
def randLoop (rnd : ℕ → ℕ → ℕ) : List (Fin n) → Finset (ISt n dom) → ISt n dom → Option (ISt n dom)
  | [], _, s => some s
  | i :: l, pf, s =>
    let vals := (List.finRange (dom i)).filter fun j => (pf.filter fun x => x i = j).Nonempty
    match vals[rnd l.length vals.length]? with
    | none => none
    | some v => randLoop rnd l (pf.filter fun x => x i = v) (Function.update s i v)

/-- `Interactive::randomize_state`, src/interactive.cc:191-214. -/
def randomizeState (rnd : ℕ → ℕ → ℕ) (idcs : List (Fin n)) (mask : Finset (ISt n dom))
    (s : ISt n dom) : Option (ISt n dom) :=
  if mask.Nonempty then randLoop rnd idcs mask s else some s

end Verif.Model
