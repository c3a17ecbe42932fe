import Verif.Model.Sync
import Verif.Model.Sym
import Mathlib.Data.Fintype.Pi

/-!
Model of the functions `domsz_of_variable`, `assume_assign` and `action_assign` that src/udp-ofile.cc:186-411 writes, and of
`fix_process_state`, src/udp-impl/protocol.c:672-683.

The local variables `x` of a process are represented by a state of the whole system of which only the values of the
readable puppet variables `R` matter (which variable has which number is C116); their values are below their domain sizes
(`C117_fix`).  `W` are the writable ones.  A formula is a set of states or of transitions; `pick` is `PFmla::state`, which
gives values of a state of a formula that has one (C66).  A written text is the list of its tests in order.
-/

namespace Verif.Model

variable {V : Type} [Fintype V] [DecidableEq V] {dm : V → ℕ}

/-- The test `x[0]==a && x[1]==b && ...` for the variables `R`, src/udp-ofile.cc:285-290 and 370-376. -/
def agreeOn (R : Finset V) (s t : VSt V dm) : Bool := decide (∀ v ∈ R, s v = t v)

/-- The assignments `x[0]=a; x[1]=b; ...` to the variables `W`, src/udp-ofile.cc:293-295 and 386-388. -/
def putOn (W : Finset V) (x t : VSt V dm) : VSt V dm := fun v => if v ∈ W then t v else x v

/-- `pfmla_of_state` for the variables `R`, src/udp-ofile.cc:282, 366, 381. -/
def viewSet (R : Finset V) (s : VSt V dm) : Finset (VSt V dm) := Finset.univ.filter fun t => agreeOn R t s = true

/-- The loop over the images of a state, src/udp-ofile.cc:378-389; `none` is a loop of more than `fuel` rounds. -/
def actChoices (pick : Finset (VSt V dm) → Option (VSt V dm)) (R W : Finset V) (pre : VSt V dm) :
    ℕ → Finset (VSt V dm) → Option (List (VSt V dm))
  | 0, _ => none
  | fuel + 1, pf =>
    if pf = ∅ then some []
    else (pick pf).bind fun t =>
      (actChoices pick R W pre fuel (pf \ viewSet W t)).map fun l =>
        if viewSet R pre ⊆ viewSet W t then l else t :: l

/-- The loop over the transitions of a process symmetry, src/udp-ofile.cc:357-407: the tests with the statements to
choose from. -/
def actTests (pick : Finset (VSt V dm) → Option (VSt V dm)) (R W : Finset V) :
    ℕ → Finset (VSt V dm × VSt V dm) → Option (List (VSt V dm × List (VSt V dm)))
  | 0, _ => none
  | fuel + 1, xn =>
    if xn = ∅ then some []
    else (pick (dom xn)).bind fun pre =>
      let pf := img xn (viewSet R pre)
      (actChoices pick R W pre (pf.card + 1) pf).bind fun ws =>
        (actTests pick R W fuel (xn.filter fun p => p.1 ∉ viewSet R pre)).map fun l => (pre, ws) :: l

/-- A run of the written part of `action_assign`, src/udp-ofile.cc:304-308 and 363-408: `x0` is `tmp_x`, `x` the
variables after the random ones have their values, and `r` the number that `RandomMod` gives, if it is called. -/
def runAct (R W : Finset V) (tests : List (VSt V dm × List (VSt V dm))) (x0 x : VSt V dm) (r : ℕ) : Option (VSt V dm) :=
  match tests.find? fun y => agreeOn R x y.1 with
  | none => some x0
  | some (_, []) => some x
  | some (_, [t]) => some (putOn W x t)
  | some (_, ws) => (ws[r]?).map (putOn W x)

/-- `smooth_pre` of a variable (src/pfmla.hh): the formula with the value of the variable left open. -/
def smoothOne (A : Finset (VSt V dm)) (v : V) : Finset (VSt V dm) :=
  Finset.univ.filter fun s => ∃ a, Function.update s v a ∈ A

/-- The variables that the assumption depends on, src/udp-ofile.cc:243-256. -/
def assumeRel (R : Finset V) (A : Finset (VSt V dm)) : Finset V := R.filter fun v => smoothOne A v ≠ A

/-- `img_pf`, src/udp-ofile.cc:264-269, where `N` are the readable variables that are not writable; smoothing one variable
after the other is done at once. -/
def assumeImg (N : Finset V) (A : Finset (VSt V dm)) : Finset (VSt V dm) :=
  Finset.univ.filter fun s => ¬∃ t ∈ Finset.univ \ A, ∀ v, v ∉ N → s v = t v

/-- The loop over the states that break the assumption, src/udp-ofile.cc:277-297. -/
def assumeLoop (pick : Finset (VSt V dm) → Option (VSt V dm)) (R' : Finset V) :
    ℕ → Finset (VSt V dm) → Option (List (VSt V dm))
  | 0, _ => none
  | fuel + 1, bad =>
    if bad = ∅ then some []
    else (pick bad).bind fun pre => (assumeLoop pick R' fuel (bad \ viewSet R' pre)).map fun l => pre :: l

/-- The part of `assume_assign` for a process symmetry, src/udp-ofile.cc:233-297: the tests and the values that are
assigned; `none` is `failout_sysCx`. -/
def assumeTests (pick : Finset (VSt V dm) → Option (VSt V dm)) (R N : Finset V) (A : Finset (VSt V dm)) :
    Option (List (VSt V dm) × Option (VSt V dm)) :=
  if A = Finset.univ then some ([], none)
  else if assumeImg N A = ∅ then none
  else (pick (assumeImg N A)).bind fun t =>
    (assumeLoop pick (assumeRel R A) ((Finset.univ \ A).card + 1) (Finset.univ \ A)).map fun l => (l, some t)

/-- A run of the written part of `assume_assign`, src/udp-ofile.cc:276-297. -/
def runAssume (R W : Finset V) (A : Finset (VSt V dm)) (f : List (VSt V dm) × Option (VSt V dm)) (x : VSt V dm) : VSt V dm :=
  if f.1.any fun pre => agreeOn (assumeRel R A) x pre then
    match f.2 with
    | some t => putOn (W ∩ assumeRel R A) x t
    | none => x
  else x

/-- The tests `pc.idx < symm_cutoff` with what follows, for process symmetries with their number of members in the
topology of the synthesis and in the one that is written, src/udp-ofile.cc:190-196, 219-228, 327-332. -/
def symmParts {α : Type} : ℕ → List (ℕ × ℕ × α) → List (ℕ × α)
  | _, [] => []
  | cut, (m, om, b) :: l => if m = 0 then symmParts cut l else (cut + om, b) :: symmParts (cut + om) l

/-- The part that process `p` runs. -/
def symmPart {α : Type} (l : List (ℕ × ℕ × α)) (p : ℕ) : Option α :=
  ((symmParts 0 l).find? fun x => decide (p < x.1)).map (·.2)

/-- `domsz_of_variable` for the domain sizes of the puppet variables of a process, src/udp-ofile.cc:198-212. -/
def domszOf (ds : List ℕ) (i : ℕ) : ℕ := (ds[i]?).getD 0

/-- The loop of `fix_process_state`, src/udp-impl/protocol.c:675-680; the first number is `Max_NVariables - i`. -/
def fixLoop (ds : List ℕ) : ℕ → ℕ → (ℕ → ℕ) → ℕ → ℕ
  | 0, _, vals => vals
  | k + 1, i, vals =>
    if domszOf ds i = 0 then vals
    else fixLoop ds k (i + 1) (if vals i ≥ domszOf ds i then Function.update vals i (vals i % domszOf ds i) else vals)

end Verif.Model
