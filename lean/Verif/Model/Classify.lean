import Verif.Model.Sym
import Verif.Model.Uni
import Verif.Model.Livelock
import Mathlib.Data.Fintype.Pi
import Mathlib.Data.Fintype.Prod

/-!
Model of the classification of ring protocols, src/uni/classify.cc:19-86.

The variables `x0 .. x(max_period)` have the states `Fin (m + 1) → Fin d`; a formula is the set of its
states, a transition formula the set of its transitions.
-/

namespace Verif.Model

/-- The states of the variables made by `bdd_init_vbls`, src/uni/classify.cc:36-46. -/
abbrev CState (m d : ℕ) := Fin (m + 1) → Fin d

/-- The value of `vbls[j]`; indices outside the table do not occur. -/
def cval' {m d : ℕ} (s : CState m d) (j : ℕ) : ℕ := if h : j < m + 1 then s ⟨j, h⟩ else d

/-- `column_xfmla`, src/uni/classify.cc:23-34, for the variables `p` and `j`. -/
def columnXn (m d : ℕ) (acts : List UniAct) (p j : ℕ) : Finset (CState m d × CState m d) :=
  acts.foldl (fun xn act => xn ∪ Finset.univ.filter fun t =>
    cval' t.2 p = act.1 ∧ cval' t.1 j = act.2.1 ∧ cval' t.2 j = act.2.2) ∅

/-- `periodic_xn`, src/uni/classify.cc:60-61. -/
def periodicXn {m d : ℕ} (xn : Finset (CState m d × CState m d)) (j : ℕ) :
    Finset (CState m d × CState m d) :=
  (xn ∩ Finset.univ.filter fun t => cval' t.1 0 = cval' t.1 j) ∩
    Finset.univ.filter fun t => cval' t.2 0 = cval' t.2 j

/-- The loop of `bdd_classify`, src/uni/classify.cc:56-66, over the remaining values of `j`: the period
found or the final `xn`. -/
def classifyLoop {m d : ℕ} (fuel minPeriod : ℕ) (acts : List UniAct) :
    List ℕ → Finset (CState m d × CState m d) → Option (ℕ ⊕ Finset (CState m d × CState m d))
  | [], xn => some (.inr xn)
  | j :: l, xn =>
    let xn := xn ∩ columnXn m d acts (j - 1) j
    if j ≥ minPeriod then
      (cycleCk fuel (periodicXn xn j) none none none).bind fun r =>
        if r.ret then some (.inl j) else classifyLoop fuel minPeriod acts l xn
    else classifyLoop fuel minPeriod acts l xn

/-- `bdd_classify`, src/uni/classify.cc:48-74. -/
def bddClassify (fuel : ℕ) (ppgfun : List ℕ) (minPeriod maxPeriod domsz : ℕ) : Option ℕ :=
  (actionsOfPpg ppgfun domsz).bind fun acts =>
    (classifyLoop (m := maxPeriod) (d := domsz) fuel minPeriod acts (List.range' 1 maxPeriod)
      Finset.univ).bind fun r =>
      match r with
      | .inl j => some j
      | .inr xn => (cycleCk fuel xn none none none).map fun r => if r.ret then maxPeriod + 1 else 0

/-- `tile_classify`, src/uni/classify.cc:76-86. -/
def tileClassify (fuel : ℕ) (ppgfun : List ℕ) (maxPeriod domsz : ℕ) : Option ℕ :=
  (livelockSemick fuel maxPeriod ppgfun domsz).map fun r =>
    match r with
    | .nil => 0
    | .yes row _ => row.length - 1
    | .may => maxPeriod + 1

end Verif.Model
