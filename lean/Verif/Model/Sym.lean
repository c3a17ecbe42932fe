import Mathlib.Data.Fintype.Basic
import Mathlib.Data.Fintype.Prod
import Verif.Model.Loop

/-!
# Symbolic state-space algorithms of `src/pfmla.cc`

State predicates (`P::Fmla`) are `Finset σ`; transition formulas (`X::Fmla`) are
`Finset (σ × σ)` (first component: current values, second: image values).  Loops take fuel.
-/

set_option linter.unusedSectionVars false

namespace Verif.Model

universe u
variable {σ : Type u} [Fintype σ] [DecidableEq σ]

/-- `xn.pre(pf)`: states with a transition into `pf`.
Models `PFmla::pre(const PFmla&)` src/pfmla.hh:236-243 with the relational semantics of
`pre2_fn` (src/pfmla-glu.c:205-221). Simplified: the BDD representation is a finite set. -/
def pre (xn : Finset (σ × σ)) (p : Finset σ) : Finset σ :=
  Finset.univ.filter fun s => ∃ t ∈ p, (s, t) ∈ xn

/-- `xn.img(pf)`: states with a transition from `pf`.
Models `PFmla::img(const PFmla&)` src/pfmla.hh and `img2_fn` (src/pfmla-glu.c:266-280). -/
def img (xn : Finset (σ × σ)) (p : Finset σ) : Finset σ :=
  Finset.univ.filter fun t => ∃ s ∈ p, (s, t) ∈ xn

/-- `xn.pre()`: states with some outgoing transition (src/pfmla.hh `PFmla::pre()`). -/
def dom (xn : Finset (σ × σ)) : Finset σ := Finset.univ.filter fun s => ∃ t, (s, t) ∈ xn

/-- `xn.img()`: states with some incoming transition (src/pfmla.hh `PFmla::img()`). -/
def rng (xn : Finset (σ × σ)) : Finset σ := Finset.univ.filter fun t => ∃ s, (s, t) ∈ xn

/-- `xn & pf` with `pf` over current values: restrict sources (src/pfmla.hh operator&). -/
def restr (xn : Finset (σ × σ)) (p : Finset σ) : Finset (σ × σ) := xn.filter fun e => e.1 ∈ p

/-- `xn & pf.as_img()`: restrict targets (src/pfmla.hh `as_img`). -/
def restrImg (xn : Finset (σ × σ)) (p : Finset σ) : Finset (σ × σ) :=
  xn.filter fun e => e.2 ∈ p

/-- One round of the `while` loop of `PFmla::pre_reach`, src/pfmla.cc:20-23; the loop state
is `(visit, layer)`. -/
def preReachBody (xn : Finset (σ × σ)) (st : Finset σ × Finset σ) :
    Finset σ ⊕ (Finset σ × Finset σ) :=
  if st.2 = ∅ then .inl st.1
  else
    let visit := st.1 ∪ st.2
    .inr (visit, pre xn st.2 \ visit)

/-- `PFmla::pre_reach`, src/pfmla.cc:15-25. -/
def preReach (fuel : ℕ) (xn : Finset (σ × σ)) (p : Finset σ) : Option (Finset σ) :=
  loopFuel (preReachBody xn) fuel (p, pre xn p \ p)

/-- One round of the loop of `PFmla::img_reach`, src/pfmla.cc:36-39. -/
def imgReachBody (xn : Finset (σ × σ)) (st : Finset σ × Finset σ) :
    Finset σ ⊕ (Finset σ × Finset σ) :=
  if st.2 = ∅ then .inl st.1
  else
    let visit := st.1 ∪ st.2
    .inr (visit, img xn st.2 \ visit)

/-- `PFmla::img_reach`, src/pfmla.cc:31-41. -/
def imgReach (fuel : ℕ) (xn : Finset (σ × σ)) (p : Finset σ) : Option (Finset σ) :=
  loopFuel (imgReachBody xn) fuel (p, img xn p \ p)

/-- `PFmla::closure_within`, src/pfmla.cc:46-50: `pf - pre_reach(~pf)`. -/
def closureWithin (fuel : ℕ) (xn : Finset (σ × σ)) (p : Finset σ) : Option (Finset σ) :=
  (preReach fuel xn pᶜ).map fun r => p \ r

/-- Result of a cycle check: the returned boolean and the final values written through the
output pointers (`none`: nothing written).  src/pfmla.cc:60. -/
structure CycleRes (σ : Type u) where
  ret : Bool
  scc : Option (Finset σ)
  /-- value of `*ret_nlayers` after the call (meaningful if a pointer was passed) -/
  nlayers : ℕ
deriving DecidableEq

/-- State of the first loop of `PFmla::cycle_ck`, src/pfmla.cc:63-86. -/
structure CycSt (σ : Type u) where
  span0 : Finset σ
  nlayers : ℕ
  /-- is the local variable `ret_nlayers` still non-null -/
  ptr : Bool
  /-- the value of `*ret_nlayers` -/
  out : ℕ

/-- One round of the first loop of `PFmla::cycle_ck`, src/pfmla.cc:69-86.
`.inl (.inl n)`: `return false` at line 81 with `*ret_nlayers = n`; `.inl (.inr st)`: `break`.
Simplified: `uint` counters do not wrap around. -/
def cycleBody1 (xn : Finset (σ × σ)) (inv : Option (Finset σ)) (st : CycSt σ) :
    (ℕ ⊕ CycSt σ) ⊕ CycSt σ :=
  let span1 := img xn st.span0
  if st.span0 = span1 then .inl (.inr st)
  else if st.ptr then
    if inv.any (fun i => decide (st.span0 ⊆ i)) then
      .inr { span0 := span1, nlayers := st.nlayers, ptr := false, out := st.nlayers }
    else
      let nl := st.nlayers + 1
      if st.out > 0 && nl > st.out then .inl (.inl nl)
      else .inr { st with span0 := span1, nlayers := nl }
  else .inr { st with span0 := span1 }

/-- One round of the second loop of `PFmla::cycle_ck`, src/pfmla.cc:90-94. -/
def cycleBody2 (xn : Finset (σ × σ)) (span0 : Finset σ) : Finset σ ⊕ Finset σ :=
  let span1 := span0 ∩ pre xn span0
  if span0 = span1 then .inl span0 else .inr span1

/-- `PFmla::cycle_ck(scc, ret_nlayers, invariant, assumed)`, src/pfmla.cc:59-100.
`lim = none` is a null `ret_nlayers`; `lim = some m` passes a pointer to a variable holding
`m` (`0`: no limit).  `scc` is always requested here; it is only written on normal exit. -/
def cycleCk (fuel : ℕ) (xn : Finset (σ × σ)) (lim : Option ℕ) (inv : Option (Finset σ))
    (assumed : Option (Finset σ)) : Option (CycleRes σ) :=
  let st0 : CycSt σ :=
    { span0 := assumed.getD Finset.univ, nlayers := 1, ptr := lim.isSome, out := lim.getD 0 }
  match loopFuel (cycleBody1 xn inv) fuel st0 with
  | none => none
  | some (.inl n) => some { ret := false, scc := none, nlayers := n }
  | some (.inr st) =>
    let out := if st.ptr then st.nlayers else st.out
    match loopFuel (cycleBody2 xn) fuel st.span0 with
    | none => none
    | some scc => some { ret := decide scc.Nonempty, scc := some scc, nlayers := out }

end Verif.Model
