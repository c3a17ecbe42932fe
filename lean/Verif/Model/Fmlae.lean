import Verif.Model.Sym

/-!
# Process-wise transition formulas: `src/xfmlae.hh`, `src/xfmlae.cc`

An `X::Fmlae` is a list with one transition relation per process.  Simplified: the list holds
the relations after conjunction with the frame condition `global_mask_xns[i]` ("other variables
keep their values"); with that, `pre(i,pf)`/`img(i,pf)` computed over the written-variable list
(src/xfmlae.hh:71-96) are the ordinary preimage and image.
-/

set_option linter.unusedSectionVars false

namespace Verif.Model

universe u
variable {σ : Type u} [Fintype σ] [DecidableEq σ]

/-- `Fmlae::xfmla()`, src/xfmlae.hh:51-59: union of all (masked) process relations. -/
def xfmla (ps : List (Finset (σ × σ))) : Finset (σ × σ) :=
  ps.foldl (fun ret p => if p = ∅ then ret else ret ∪ p) ∅

/-- `Fmlae::pre()`, src/xfmlae.hh:64-70. -/
def domE (ps : List (Finset (σ × σ))) : Finset σ := ps.foldl (fun ret p => ret ∪ dom p) ∅

/-- `Fmlae::img()`, src/xfmlae.hh:87-93. -/
def rngE (ps : List (Finset (σ × σ))) : Finset σ := ps.foldl (fun ret p => ret ∪ rng p) ∅

/-- `Fmlae::pre(pf)`, src/xfmlae.hh:75-82. -/
def preE (ps : List (Finset (σ × σ))) (pf : Finset σ) : Finset σ :=
  ps.foldl (fun ret p => ret ∪ pre p pf) ∅

/-- `Fmlae::img(pf)`, src/xfmlae.hh:98-105. -/
def imgE (ps : List (Finset (σ × σ))) (pf : Finset σ) : Finset σ :=
  ps.foldl (fun ret p => ret ∪ img p pf) ∅

/-- State of the first loop of `Fmlae::cycle_ck`. -/
structure FCycSt (σ : Type u) where
  span0 : Finset σ
  nlayers : ℕ

/-- One round of the first loop of `Fmlae::cycle_ck`, src/xfmlae.cc:64-83.
`.inl (.inl n)`: `return false` at line 79 with `*ret_nlayers = n`. -/
def fcycleBody1 (ps : List (Finset (σ × σ))) (lim : Option ℕ) (inv : Option (Finset σ))
    (st : FCycSt σ) : (ℕ ⊕ FCycSt σ) ⊕ FCycSt σ :=
  let span1 := preE ps st.span0
  if st.span0 ⊆ span1 then .inl (.inr st)
  else
    match lim with
    | none => .inr { st with span0 := st.span0 ∩ span1 }
    | some m =>
      let nl :=
        match inv with
        | some i => if ¬ st.span0 ⊆ i then st.nlayers + 1 else st.nlayers
        | none => st.nlayers + 1
      if m > 0 && nl > m then .inl (.inl nl)
      else .inr { span0 := st.span0 ∩ span1, nlayers := nl }

/-- One round of the second loop of `Fmlae::cycle_ck`, src/xfmlae.cc:85-89. -/
def fcycleBody2 (ps : List (Finset (σ × σ))) (span0 : Finset σ) : Finset σ ⊕ Finset σ :=
  let span1 := span0 ∩ imgE ps span0
  if span0 = span1 then .inl span0 else .inr span1

/-- `X::Fmlae::cycle_ck`, src/xfmlae.cc:41-98 (the compiled `#else` branch). -/
def fcycleCk (fuel : ℕ) (ps : List (Finset (σ × σ))) (lim : Option ℕ) (inv : Option (Finset σ))
    (assumed : Option (Finset σ)) : Option (CycleRes σ) :=
  let s0 := domE ps ∩ rngE ps
  let s0 := match assumed with
    | some a => s0 ∩ a
    | none => s0
  match loopFuel (fcycleBody1 ps lim inv) fuel { span0 := s0, nlayers := 1 } with
  | none => none
  | some (.inl n) => some { ret := false, scc := none, nlayers := n }
  | some (.inr st) =>
    match loopFuel (fcycleBody2 ps) fuel st.span0 with
    | none => none
    | some scc =>
      some { ret := decide scc.Nonempty, scc := some scc,
             nlayers := if lim.isSome then st.nlayers else 0 }

/-- The accumulated set `span1` of one round of `probabilistic_livelock_ck`,
src/xfmlae.cc:124-142: states enabling a process that has no progress transition there and no
transition leaving `span0`. -/
def unresolved (ps : List (Finset (σ × σ))) (progress : Finset (σ × σ)) (span0 : Finset σ) :
    Finset σ :=
  ps.foldl (fun span1 p => span1 ∪ (dom p \ (dom (p ∩ progress) ∪ pre p span0ᶜ))) ∅

/-- One round of the first `do ... while`, src/xfmlae.cc:122-143; the state is
`(span0, span1)`. -/
def plBody1 (ps : List (Finset (σ × σ))) (progress : Finset (σ × σ))
    (st : Finset σ × Finset σ) : Finset σ ⊕ (Finset σ × Finset σ) :=
  let span0 := st.1 ∩ st.2
  let span1 := unresolved ps progress span0
  if span0 ⊆ span1 then .inl span0 else .inr (span0, span1)

/-- One round of the second `do ... while`, src/xfmlae.cc:147-150. -/
def plBody2 (xn : Finset (σ × σ)) (st : Finset σ × Finset σ) :
    Finset σ ⊕ (Finset σ × Finset σ) :=
  let span0 := st.1 ∩ st.2
  let span1 := img xn span0
  if span0 ⊆ span1 then .inl span0 else .inr (span0, span1)

/-- `X::Fmlae::probabilistic_livelock_ck`, src/xfmlae.cc:108-155.  Returns the final `span0`:
the boolean result is its nonemptiness, and it is `*scc` when `wantScc`. -/
def probLivelock (fuel : ℕ) (ps : List (Finset (σ × σ))) (wantScc : Bool) (assumed : Finset σ)
    (progress : Finset (σ × σ)) (globalXn : Option (Finset (σ × σ))) : Option (Finset σ) :=
  let xn := globalXn.getD (xfmla ps)
  match loopFuel (plBody1 ps progress) fuel (assumed, dom xn) with
  | none => none
  | some span0 =>
    if wantScc then loopFuel (plBody2 xn) fuel (span0, rng xn) else some span0

/-- One sweep over the ring, src/xfmlae.cc:247-253: processes from the last to the first; each
replaces the states where it is enabled by its successors there. -/
def sweep (ps : List (Finset (σ × σ))) (span : Finset σ) : Finset σ :=
  ps.reverse.foldl (fun span1 p => (span1 \ dom p) ∪ img p span1) span

/-- One round of the loop of `uniring_cycle_ck`, src/xfmlae.cc:246-271. -/
def uniBody (ps : List (Finset (σ × σ))) (inv : Option (Finset σ)) (st : CycSt σ) :
    (ℕ ⊕ CycSt σ) ⊕ CycSt σ :=
  let span1 := sweep ps st.span0
  if st.span0 = span1 then .inl (.inr st)
  else if st.ptr then
    if inv.any (fun i => decide (st.span0 ⊆ i)) then
      .inr { span0 := span1, nlayers := st.nlayers, ptr := false, out := st.nlayers }
    else
      let nl := st.nlayers + 1
      if st.out > 0 && nl > st.out then .inl (.inl nl)
      else .inr { st with span0 := span1, nlayers := nl }
  else .inr { st with span0 := span1 }

/-- The final sweep of `uniring_cycle_ck`, src/xfmlae.cc:277-286, which also collects all
intermediate successors into `span0`. -/
def sweepCollect (ps : List (Finset (σ × σ))) (span : Finset σ) : Finset σ :=
  (ps.reverse.foldl
    (fun (st : Finset σ × Finset σ) p =>
      let pf := img p st.2
      (st.1 ∪ pf, (st.2 \ dom p) ∪ pf)) (span, span)).1

/-- Outcome of a function that contains `Claim(...)` assertions. -/
inductive Claimed (α : Type u)
  | ok (a : α)
  /-- the process aborts on a failed `Claim` -/
  | failed
deriving DecidableEq

/-- `X::Fmlae::uniring_cycle_ck`, src/xfmlae.cc:219-327 (compiled `#else` branch), including the
`Claim` at line 289. -/
def uniCycleCk (fuel : ℕ) (ps : List (Finset (σ × σ))) (lim : Option ℕ)
    (inv : Option (Finset σ)) (assumed : Option (Finset σ)) : Option (Claimed (CycleRes σ)) :=
  let s0 := domE ps ∩ rngE ps
  let s0 := match assumed with
    | some a => s0 ∩ a
    | none => s0
  let st0 : CycSt σ := { span0 := s0, nlayers := 1, ptr := lim.isSome, out := lim.getD 0 }
  match loopFuel (uniBody ps inv) fuel st0 with
  | none => none
  | some (.inl n) => some (.ok { ret := false, scc := none, nlayers := n })
  | some (.inr st) =>
    let out := if st.ptr then st.nlayers else st.out
    let scc := sweepCollect ps (st.span0 ∩ domE ps)
    if scc ⊆ domE ps then
      some (.ok { ret := decide scc.Nonempty, scc := some scc, nlayers := out })
    else some .failed

end Verif.Model
