import Verif.Model.Fmlae

/-!
# Convergence and stabilization checks: `src/stabilization.cc`
-/

set_option linter.unusedSectionVars false

namespace Verif.Model

universe u v
variable {σ : Type u} [Fintype σ] [DecidableEq σ] {τ : Type v} [DecidableEq τ]

/-- `weak_convergence_ck(xn, invariant)`, src/stabilization.cc:11-25 (compiled branch). -/
def weakConv2 (fuel : ℕ) (xn : Finset (σ × σ)) (inv : Finset σ) : Option Bool :=
  (preReach fuel xn inv).map fun r => decide (r = Finset.univ)

/-- One round of the loop of the 4-argument `weak_convergence_ck`,
src/stabilization.cc:33-45; state `(span0, nlayers)`.  `.inl (.inl n)`: early `return false`. -/
def weakBody (xn : Finset (σ × σ)) (assumed : Finset σ) (lim : Option ℕ)
    (st : Finset σ × ℕ) : (ℕ ⊕ (Finset σ × ℕ)) ⊕ (Finset σ × ℕ) :=
  let span1 := st.1 \ pre xn (assumed \ st.1)
  if st.1 = span1 then .inl (.inr st)
  else
    match lim with
    | none => .inr (span1, st.2)
    | some m =>
      let nl := st.2 + 1
      if m > 0 && nl > m then .inl (.inl nl) else .inr (span1, nl)

/-- `weak_convergence_ck(ret_nlayers, xn, invariant, assumed)`, src/stabilization.cc:27-49.
Returns the boolean and the final `*ret_nlayers`. -/
def weakConv4 (fuel : ℕ) (lim : Option ℕ) (xn : Finset (σ × σ)) (inv assumed : Finset σ) :
    Option (Bool × ℕ) :=
  match loopFuel (weakBody xn assumed lim) fuel (assumed \ inv, 1) with
  | none => none
  | some (.inl n) => some (false, n)
  | some (.inr st) => some (decide (st.1 = ∅), st.2)

/-- `Xn::InvariantStyle`, src/xnspec.hh:42-48. -/
inductive Style | closed | silent | shadow | activeShadow
deriving DecidableEq

/-- `Xn::InvariantScope`, src/xnspec.hh:50-55. -/
inductive Scope | direct | shadow | future
deriving DecidableEq

/-- `Xn::InvariantBehav`, src/xnspec.hh:57-65. -/
inductive Behav | silent | shadow | activeShadow
deriving DecidableEq

/-- The parts of `Xn::Sys` / `Xn::Net` used by the checks (src/xnsys.hh:30-60, 185-230).
`proj` forgets the pure puppet variables; `proj_shadow` (src/xnsys.hh:137-152) existentially
quantifies over its fibres. -/
structure Sys (σ : Type u) (τ : Type v) where
  invariant : Finset σ
  closedAssume : Finset σ
  /-- `sys.shadow_pfmla` -/
  shadowXn : Finset (σ × σ)
  /-- `topo.identity_xn`; the diagonal unless there are random-read variables
  (src/xnsys.cc:154, 57-67) -/
  identXn : Finset (σ × σ)
  proj : σ → τ
  /-- `sys.shadow_puppet_synthesis_ck()` -/
  shadowPuppet : Bool
  /-- `topo.probabilistic_ck()` -/
  probabilistic : Bool
  style : Style
  scope : Scope
  behav : Behav

/-- `StabilizationOpt`, src/stabilization.hh:8-27 (fields that influence the verdict; step
counting and printing are left out). -/
structure StabOpt where
  maxNlayers : ℕ
  countConvergenceLayers : Bool
  uniring : Bool
deriving DecidableEq

/-- `topo.proj_shadow(pf)` for a state predicate, src/xnsys.hh:137-152. -/
def projP (sys : Sys σ τ) (p : Finset σ) : Finset σ :=
  Finset.univ.filter fun s => ∃ s' ∈ p, sys.proj s' = sys.proj s

/-- `topo.proj_shadow(xn)` for a transition formula, src/xnsys.hh:137-152. -/
def projX (sys : Sys σ τ) (xn : Finset (σ × σ)) : Finset (σ × σ) :=
  Finset.univ.filter fun e => ∃ e' ∈ xn, sys.proj e'.1 = sys.proj e.1 ∧ sys.proj e'.2 = sys.proj e.2

/-- `pf.as_img()` conjoined on both sides: restrict a relation to a set on both ends,
src/stabilization.cc:164-168. -/
def within (xn : Finset (σ × σ)) (p : Finset σ) : Finset (σ × σ) := restrImg (restr xn p) p

/-- `a.cross(b)`, src/pfmla.hh:320-323. -/
def cross (a b : Finset σ) : Finset (σ × σ) := a ×ˢ b

/-- Result of `shadow_ck`/`stabilization_ck`. -/
inductive Verdict (α : Type u)
  | accept (a : α)
  | reject
  /-- a `Claim` failed (program abort) -/
  | abort

/-- Decidable equality of results (written out so that it evaluates in the kernel). -/
instance {α : Type u} [DecidableEq α] : DecidableEq (Verdict α)
  | .accept a, .accept b => decidable_of_iff (a = b) ⟨fun h => by rw [h], fun h => by cases h; rfl⟩
  | .reject, .reject => isTrue rfl
  | .abort, .abort => isTrue rfl
  | .accept _, .reject => isFalse nofun
  | .accept _, .abort => isFalse nofun
  | .reject, .accept _ => isFalse nofun
  | .reject, .abort => isFalse nofun
  | .abort, .accept _ => isFalse nofun
  | .abort, .reject => isFalse nofun

/-- `sys.invariant & sys.closed_assume`, src/stabilization.cc:71. -/
def Sys.shInv (sys : Sys σ τ) : Finset σ := sys.invariant ∩ sys.closedAssume

/-- `shadow_self`, src/stabilization.cc:113-114. -/
def Sys.self (sys : Sys σ τ) : Finset (σ × σ) := restr (projX sys sys.identXn) sys.shInv

/-- `shadow_live`, src/stabilization.cc:115-116. -/
def Sys.live (sys : Sys σ τ) : Finset (σ × σ) := restr (projX sys sys.shadowXn) sys.shInv

/-- The branch of `shadow_ck` for direct protocols, src/stabilization.cc:84-110. -/
def shadowDirect (sys : Sys σ τ) (lo hi : Finset (σ × σ)) : Verdict (Finset σ) :=
  if ¬ img lo sys.shInv ⊆ sys.shInv then .reject
  else if sys.style ≠ .closed ∧
      (¬ restr sys.shadowXn sys.shInv ⊆ hi ∨ ¬ restr lo sys.shInv ⊆ sys.shadowXn) then .reject
  else if (sys.behav = .activeShadow ∨ sys.style = .activeShadow) ∧
      ¬ sys.shInv ⊆ dom hi then .reject
  else .accept sys.shInv

/-- State of the fixpoint loop of `shadow_ck`. -/
structure ShSt (σ : Type u) where
  inv : Finset σ
  live : Finset (σ × σ)
  self : Finset (σ × σ)
deriving DecidableEq

/-- One round of the loop at src/stabilization.cc:159-176.  `.inl none`: an inner reachability
loop ran out of fuel. -/
def shBody (fuel : ℕ) (lo : Finset (σ × σ)) (beg fin : Finset σ) (st : ShSt σ) :
    Option (ShSt σ) ⊕ ShSt σ :=
  match closureWithin fuel lo st.inv with
  | none => .inl none
  | some hiInv =>
    let live := within st.live hiInv
    let self := within st.self hiInv
    match imgReach fuel self (beg ∪ rng live), preReach fuel self (fin ∪ dom live) with
    | some a, some b =>
      let hiInv' := (hiInv ∩ a) ∩ b
      if hiInv = hiInv' then .inl (some ⟨hiInv', live, self⟩) else .inr ⟨hiInv', live, self⟩
    | _, _ => .inl none

/-- The non-progress cycle check, src/stabilization.cc:119-130: is there one? -/
def nonProgress (fuel : ℕ) (sys : Sys σ τ) (lo : Finset (σ × σ)) (ps : List (Finset (σ × σ)))
    (scc : Finset σ) : Option Bool :=
  if sys.probabilistic then
    (probLivelock fuel ps false sys.shInv sys.live (some lo)).map fun x => decide x.Nonempty
  else
    (cycleCk fuel (lo ∩ sys.self) none none (some (scc ∩ dom sys.live))).map (·.ret)

/-- Start of the fixpoint loop, src/stabilization.cc:140-154. -/
def shInit (sys : Sys σ τ) (lo hi : Finset (σ × σ)) : ShSt σ :=
  let hiSelf := if sys.style = .silent ∨ sys.style = .activeShadow then ∅ else hi ∩ sys.self
  let hiLive := if sys.style = .silent then ∅ else hi ∩ sys.live
  ⟨sys.shInv \ dom (lo \ (hiLive ∪ hiSelf)), hiLive, hiSelf⟩

/-- The cycle check against the new invariant, src/stabilization.cc:213-225: is it violated? -/
def cycleOutside (fuel : ℕ) (sys : Sys σ τ) (lo : Finset (σ × σ)) (ps : List (Finset (σ × σ)))
    (scc hiInv : Finset σ) : Option Bool :=
  if sys.probabilistic then
    (probLivelock fuel ps false (scc \ hiInv) ∅ (some lo)).map fun x => decide x.Nonempty
  else some (decide (¬ scc ⊆ hiInv))

/-- The `FutureActiveShadow` checks, src/stabilization.cc:227-253: do they pass? -/
def activeShadowOk (fuel : ℕ) (sys : Sys σ τ) (lo hi : Finset (σ × σ)) (scc : Finset σ)
    (st : ShSt σ) : Option Bool :=
  if sys.behav = .activeShadow then
    if (restr (lo ∩ sys.self) scc).Nonempty then some false
    else
      let sccXn := restr st.live (dom (lo ∩ sys.self))ᶜ
      match cycleCk fuel sccXn none none (some st.inv) with
      | none => none
      | some r =>
        if r.ret = false then some false
        else (weakConv4 fuel none hi (r.scc.getD ∅) st.inv).map (·.1)
  else some true

/-- The style-dependent expansions, src/stabilization.cc:255-262. -/
def expand (fuel : ℕ) (sys : Sys σ τ) (lo hi : Finset (σ × σ)) (hiInv : Finset σ) :
    Option (Finset σ) :=
  match sys.style with
  | .shadow => (preReach fuel (hi ∩ (sys.self ∪ sys.live)) hiInv).bind (closureWithin fuel lo)
  | .activeShadow => (preReach fuel (hi ∩ sys.live) hiInv).bind (closureWithin fuel lo)
  | _ => some hiInv

/-- The part of `shadow_ck` after the fixpoint loop, src/stabilization.cc:178-274. -/
def shTail (fuel : ℕ) (sys : Sys σ τ) (lo hi : Finset (σ × σ)) (ps : List (Finset (σ × σ)))
    (scc : Finset σ) (st : ShSt σ) : Option (Verdict (Finset σ)) :=
  if ¬ restr lo st.inv ⊆ st.live ∪ st.self then some .abort
  else if sys.scope = .future ∧ st.inv = ∅ then some .reject
  else if sys.scope ≠ .future ∧ projP sys sys.shInv ≠ projP sys st.inv then some .reject
  else if sys.scope ≠ .future ∧ projX sys sys.live ≠ projX sys st.live then some .reject
  else
    match cycleOutside fuel sys lo ps scc st.inv with
    | none => none
    | some true => some .reject
    | some false =>
      match activeShadowOk fuel sys lo hi scc st with
      | none => none
      | some false => some .reject
      | some true =>
        match expand fuel sys lo hi st.inv with
        | none => none
        | some hiInv =>
          if sys.scope = .direct ∧ hiInv ≠ sys.shInv then some .reject
          else some (.accept hiInv)

/-- `shadow_ck`, src/stabilization.cc:58-275.  `.accept I`: returns true with
`*ret_invariant = I`. -/
def shadowCk (fuel : ℕ) (sys : Sys σ τ) (lo hi : Finset (σ × σ)) (ps : List (Finset (σ × σ)))
    (scc : Finset σ) : Option (Verdict (Finset σ)) :=
  if sys.behav = .silent ∧ scc.Nonempty then some .reject
  else if sys.shadowPuppet = false ∧ sys.scope ≠ .future then some (shadowDirect sys lo hi)
  else
    match nonProgress fuel sys lo ps scc with
    | none => none
    | some true => some .reject
    | some false =>
      match loopFuel (shBody fuel lo (sys.shInv \ rng sys.live) (sys.shInv \ dom sys.live)) fuel
          (shInit sys lo hi) with
      | none => none
      | some none => none
      | some (some st) => shTail fuel sys lo hi ps scc st

/-- The cycle computation of `stabilization_ck`, src/stabilization.cc:343-359: the reported
set `scc` (`∅` if not written) and `nlayers`. -/
def stabCycles (fuel : ℕ) (sys : Sys σ τ) (opt : StabOpt) (lo : Finset (σ × σ))
    (ps : List (Finset (σ × σ))) : Option (Claimed (Finset σ × ℕ)) :=
  let inv := if opt.countConvergenceLayers then some sys.invariant else none
  if sys.probabilistic then
    match closureWithin fuel lo sys.shInv with
    | none => none
    | some tmp => (probLivelock fuel ps true sys.closedAssume (cross tmpᶜ tmp) (some lo)).map
        fun scc => .ok (scc, 1)
  else if opt.uniring then
    (uniCycleCk fuel ps (some opt.maxNlayers) inv (some sys.closedAssume)).map fun
      | .ok r => .ok (r.scc.getD ∅, r.nlayers)
      | .failed => .failed
  else
    (cycleCk fuel lo (some opt.maxNlayers) inv (some sys.closedAssume)).map
      fun r => .ok (r.scc.getD ∅, r.nlayers)

/-- The main `stabilization_ck`, src/stabilization.cc:277-450.  `.accept (I, n)`: returns true,
`I` is the final `hi_invariant`, `n` is `info->nlayers`.  Left out: printed explanations,
`find_livelock_actions`, and the weak layer counts that are only printed
(src/stabilization.cc:417-437). -/
def stabCk (fuel : ℕ) (sys : Sys σ τ) (opt : StabOpt) (lo hi : Finset (σ × σ))
    (ps : List (Finset (σ × σ))) : Option (Verdict (Finset σ × ℕ)) :=
  if sys.invariant ∩ sys.closedAssume = ∅ then some .reject
  else if sys.probabilistic = false ∧
      (restr (lo ∩ sys.identXn) sys.closedAssume).Nonempty then some .reject
  else if sys.closedAssume ≠ Finset.univ ∧
      (img lo sys.closedAssume \ sys.closedAssume).Nonempty then some .reject
  else if ¬ sys.invariantᶜ ∩ sys.closedAssume ⊆ dom hi then some .reject
  else
    match stabCycles fuel sys opt lo ps with
    | none => none
    | some .failed => some .abort
    | some (.ok (scc, nlayers)) =>
      if opt.maxNlayers > 0 ∧ nlayers > opt.maxNlayers then some .reject
      else if ¬ scc ⊆ sys.invariant then some .reject
      else
        match shadowCk fuel sys lo hi ps scc with
        | none => none
        | some .abort => some .abort
        | some .reject => some .reject
        | some (.accept hiInv) =>
          if ¬ hiInvᶜ ∩ sys.closedAssume ⊆ dom hi then some .reject
          else if lo ≠ hi then
            match weakConv4 fuel (some 0) hi hiInv sys.closedAssume with
            | none => none
            | some (true, _) => some (.accept (hiInv, nlayers))
            | some (false, _) => some .reject
          else some (.accept (hiInv, nlayers))

end Verif.Model
