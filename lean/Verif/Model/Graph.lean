import Verif.Model.Stab

/-!
Further graph algorithms: `src/pfmla.cc` 458-619 (undirected reachability, transitive closure, strongly connected
components), `src/xfmlae.cc` 9-34 (transitive closure by processes), 329-367 (weak convergence on unidirectional
rings) and the number of layers printed by `stabilization_ck`, `src/stabilization.cc` 406-429.
-/

set_option linter.unusedSectionVars false

namespace Verif.Model

universe u v
variable {σ : Type u} [Fintype σ] [DecidableEq σ] {τ : Type v} [DecidableEq τ]

/-- One round of the loop of `UndirectedReachability`, src/pfmla.cc:469-472; the state is `(visit, layer)`. -/
def undirBody (xn : Finset (σ × σ)) (st : Finset σ × Finset σ) : Finset σ ⊕ (Finset σ × Finset σ) :=
  if st.2 = ∅ then .inl st.1
  else
    let visit := st.1 ∪ st.2
    .inr (visit, (pre xn st.2 ∪ img xn st.2) \ visit)

/-- `UndirectedReachability`, src/pfmla.cc:464-474. -/
def undirReach (fuel : ℕ) (xn : Finset (σ × σ)) (pf : Finset σ) : Option (Finset σ) :=
  loopFuel (undirBody xn) fuel (pf, (pre xn pf ∪ img xn pf) \ pf)

/-- `a.dotjoin(b)`, src/pfmla.hh:305-310, with the relational meaning of src/pfmla-glu.c:282-304. -/
def dotjoin (a b : Finset (σ × σ)) : Finset (σ × σ) :=
  Finset.univ.filter fun e => ∃ u, (e.1, u) ∈ a ∧ (u, e.2) ∈ b

/-- One round of the loop of `transitive_closure`, src/pfmla.cc:481-485; the state is `(reach, next)`. -/
def tcBody (st : Finset (σ × σ) × Finset (σ × σ)) : Finset (σ × σ) ⊕ (Finset (σ × σ) × Finset (σ × σ)) :=
  if st.1 = st.2 then .inl st.1 else .inr (st.2, st.2 ∪ dotjoin st.2 st.2)

/-- `transitive_closure`, src/pfmla.cc:476-487. -/
def transClosure (fuel : ℕ) (xn : Finset (σ × σ)) : Option (Finset (σ × σ)) := loopFuel tcBody fuel (∅, xn)

/-- The transitions added in the first round, src/xfmlae.cc:23-27. -/
def startPart (initial : Option (Finset σ)) (p : Finset (σ × σ)) : Finset (σ × σ) :=
  match initial with
  | some a => restr p a
  | none => p

/-- One process in the first round, src/xfmlae.cc:22-30. -/
def tcFirstStep (initial : Option (Finset σ)) (next p : Finset (σ × σ)) : Finset (σ × σ) :=
  (next ∪ startPart initial p) ∪ dotjoin (next ∪ startPart initial p) p

/-- The inner loop of `X::Fmlae::transitive_closure` in the first round, src/xfmlae.cc:20-31. -/
def tcFirst (ps : List (Finset (σ × σ))) (initial : Option (Finset σ)) : Finset (σ × σ) :=
  ps.foldl (tcFirstStep initial) ∅

/-- One later round of `X::Fmlae::transitive_closure`, src/xfmlae.cc:16-32; the state is `(reach, next)`. -/
def tceBody (ps : List (Finset (σ × σ))) (st : Finset (σ × σ) × Finset (σ × σ)) :
    Finset (σ × σ) ⊕ (Finset (σ × σ) × Finset (σ × σ)) :=
  if st.1 = st.2 then .inl st.1
  else .inr (st.2, ps.foldl (fun next p => next ∪ dotjoin next p) st.2)

/-- `X::Fmlae::transitive_closure`, src/xfmlae.cc:9-34; the first round starts with `reach` and `next` false. -/
def transClosureE (fuel : ℕ) (ps : List (Finset (σ × σ))) (initial : Option (Finset σ)) :
    Option (Finset (σ × σ)) :=
  loopFuel (tceBody ps) fuel (∅, tcFirst ps initial)

/-- One round of the first loop of `Skel_Forward`, src/pfmla.cc:504-509; the state is `(stack, FW, level)`, the top of
the stack first. -/
def skelBody (V : Finset σ) (E : Finset (σ × σ)) (st : List (Finset σ) × Finset σ × Finset σ) :
    (List (Finset σ) × Finset σ) ⊕ (List (Finset σ) × Finset σ × Finset σ) :=
  if st.2.2 = ∅ then .inl (st.1, st.2.1)
  else
    let fw := st.2.1 ∪ st.2.2
    .inr (st.2.2 :: st.1, fw, (V ∩ img E st.2.2) \ fw)

/-- The second part of `Skel_Forward`, src/pfmla.cc:512-520, for the stack without its top. -/
def skeleton (pick : Finset σ → Finset σ) (E : Finset (σ × σ)) (s1 : Finset σ) (stack : List (Finset σ)) : Finset σ :=
  stack.foldl (fun s1 level => s1 ∪ pick (pre E s1 ∩ level)) s1

/-- `Skel_Forward`, src/pfmla.cc:490-521: `(FW, S1, NODE1)`; `failed`: `top` of an empty stack.  `pick` is
`PFmla::pick_pre` (C66). -/
def skelForward (fuel : ℕ) (pick : Finset σ → Finset σ) (V : Finset σ) (E : Finset (σ × σ)) (node : Finset σ) :
    Option (Claimed (Finset σ × Finset σ × Finset σ)) :=
  match loopFuel (skelBody V E) fuel ([], ∅, node) with
  | none => none
  | some ([], _) => some .failed
  | some (level :: stack, fw) => some (.ok (fw, skeleton pick E (pick level) stack, pick level))

/-- One round of the loop that completes the component, src/pfmla.cc:550-558; the state is `(scc, found)`.
`.inl none`: `return true` because no set of cycles is wanted. -/
def sccBody (E : Finset (σ × σ)) (fw : Finset σ) (want : Bool) (st : Finset σ × Bool) :
    Option (Finset σ × Bool) ⊕ (Finset σ × Bool) :=
  let pf := pre E st.1 ∩ fw
  if pf \ st.1 = ∅ then .inl (some st)
  else if !want then .inl none
  else .inr (st.1 ∪ pf, true)

/-- The recursive `SCC_Find`, src/pfmla.cc:523-598: the result and `*ret_cycles`; `want` says whether `ret_cycles` is
not null. -/
def sccRec (pick : Finset σ → Finset σ) (E : Finset (σ × σ)) (want : Bool) :
    ℕ → Finset σ → Finset σ → Finset σ → Finset σ → Option (Claimed (Bool × Finset σ))
  | 0, _, _, _, _ => none
  | fuel + 1, cycles, V, S, node =>
    if V = ∅ then some (.ok (false, cycles))
    else
      let scc := if S = ∅ then pick V else node
      match skelForward (fuel + 1) pick V E scc with
      | none => none
      | some .failed => some .failed
      | some (.ok (fw, newS, newNode)) =>
        match loopFuel (sccBody E fw want) (fuel + 1) (scc, false) with
        | none => none
        | some none => some (.ok (true, cycles))
        | some (some (scc, found)) =>
          let cycles := if found then cycles ∪ scc else cycles
          match sccRec pick E want fuel cycles (V \ fw) (S \ scc) (pre E (scc ∩ S) ∩ (S \ scc)) with
          | none => none
          | some .failed => some .failed
          | some (.ok (just, cycles)) =>
            let found := found || just
            if found && !want then some (.ok (true, cycles))
            else
              match sccRec pick E want fuel cycles (fw \ scc) (newS \ scc) (newNode \ scc) with
              | none => none
              | some .failed => some .failed
              | some (.ok (just, cycles)) => some (.ok (found || just, cycles))

/-- `SCC_Find`, src/pfmla.cc:610-619. -/
def sccFind (fuel : ℕ) (pick : Finset σ → Finset σ) (E : Finset (σ × σ)) (want : Bool) (cycles pf : Finset σ) :
    Option (Claimed (Bool × Finset σ)) :=
  sccRec pick E want fuel cycles pf ∅ ∅

/-- One process in the loop of `uniring_weak_convergence_ck`, src/xfmlae.cc:348-357; the state is `(span0, nlayers)`,
`.inl n`: `return true` with `*ret_nlayers = n`. -/
def uwStep (inv : Finset σ) (st : ℕ ⊕ (Finset σ × ℕ)) (p : Finset (σ × σ)) : ℕ ⊕ (Finset σ × ℕ) :=
  match st with
  | .inl n => .inl n
  | .inr st =>
    if st.1 = ∅ then .inl st.2
    else
      let span0 := pre p st.1 \ inv
      .inr (span0 \ pre p (img p span0 ∩ inv), st.2 + 1)

/-- One round of the loop of `uniring_weak_convergence_ck`, src/xfmlae.cc:345-362. -/
def uwBody (ps : List (Finset (σ × σ))) (inv : Finset σ) (st : Finset σ × ℕ) : (Bool × ℕ) ⊕ (Finset σ × ℕ) :=
  match ps.reverse.foldl (uwStep inv) (.inr st) with
  | .inl n => .inl (true, n)
  | .inr st' => if st'.1 = st.1 then .inl (false, st'.2) else .inr st'

/-- `X::Fmlae::uniring_weak_convergence_ck`, src/xfmlae.cc:329-367: the answer and `*ret_nlayers`; `failed`: the loop of
lines 341-343 runs beyond the end of an empty list. -/
def uniWeakCk (fuel : ℕ) (ps : List (Finset (σ × σ))) (inv assumed : Finset σ) : Option (Claimed (Bool × ℕ)) :=
  if ¬ assumed \ inv ⊆ domE ps then some (.ok (false, 1))
  else if ps = [] then some .failed
  else (loopFuel (uwBody ps inv) fuel (ps.dropLast.foldl (fun s p => s \ dom p) (assumed \ inv), 1)).map .ok

/-- The invariant to which layers are counted, src/stabilization.cc:418-420 and 423-425. -/
def layerTarget (countConvergence : Bool) (lo : Finset (σ × σ)) (hiInv scc : Finset σ) : Finset σ :=
  if countConvergence then hiInv else (dom lo)ᶜ ∪ scc

/-- `reach_nlayers` of a complete protocol (`lo_xn` and `hi_xn` equal) before the adjustment for steps,
src/stabilization.cc:406-429; `nlayers` is the number of the strong check. -/
def weakLayers (fuel : ℕ) (countConvergence uniring synchronous : Bool) (lo : Finset (σ × σ))
    (ps : List (Finset (σ × σ))) (hiInv scc assumed : Finset σ) (nlayers : ℕ) : Option (Claimed ℕ) :=
  if uniring then
    (uniWeakCk fuel ps (layerTarget countConvergence lo hiInv scc) assumed).map fun
      | .ok r => .ok r.2
      | .failed => .failed
  else if !synchronous then
    (weakConv4 fuel (some 0) lo (layerTarget countConvergence lo hiInv scc) assumed).map fun r => .ok r.2
  else some (.ok nlayers)

end Verif.Model
