import Verif.Model.Sym

/-!
Model of the livelock explanations, src/xnsys.cc:732-809.

A picked state (`pick_pre`) is an element of the state type; which one is chosen is decided by the
parameter `pick`.  A failed `Claim` and picking from the empty set are the result `none`.
-/

set_option linter.unusedSectionVars false

namespace Verif.Model

universe u
variable {σ : Type u} [Fintype σ] [DecidableEq σ]

/-- One round of the loop of `find_one_cycle`, src/xnsys.cc:739-748; the state is `states` (last
element on top) and `visit`. -/
def oneCycleBody (pick : Finset σ → Option σ) (xn : Finset (σ × σ)) (scc : Finset σ)
    (st : List σ × Finset σ) : Option (List σ) ⊕ (List σ × Finset σ) :=
  match st.1.getLast? with
  | none => .inl none
  | some s =>
    let visit := insert s st.2
    let next := scc ∩ img xn {s}
    if next = ∅ then .inl none
    else if (next ∩ visit).Nonempty then .inl ((pick (next ∩ visit)).map fun t => st.1 ++ [t])
    else
      match pick next with
      | none => .inl none
      | some t => .inr (st.1 ++ [t], visit)

/-- `find_one_cycle`, src/xnsys.cc:732-762.  Moving the entries `start_idx` places to the left and
removing the last `start_idx` ones (lines 758-761) is `drop`. -/
def findOneCycle (fuel : ℕ) (pick : Finset σ → Option σ) (xn : Finset (σ × σ)) (scc initial : Finset σ) :
    Option (List σ) :=
  match pick initial with
  | none => none
  | some s =>
    match loopFuel (oneCycleBody pick xn scc) fuel ([s], ∅) with
    | some (some states) => some (states.drop (states.findIdx fun x => some x = states.getLast?))
    | _ => none

/-- `find_livelock_actions`, src/xnsys.cc:770-809; `actXn a` is `topo.action_pfmla(a)`.  Simplified:
the order of the resulting table is not modelled. -/
def findLivelockActions (fuel : ℕ) (pick : Finset σ → Option σ) (xn : Finset (σ × σ))
    (scc inv : Finset σ) (actXn : ℕ → Finset (σ × σ)) (actions : List ℕ) : Option (Finset ℕ) :=
  match findOneCycle fuel pick xn scc (scc \ inv) with
  | none => none
  | some states =>
    if states.dropLast.any fun s => s ∉ inv then
      some (actions.toFinset.filter fun a =>
        ∃ e ∈ states.zip states.tail, (img (actXn a) {e.1} ∩ {e.2}).Nonempty)
    else some (actions.toFinset.filter fun a => (img (actXn a) scc ∩ scc).Nonempty)

end Verif.Model
