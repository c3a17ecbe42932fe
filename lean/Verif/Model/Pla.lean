import Verif.Spec.Pla

/-!
Model of the minimization of actions with `espresso` (option `-espresso`), src/pla.cc:15-86, 122-240.

A file for `espresso` is a list of cubes; the header with the numbers of values, names and comments are left out.
`espresso` is not modelled.  The text that is written is a list of `PlaGuard`s and assigned values.
-/

namespace Verif.Model
open Verif.Spec

/-- `oput_pla_val`, src/pla.cc:15-21. -/
def plaVal (j n : ℕ) : List Bool := (List.range n).map fun i => i == j

/-- `Xn::ActSymm`, src/xnpc.hh:136-160, 260-266: values of the guards, for all accesses, and of the assignments. -/
structure PlaAct where
  guards : List ℕ
  assigns : List ℕ

/-- `oput_pla_act`, src/pla.cc:23-40. -/
def plaRow (accs : List Access) (act : PlaAct) : List (List Bool) :=
  ((accs.zip act.guards).filter fun x => !x.1.pureShadowCk).map (fun x => plaVal x.2 x.1.domsz) ++
    ((accs.filter Access.writeCk).zip act.assigns).map fun x => plaVal x.2 x.1.domsz

/-- `oput_pla_pc_acts`, src/pla.cc:78-84, for the actions of a kind of processes. -/
def plaRows (accs : List Access) (acts : List PlaAct) : List (List (List Bool)) := acts.map (plaRow accs)

/-- `vals`, src/pla.cc:139-147: the places that are set. -/
def plaVals (part : List Bool) : List ℕ := (List.range part.length).filter fun x => part[x]? == some true

/-- A guard, src/pla.cc:158-179. -/
def plaGuard (part : List Bool) : PlaGuard :=
  if (plaVals part).length = part.length then .any
  else if (plaVals part).length = part.length - 1 ∧ part.length > 2 then
    .ne (((List.range part.length).find? fun j => !(plaVals part).contains j).getD 0)
  else .or (plaVals part)

/-- The assignments, src/pla.cc:149-156; `none` is a failed `Claim`. -/
def plaAssigns : List (List Bool) → Option (List ℕ)
  | [] => some []
  | part :: l =>
    match plaVals part with
    | [v] => (plaAssigns l).map (v :: ·)
    | _ => none

/-- `oput_protocon_pc_act`, src/pla.cc:122-183, for a cube; `ng` is the number of variables with guards. -/
def plaBack (ng : ℕ) (cube : List (List Bool)) : Option (List PlaGuard × List ℕ) :=
  (plaAssigns (cube.drop ng)).map fun w => ((cube.take ng).map plaGuard, w)

/-- The loop over the lines, src/pla.cc:227-235. -/
def plaBackAll (ng : ℕ) : List (List (List Bool)) → Option (List (List PlaGuard × List ℕ))
  | [] => some []
  | c :: l =>
    match plaBack ng c with
    | none => none
    | some t => (plaBackAll ng l).map (t :: ·)

/-- `oput_protocon_pc_acts_espresso_spawn`, src/pla.cc:186-240, if `espresso` answers `cubes`. -/
def plaText (accs : List Access) (cubes : List (List (List Bool))) : Option (List (List PlaGuard × List ℕ)) :=
  plaBackAll (accs.filter fun a => !a.pureShadowCk).length cubes

end Verif.Model
