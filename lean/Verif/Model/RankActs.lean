import Verif.Model.Sym

/-!
Model of the ranking of actions for `RankShuffleSearch`: `rank_states` and `rank_actions` (src/search.cc:311-355), and
the order in which a trial takes the candidates (src/search.cc:887-899).
-/

namespace Verif.Model

universe u
variable {σ : Type u} [Fintype σ] [DecidableEq σ]

/-- The variables of the loop of `rank_states`, src/search.cc:316-320: `state_layers`, `visit_pf`, `layer_pf`. -/
structure RkSt (σ : Type u) where
  layers : List (Finset σ)
  visit : Finset σ
  layer : Finset σ

/-- One round of the loop of `rank_states`, src/search.cc:321-325. -/
def rkBody (xn : Finset (σ × σ)) (st : RkSt σ) : (List (Finset σ) × Finset σ) ⊕ RkSt σ :=
  if st.layer = ∅ then .inl (st.layers, st.visit)
  else
    let visit := st.visit ∪ st.layer
    .inr ⟨st.layers ++ [st.layer], visit, pre xn st.layer \ visit⟩

/-- `rank_states`, src/search.cc:311-327: the layers and the result (`tautology_ck`). -/
def rkStates (fuel : ℕ) (xn : Finset (σ × σ)) (legit : Finset σ) : Option (List (Finset σ) × Bool) :=
  (loopFuel (rkBody xn) fuel ⟨[legit], legit, pre xn legit \ legit⟩).map fun r =>
    (r.1, decide (r.2 = Finset.univ))

/-- The inner loop of `rank_actions`, src/search.cc:344-353: the layer into which an action with the
transitions `x` is put. -/
def rkPlace (layers : List (Finset σ)) (x : Finset (σ × σ)) : ℕ :=
  ((List.range' 1 (layers.length - 1)).find? fun j =>
    decide (img x (layers.getD j ∅) ∩ layers.getD (j - 1) ∅).Nonempty).getD layers.length

/-- `rank_actions`, src/search.cc:329-355: `some none` is `return false`, otherwise `act_layers`. -/
def rkActions (fuel : ℕ) (act : ℕ → Finset (σ × σ)) (cands : List ℕ) (xn : Finset (σ × σ)) (legit : Finset σ) :
    Option (Option (List (List ℕ))) :=
  (rkStates fuel xn legit).map fun r =>
    if r.2 then
      some (cands.foldl (fun t a => t.modify (rkPlace r.1 (act a)) (· ++ [a])) (List.replicate (r.1.length + 1) []))
    else none

/-- The candidates of a trial, src/search.cc:888-899; `shuffle i` is what `urandom.shuffle` does to layer `i`. -/
def rkOrder (shuffle : ℕ → List ℕ → List ℕ) (layers : List (List ℕ)) : List ℕ :=
  layers.zipIdx.foldl (fun c e => c ++ shuffle e.2 e.1) []

end Verif.Model
