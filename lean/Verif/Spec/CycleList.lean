import Verif.Spec.Trans

/-! Specification vocabulary: a list of states that shows a cycle. -/

namespace Verif.Spec

universe u
variable {σ : Type u}

/-- `l` lists the states of a cycle in `A`, beginning and ending with the same state and visiting no
state twice otherwise. -/
structure CycleList (xn : Finset (σ × σ)) (A : Finset σ) (l : List σ) : Prop where
  two : 2 ≤ l.length
  closed : l.head? = l.getLast?
  step : ∀ (i : ℕ) (s t : σ), l[i]? = some s → l[i + 1]? = some t → Step xn s t
  inside : ∀ s ∈ l, s ∈ A
  simple : l.tail.Nodup

end Verif.Spec
