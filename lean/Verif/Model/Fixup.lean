import Verif.Model.Coexist

/-!
Model of what processes with random writes may do: `Net::fixup_pc_xns`, src/xnsys.cc:94-118, and `okay_xn` of
`xn_of_pc`, src/xnsys.cc:934-943.

Formulas are sets of states or of pairs of states.  `rand` are the variables with `random_ck()`, which are in the list
of written variables of every process (src/xnsys.cc:59-71).
-/

set_option linter.unusedSectionVars false

namespace Verif.Model

/-- The parts of `Pc` used here, src/xnpc.hh:165-180. -/
structure FixPc (V : Type) (dom : V → ℕ) where
  symm : ℕ
  spec : PcSymm
  rvbls : List V
  /-- `closed_assume` -/
  assume : Finset (VSt V dom)
  /-- `forbid_xn` -/
  forbid : Finset (VSt V dom × VSt V dom)
  /-- `permit_xn` -/
  permit : Finset (VSt V dom × VSt V dom)
  /-- `puppet_xn` -/
  puppet : Finset (VSt V dom × VSt V dom)

variable {V : Type} [Fintype V] [DecidableEq V] {dom : V → ℕ}

/-- `pc.wvbls`, as `SPc.wvbls`, src/xnsys.cc:241-260. -/
def FixPc.wvbls (pc : FixPc V dom) : List V := pc.spec.wmap.filterMap fun r => pc.rvbls[r]?

/-- `subst_to_img`, src/pfmla.hh:232-237: the variables of the list are replaced by their new values. -/
def substToImg (W : Finset V) (A : Finset (VSt V dom)) : Finset (VSt V dom × VSt V dom) :=
  Finset.univ.filter fun e => (fun v => if v ∈ W then e.2 v else e.1 v) ∈ A

/-- `okay_xn`, src/xnsys.cc:109-115 and 937-943. -/
def FixPc.okayXn (rand : Finset V) (pc : FixPc V dom) : Finset (VSt V dom × VSt V dom) :=
  let okay := Finset.univ.filter fun e : VSt V dom × VSt V dom => e.1 ∈ pc.assume
  let okay := okay ∩ substToImg (pc.wvbls.toFinset ∪ rand) pc.assume
  let okay := okay \ pc.forbid
  if pc.permit.Nonempty then okay ∩ pc.permit else okay

/-- `probabilistic`, src/xnsys.cc:101-107. -/
def FixPc.probabilistic (pc : FixPc V dom) : Bool :=
  (List.range pc.spec.wmap.length).any fun i => pc.spec.wacc Access.randomWriteCk i

/-- The body of the loop of `fixup_pc_xns`, src/xnsys.cc:98-116. -/
def FixPc.fixup (rand : Finset V) (pc : FixPc V dom) : FixPc V dom :=
  if pc.probabilistic then { pc with puppet := pc.puppet ∩ pc.okayXn rand } else pc

/-- `Net::fixup_pc_xns`, src/xnsys.cc:94-118. -/
def fixupPcXns (rand : Finset V) (pcs : List (FixPc V dom)) : List (FixPc V dom) := pcs.map (FixPc.fixup rand)

/-- The process as `xn_of_pc` uses it, with the formula of src/xnsys.cc:934-943. -/
def FixPc.toSPc (rand : Finset V) (pc : FixPc V dom) : SPc V dom := ⟨pc.symm, pc.spec, pc.rvbls, pc.okayXn rand⟩

end Verif.Model
