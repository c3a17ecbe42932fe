import Mathlib.Data.List.Range
import Mathlib.Data.Int.ModEq

/-!
Model of the built-in problem instances, src/inst.cc, which are chosen at src/opt.cc:786-802.

A process is given by the numbers of the variables it reads and writes (`rvbls`, `wvbls`); names and index expressions
are left out.  A formula is represented by its value in a state, and a state by the values of the variables.  `none` is
a failed `Claim` or a number of processes that wraps around.
-/

namespace Verif.Model

/-- The variables of a process, src/xnpc.hh:169-171. -/
structure InstPc where
  rvbls : List ℕ
  wvbls : List ℕ
  deriving DecidableEq, Repr

/-- `NatMap::index`, src/xnspec.hh:96-98, with the value of `umod_int`. -/
def instIndex (memb : ℤ) (m : ℕ) : ℕ := (memb % m).toNat

/-- The two accesses of a process at src/inst.cc:30-44, 51-60 and 69-76: `membs` are `i-1` and `i`. -/
def ringPc (m : ℕ) (i : ℤ) : InstPc := ⟨[instIndex (i - 1) m, instIndex i m], [instIndex i m]⟩

/-- `UnidirectionalRing`, src/inst.cc:14-78.  The branches for one symmetry and for one symmetry for each process
add the same variables in the same order. -/
def uniRing (npcs : ℕ) (symmetric distinguished : Bool) : Option (List InstPc) :=
  if !(symmetric || !distinguished) then none
  else if distinguished && npcs = 0 then none
  else
    let k := if distinguished then npcs - 1 else npcs
    let pcs := (List.range k).map fun i : ℕ => ringPc npcs (i : ℤ)
    some (if distinguished then pcs ++ [⟨[instIndex ((npcs : ℤ) - 2) npcs, instIndex ((npcs : ℤ) - 1) npcs],
      [instIndex ((npcs : ℤ) - 1) npcs]⟩] else pcs)

/-- `BidirectionalRing`, src/inst.cc:82-112. -/
def biRing (npcs : ℕ) (symmetric : Bool) : Option (List InstPc) :=
  (uniRing npcs symmetric false).map fun pcs =>
    pcs.zipIdx.map fun e => { e.1 with rvbls := e.1.rvbls ++ [instIndex ((e.2 : ℤ) + 1) npcs] }

/-- The value of `pc.rvbls[k]` in a state. -/
def InstPc.val (pc : InstPc) (x : ℕ → ℕ) (k : ℕ) : ℕ := x (pc.rvbls.getD k 0)

/-- The loop `for (pcidx...)  sys.invariant &= ...`, as at src/inst.cc:131-140. -/
def invLoop (f : InstPc → Bool) (pcs : List InstPc) : Bool := pcs.foldl (fun inv pc => inv && f pc) true

/-- `InstThreeColoringRing`, src/inst.cc:124-141. -/
def instThreeColoring (npcs : ℕ) (x : ℕ → ℕ) : Option Bool :=
  (biRing npcs true).map (invLoop fun pc => pc.val x 0 != pc.val x 1 && pc.val x 1 != pc.val x 2)

/-- `decmod(i, 1, n)` of the library cx. -/
def decmod1 (i n : ℕ) : ℕ := if i < 1 then i + (n - 1) else i - 1

/-- `InstTwoColoringRing`, src/inst.cc:181-199. -/
def instTwoColoring (npcs : ℕ) (x : ℕ → ℕ) : Option Bool :=
  (uniRing npcs false false).map fun _ =>
    (List.range npcs).foldl (fun inv i => inv && x (decmod1 i npcs) != x i) true

/-- `InstMatching`, src/inst.cc:201-234. -/
def instMatching (npcs : ℕ) (symmetric : Bool) (x : ℕ → ℕ) : Option Bool :=
  (biRing npcs symmetric).map (invLoop fun pc =>
    (pc.val x 0 == 1 && pc.val x 1 == 0 && pc.val x 2 == 2) || (pc.val x 0 == 2 && pc.val x 1 == 1) ||
      (pc.val x 1 == 2 && pc.val x 2 == 1))

/-- `InstSumNot`, src/inst.cc:240-258. -/
def instSumNot (npcs target : ℕ) (x : ℕ → ℕ) : Option Bool :=
  (uniRing npcs true false).map (invLoop fun pc => pc.val x 0 + pc.val x 1 != target)

/-- `InstAgreementRing`, src/inst.cc:263-288. -/
def instAgreement (npcs : ℕ) (x : ℕ → ℕ) : Option Bool :=
  (biRing npcs true).map (invLoop fun pc =>
    (((pc.val x 1 : ℤ) - pc.val x 0) % npcs) == (((pc.val x 2 : ℤ) - pc.val x 1) % npcs))

/-- `SingleTokenPFmla`, src/inst.cc:148-173, for the values of the formulas in a state. -/
def singleToken (tokens : List Bool) : Bool :=
  let tab := tokens.zipIdx.foldl (fun tab e => tab.zipIdx.map fun b =>
    if b.2 = e.2 then b.1 && e.1 else b.1 && !e.1) (List.replicate tokens.length true)
  tab.foldl (fun pf b => pf || b) false

end Verif.Model
