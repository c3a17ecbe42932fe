import Verif.Model.Sync

/-!
Model of the check whether two actions can be used together, `coexist_ck` in src/synthesis.cc:12-120, and of
`Net::safe_ck`, src/xnsys.cc:394-412.

An action is its table `vals` (src/xnpc.hh:136-160): one guard for each access, then one value for each written
variable.  All accesses to tables in this function are inside the tables of an action of the process.
-/

namespace Verif.Model

/-- `random_read_ck`, src/xnspec.hh:266. -/
def Access.randomReadCk (a : Access) : Bool := a.type = .randomRead

/-- `guard`, src/xnpc.hh:260. -/
def actGuard (a : List ℕ) (i : ℕ) : ℕ := a.getD i 0

/-- `assign`, src/xnpc.hh:261. -/
def actAssign (pc : PcSymm) (a : List ℕ) (j : ℕ) : ℕ := a.getD (pc.access.length + j) 0

/-- `aguard`, src/xnpc.hh:262. -/
def actAguard (pc : PcSymm) (a : List ℕ) (j : ℕ) : ℕ := a.getD (pc.wmap.getD j 0) 0

/-- A property of `access[i]`. -/
def PcSymm.acc (pc : PcSymm) (f : Access → Bool) (i : ℕ) : Bool := ((pc.access[i]?).map f).getD false

/-- A property of `waccess(j)`, src/xnspec.hh:309-311. -/
def PcSymm.wacc (pc : PcSymm) (f : Access → Bool) (j : ℕ) : Bool := pc.acc f (pc.wmap.getD j 0)

/-- `wvbl_symms[j]->domsz` -/
def PcSymm.wdom (pc : PcSymm) (j : ℕ) : ℕ := ((pc.access[pc.wmap.getD j 0]?).map Access.domsz).getD 0

/-- `readable_adj_eql`, src/synthesis.cc:25-31. -/
def readableAdjEql (pc : PcSymm) (a b : List ℕ) : Bool :=
  (List.range pc.access.length).all fun i => !pc.acc Access.syntReadCk i || actGuard a i == actGuard b i

/-- `readable_img_eql`, src/synthesis.cc:33-41. -/
def readableImgEql (pc : PcSymm) (a b : List ℕ) : Bool :=
  (List.range pc.wmap.length).all fun j =>
    !pc.wacc Access.syntReadCk j || actAssign pc a j == actAssign pc b j

/-- `writeonly_img_eql`, src/synthesis.cc:42-48. -/
def writeonlyImgEql (pc : PcSymm) (a b : List ℕ) : Bool :=
  (List.range pc.wmap.length).all fun j =>
    pc.wacc Access.syntReadCk j ||
      !(pc.wdom j != actAssign pc a j && pc.wdom j != actAssign pc b j && actAssign pc a j != actAssign pc b j)

/-- The loop at src/synthesis.cc:57-68: `enabling` and `deterministic`. -/
def enLoop (pc : PcSymm) (a b : List ℕ) : List ℕ → Bool → Bool → Bool × Bool
  | [], en, det => (en, det)
  | j :: l, en, det =>
    if !en then (en, det)
    else if !pc.acc Access.syntReadCk j then enLoop pc a b l en det
    else if actGuard a j ≠ actGuard b j then
      enLoop pc a b l (if !pc.acc Access.writeCk j && !pc.acc Access.randomReadCk j then false else en) true
    else enLoop pc a b l en det

/-- `x.assign(j) == y.aguard(j)` for all written variables that are not write-only: `a_self_loop`,
`b_self_loop`, `a_enables` and `b_enables`, src/synthesis.cc:74-96. -/
def assignsGuard (pc : PcSymm) (x y : List ℕ) : Bool :=
  (List.range pc.wmap.length).all fun j =>
    pc.wacc Access.syntWriteonlyCk j || actAssign pc x j == actAguard pc y j

/-- `ab` and `ba`: the guard of the first and the assignment of the second, src/synthesis.cc:103-107,
112-116. -/
def mixAct (pc : PcSymm) (a b : List ℕ) : List ℕ := a.take pc.access.length ++ b.drop pc.access.length

/-- `coexist_ck`, src/synthesis.cc:16-120, for actions of the symmetries `pa` and `pb`; `pc` is the symmetry
of `a` and `safe` is `safe_ck` for actions of `pc`. -/
def coexistCk (pa pb : ℕ) (pc : PcSymm) (safe : List ℕ → Bool) (forceDisabling pureActions : Bool)
    (a b : List ℕ) : Bool :=
  if pa ≠ pb then true
  else if readableAdjEql pc a b && readableImgEql pc a b && !writeonlyImgEql pc a b then false
  else if pureActions && readableAdjEql pc a b && !readableImgEql pc a b then false
  else
    let e := enLoop pc a b (List.range pc.access.length) true false
    if !e.2 then false
    else if !e.1 then true
    else if (List.range pc.wmap.length).any (pc.wacc Access.randomWriteCk) then true
    else
      let writeonlyExists := (List.range pc.wmap.length).any (pc.wacc Access.syntWriteonlyCk)
      let aSelf := assignsGuard pc a a
      let bSelf := assignsGuard pc b b
      if !writeonlyExists && (aSelf || bSelf) then false
      else if assignsGuard pc a b && !bSelf then
        if forceDisabling then false else !safe (mixAct pc a b)
      else if assignsGuard pc b a && !aSelf then
        if forceDisabling then false else !safe (mixAct pc b a)
      else true

variable {V : Type} [Fintype V] [DecidableEq V] {dom : V → ℕ}

/-- `represented_xns_of_pc` in the lightweight case, src/xnsys.cc:984-996, for the actions `reps` of the process;
`mask` is `global_mask_xn`. -/
def representedXn (pc : SPc V dom) (mask : Finset (VSt V dom × VSt V dom)) (reps : List (List ℕ)) :
    Option (Finset (VSt V dom × VSt V dom)) :=
  (reps.mapM (xnOfPc pc)).map fun l =>
    let xn := l.foldl (fun xn x => xn ∪ x) ∅
    if pc.spec.access.any Access.randomWriteCk then xn
    else xn.filter fun e => e.1 ∉ (xn ∩ mask).image Prod.snd

/-- `Net::safe_ck`, src/xnsys.cc:394-412, for a symmetry with members; `xn` are the represented transitions. -/
def safeCk (permit forbid xn : Finset (VSt V dom × VSt V dom)) : Bool :=
  if permit.Nonempty ∧ ¬ xn ⊆ permit then false
  else if forbid.Nonempty ∧ xn ⊆ forbid then false
  else true

end Verif.Model
