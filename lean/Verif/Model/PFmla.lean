import Verif.Model.IntFmla

/-!
Model of formulas, src/pfmla.c and src/pfmla.h, and of their representation by decision diagrams,
src/pfmla-glu.c.

A formula is a handle (`PFmla`, a pointer).  The null pointer is `false`, the address of a static object
is `true`, all others point to an object with a context and a decision diagram.  `Store` has the handles
and the objects; a use of an object that was freed, a second `free`, and a failed `Claim` are `none`.
Addresses are never used again, so every use of a freed object is detected.  Decision diagrams are values
(their reference counts are not modelled).
-/

namespace Verif.Model

/-- `BitOp` as far as used with `op2_fn`, src/pfmla-glu.c:71-117. -/
inductive BitOp where
  | nimp | not0 | and | xnor | xor | iden0 | or
  deriving DecidableEq, Repr

/-- `struct PFmlaVT`, src/pfmla.h:36-76, for diagrams of type `M`; list identifiers are numbers, `smooth`
takes the sign of `pre_or_img`. -/
structure Vt (M : Type) where
  op2 : BitOp → M → M → M
  smooth : ℕ → ℤ → M → M
  subst1 : ℕ → Bool → M → M
  pre : M → M
  pre1 : M → M → M
  pre2 : ℕ → M → M → M
  imgAsImg : M → M
  img : M → M
  img1 : M → M → M
  img2 : ℕ → M → M → M
  dotjoin : M → M → M
  inverse : M → M
  asImg : M → M
  taut : M → Bool
  sat : M → Bool
  equiv : M → M → Bool
  overlap : M → M → Bool
  subseteq : M → M → Bool
  one : M
  zero : M

/-! ### Handles and objects -/

/-- A value of type `PFmla`: null, the static `base` of `phase_fo_PFmla`, or an object. -/
inductive Ptr where
  | null | base | obj (p : ℕ)
  deriving DecidableEq, Repr

/-- An object: its context and its diagram (null after `make_fn`). -/
structure Obj (M : Type) where
  ctx : ℕ
  mdd : Option M

/-- Handles named by `ν`, objects, and the next address. -/
structure Store (ν M : Type) where
  vars : ν → Ptr
  heap : ℕ → Option (Obj M)
  brk : ℕ

/-- `Trit` with `Nil`, `Yes`, `May`. -/
inductive Phase where
  | no | yes | may
  deriving DecidableEq, Repr

variable {ν M : Type} [DecidableEq ν]

/-- `phase_of_PFmla`, src/pfmla.h:216-222; `base.ctx` is null. -/
def phaseOf (st : Store ν M) : Ptr → Option Phase
  | .null => some .no
  | .base => some .yes
  | .obj p => (st.heap p).map fun _ => .may

/-- `g->ctx` of a pointer that is not null; `none` inside is the null context of `base`. -/
def ctxOf (st : Store ν M) : Ptr → Option (Option ℕ)
  | .null => none
  | .base => some none
  | .obj p => (st.heap p).map fun o => some o.ctx

/-- `*c = p`. -/
def setVar (st : Store ν M) (c : ν) (p : Ptr) : Store ν M :=
  ⟨Function.update st.vars c p, st.heap, st.brk⟩

/-- `lose_PFmla`, src/pfmla.h:237-242. -/
def lose (c : ν) (st : Store ν M) : Option (Store ν M) :=
  match st.vars c with
  | .null => some st
  | .base => some st
  | .obj p => (st.heap p).map fun _ => ⟨st.vars, Function.update st.heap p none, st.brk⟩

/-- `phase_fo_PFmla`, src/pfmla.c:40-46. -/
def phaseFo (c : ν) (phase : Bool) (st : Store ν M) : Store ν M :=
  setVar st c (if phase then .base else .null)

/-- `wipe1_PFmla`, src/pfmla.c:48-53. -/
def wipe1 (c : ν) (phase : Bool) (st : Store ν M) : Option (Store ν M) :=
  (lose c st).map (phaseFo c phase)

/-- `wipe_PFmla`, src/pfmla.h:255-260. -/
def wipe (c : ν) (st : Store ν M) : Option (Store ν M) :=
  (lose c st).map fun st => setVar st c .null

/-- `*c = cons_PFmla (ctx)`, src/pfmla.h:198-204. -/
def consTo (c : ν) (ctx : ℕ) (st : Store ν M) : Store ν M :=
  ⟨Function.update st.vars c (.obj st.brk), Function.update st.heap st.brk (some ⟨ctx, none⟩), st.brk + 1⟩

/-- `pre_op2_PFmla`, src/pfmla.c:56-64; reading `a->ctx` of a null pointer fails. -/
def preOp2 (c : ν) (a b : Ptr) (st : Store ν M) : Option (Store ν M) :=
  match ctxOf st a, ctxOf st b with
  | some ca, some cb =>
    if ca = cb then
      let st1? : Option (Store ν M) :=
        match st.vars c with
        | .null => some st
        | p => (ctxOf st p).bind fun cc => if cc ≠ ca then wipe c st else some st
      st1?.bind fun st1 =>
        (phaseOf st1 (st1.vars c)).bind fun ph =>
          if ph ≠ .may then ca.map fun k => consTo c k st1 else some st1
    else none
  | _, _ => none

/-- The diagram of an object. -/
def mddOf (st : Store ν M) : Ptr → Option M
  | .obj p => (st.heap p).bind fun o => o.mdd
  | _ => none

/-- A function of the table is called with the destination `*c` and writes the new diagram there, for example
src/pfmla-glu.c:115-116. -/
def writeMdd (c : ν) (m : M) (st : Store ν M) : Option (Store ν M) :=
  match st.vars c with
  | .obj p => (st.heap p).map fun o => ⟨st.vars, Function.update st.heap p (some ⟨o.ctx, some m⟩), st.brk⟩
  | _ => none

/-- The common form of `iden_PFmla` (82-95), `not_PFmla` (97-110), `smooth_vbls_PFmla` (383-396),
`subst1_vbls_PFmla` (398-411), `pre_PFmla` (428-441), `img_as_img_PFmla` (492-505), `img_PFmla` (507-520),
`inverse_PFmla` (597-610) and `as_img_PFmla` (612-625) in src/pfmla.c: constants become `k` of the
constant, others are given to `f`. -/
def unary (k : Bool → Bool) (f : M → M) (c : ν) (a : Ptr) (st : Store ν M) : Option (Store ν M) :=
  (phaseOf st a).bind fun ph =>
    match ph with
    | .no => wipe1 c (k false) st
    | .yes => wipe1 c (k true) st
    | .may => (preOp2 c a a st).bind fun st1 => (mddOf st1 a).bind fun m => writeMdd c (f m) st1

/-- The last branch of the operations with two operands. -/
def binaryMay (f : M → M → M) (c : ν) (a b : Ptr) (st : Store ν M) : Option (Store ν M) :=
  (preOp2 c a b st).bind fun st1 =>
    (mddOf st1 a).bind fun m => (mddOf st1 b).bind fun m' => writeMdd c (f m m') st1

/-- The test of the phases: first that of `a`, then that of `b`. -/
def branchA (a b : Ptr) (aYes aNo bYes bNo may : Store ν M → Option (Store ν M)) (st : Store ν M) :
    Option (Store ν M) :=
  (phaseOf st a).bind fun pa => (phaseOf st b).bind fun pb =>
    match pa, pb with
    | .yes, _ => aYes st
    | .no, _ => aNo st
    | .may, .yes => bYes st
    | .may, .no => bNo st
    | .may, .may => may st

/-- `iden_PFmla`, src/pfmla.c:82-95. -/
def idenP (vt : Vt M) (c : ν) (a : Ptr) : Store ν M → Option (Store ν M) :=
  unary id (fun m => vt.op2 .iden0 m m) c a

/-- `not_PFmla`, src/pfmla.c:97-110. -/
def notP (vt : Vt M) (c : ν) (a : Ptr) : Store ν M → Option (Store ν M) :=
  unary not (fun m => vt.op2 .not0 m m) c a

/-- `and_PFmla`, src/pfmla.c:112-137. -/
def andP (vt : Vt M) (c : ν) (a b : Ptr) : Store ν M → Option (Store ν M) :=
  branchA a b (idenP vt c b) (wipe1 c false) (idenP vt c a) (wipe1 c false) (binaryMay (vt.op2 .and) c a b)

/-- `or_PFmla`, src/pfmla.c:139-164. -/
def orP (vt : Vt M) (c : ν) (a b : Ptr) : Store ν M → Option (Store ν M) :=
  branchA a b (wipe1 c true) (idenP vt c b) (wipe1 c true) (idenP vt c a) (binaryMay (vt.op2 .or) c a b)

/-- `nimp_PFmla`, src/pfmla.c:166-191. -/
def nimpP (vt : Vt M) (c : ν) (a b : Ptr) : Store ν M → Option (Store ν M) :=
  branchA a b (notP vt c b) (wipe1 c false) (wipe1 c false) (idenP vt c a) (binaryMay (vt.op2 .nimp) c a b)

/-- `xnor_PFmla`, src/pfmla.c:193-218. -/
def xnorP (vt : Vt M) (c : ν) (a b : Ptr) : Store ν M → Option (Store ν M) :=
  branchA a b (idenP vt c b) (notP vt c b) (idenP vt c a) (notP vt c a) (binaryMay (vt.op2 .xnor) c a b)

/-- `xor_PFmla`, src/pfmla.c:220-245. -/
def xorP (vt : Vt M) (c : ν) (a b : Ptr) : Store ν M → Option (Store ν M) :=
  branchA a b (notP vt c b) (idenP vt c b) (notP vt c a) (idenP vt c a) (binaryMay (vt.op2 .xor) c a b)

/-- `smooth_vbls_PFmla`, src/pfmla.c:383-396. -/
def smoothP (vt : Vt M) (l : ℕ) (sg : ℤ) (c : ν) (a : Ptr) : Store ν M → Option (Store ν M) :=
  unary id (vt.smooth l sg) c a

/-- `subst1_vbls_PFmla`, src/pfmla.c:398-411. -/
def subst1P (vt : Vt M) (l : ℕ) (toImg : Bool) (c : ν) (a : Ptr) : Store ν M → Option (Store ν M) :=
  unary id (vt.subst1 l toImg) c a

/-- `pre_PFmla`, src/pfmla.c:428-441. -/
def preP (vt : Vt M) (c : ν) (a : Ptr) : Store ν M → Option (Store ν M) := unary id vt.pre c a

/-- `img_as_img_PFmla`, src/pfmla.c:492-505. -/
def imgAsImgP (vt : Vt M) (c : ν) (a : Ptr) : Store ν M → Option (Store ν M) := unary id vt.imgAsImg c a

/-- `img_PFmla`, src/pfmla.c:507-520. -/
def imgP (vt : Vt M) (c : ν) (a : Ptr) : Store ν M → Option (Store ν M) := unary id vt.img c a

/-- `inverse_PFmla`, src/pfmla.c:597-610. -/
def inverseP (vt : Vt M) (c : ν) (a : Ptr) : Store ν M → Option (Store ν M) := unary id vt.inverse c a

/-- `as_img_PFmla`, src/pfmla.c:612-625. -/
def asImgP (vt : Vt M) (c : ν) (a : Ptr) : Store ν M → Option (Store ν M) := unary id vt.asImg c a

/-- `pre1_PFmla`, src/pfmla.c:443-464 (the phase of `b` is tested first). -/
def pre1P (vt : Vt M) (c : ν) (a b : Ptr) : Store ν M → Option (Store ν M) :=
  branchA b a (preP vt c a) (wipe1 c false) (wipe1 c true) (wipe1 c false) (binaryMay vt.pre1 c a b)

/-- `pre2_PFmla`, src/pfmla.c:466-490. -/
def pre2P (vt : Vt M) (l : ℕ) (c : ν) (xn pf : Ptr) : Store ν M → Option (Store ν M) :=
  branchA pf xn (preP vt c xn) (wipe1 c false) (smoothP vt l (-1) c pf) (wipe1 c false)
    (binaryMay (vt.pre2 l) c xn pf)

/-- `img1_PFmla`, src/pfmla.c:522-543. -/
def img1P (vt : Vt M) (c : ν) (a b : Ptr) : Store ν M → Option (Store ν M) :=
  branchA b a (imgP vt c a) (wipe1 c false) (wipe1 c true) (wipe1 c false) (binaryMay vt.img1 c a b)

/-- `img2_PFmla`, src/pfmla.c:545-569. -/
def img2P (vt : Vt M) (l : ℕ) (c : ν) (xn pf : Ptr) : Store ν M → Option (Store ν M) :=
  branchA pf xn (imgP vt c xn) (wipe1 c false) (smoothP vt l (-1) c pf) (wipe1 c false)
    (binaryMay (vt.img2 l) c xn pf)

/-- `dotjoin_PFmla`, src/pfmla.c:571-595. -/
def dotjoinP (vt : Vt M) (c : ν) (a b : Ptr) : Store ν M → Option (Store ν M) :=
  branchA b a (preP vt c a) (wipe1 c false) (imgAsImgP vt c b) (wipe1 c false) (binaryMay vt.dotjoin c a b)

/-- `tautology_ck_PFmla`, src/pfmla.c:247-254. -/
def tautP (vt : Vt M) (a : Ptr) (st : Store ν M) : Option Bool :=
  (phaseOf st a).bind fun ph =>
    match ph with
    | .may => (mddOf st a).map vt.taut
    | ph => some (decide (ph = .yes))

/-- `sat_ck_PFmla`, src/pfmla.c:256-274, with a table that has `sat_ck_fn`. -/
def satP (vt : Vt M) (a : Ptr) (st : Store ν M) : Option Bool :=
  (phaseOf st a).bind fun ph =>
    match ph with
    | .may => (mddOf st a).map vt.sat
    | ph => some (decide (ph = .yes))

/-- The last branch of the tests with two operands. -/
def ckMay (f : M → M → Bool) (a b : Ptr) (st : Store ν M) : Option Bool :=
  if ctxOf st a = ctxOf st b then
    (mddOf st a).bind fun m => (mddOf st b).map fun m' => f m m'
  else none

/-- `equiv_ck_PFmla`, src/pfmla.c:276-309, with a table that has `equiv_ck_fn`. -/
def equivP (vt : Vt M) (a b : Ptr) (st : Store ν M) : Option Bool :=
  (phaseOf st a).bind fun pa => (phaseOf st b).bind fun pb =>
    match pa, pb with
    | .yes, _ => tautP vt b st
    | .no, _ => (satP vt b st).map not
    | .may, .yes => tautP vt a st
    | .may, .no => (satP vt a st).map not
    | .may, .may => ckMay vt.equiv a b st

/-- `overlap_ck_PFmla`, src/pfmla.c:311-342, with a table that has `overlap_ck_fn`. -/
def overlapP (vt : Vt M) (a b : Ptr) (st : Store ν M) : Option Bool :=
  (phaseOf st a).bind fun pa => (phaseOf st b).bind fun pb =>
    match pa, pb with
    | .yes, _ => satP vt b st
    | .no, _ => some false
    | .may, .yes => satP vt a st
    | .may, .no => some false
    | .may, .may => ckMay vt.overlap a b st

/-- `subseteq_ck_PFmla`, src/pfmla.c:344-374, with a table that has `subseteq_ck_fn`. -/
def subseteqP (vt : Vt M) (a b : Ptr) (st : Store ν M) : Option Bool :=
  (phaseOf st a).bind fun pa => (phaseOf st b).bind fun pb =>
    match pa, pb with
    | .yes, _ => tautP vt b st
    | .no, _ => some true
    | .may, .yes => some true
    | .may, .no => (satP vt a st).map not
    | .may, .may => ckMay vt.subseteq a b st

/-- `ensure_ctx_PFmla`, src/pfmla.h:263-275; `make1_fn` gives the constant diagram. -/
def ensureCtx (vt : Vt M) (k : ℕ) (c : ν) (st : Store ν M) : Option (Store ν M) :=
  (phaseOf st (st.vars c)).bind fun ph =>
    match ph with
    | .may => if ctxOf st (st.vars c) = some (some k) then some st else none
    | ph => writeMdd c (if ph = .yes then vt.one else vt.zero) (consTo c k st)

/-- The operations with one operand. -/
inductive Op1 where
  | iden | not | smooth (l : ℕ) (sg : ℤ) | subst1 (l : ℕ) (toImg : Bool) | pre | imgAsImg | img | inverse | asImg
  deriving DecidableEq, Repr

/-- The operations with two operands. -/
inductive Op2 where
  | and | or | nimp | xnor | xor | pre1 | pre2 (l : ℕ) | img1 | img2 (l : ℕ) | dotjoin
  deriving DecidableEq, Repr

/-- The function for an operation with one operand. -/
def run1 (vt : Vt M) : Op1 → ν → Ptr → Store ν M → Option (Store ν M)
  | .iden => idenP vt
  | .not => notP vt
  | .smooth l sg => smoothP vt l sg
  | .subst1 l b => subst1P vt l b
  | .pre => preP vt
  | .imgAsImg => imgAsImgP vt
  | .img => imgP vt
  | .inverse => inverseP vt
  | .asImg => asImgP vt

/-- The function for an operation with two operands. -/
def run2 (vt : Vt M) : Op2 → ν → Ptr → Ptr → Store ν M → Option (Store ν M)
  | .and => andP vt
  | .or => orP vt
  | .nimp => nimpP vt
  | .xnor => xnorP vt
  | .xor => xorP vt
  | .pre1 => pre1P vt
  | .pre2 l => pre2P vt l
  | .img1 => img1P vt
  | .img2 l => img2P vt l
  | .dotjoin => dotjoinP vt

/-- A program: a sequence of assignments to handles. -/
inductive Instr (ν : Type) where
  | const (c : ν) (b : Bool)
  | op1 (op : Op1) (c x : ν)
  | op2 (op : Op2) (c x y : ν)

/-- The operands are handles, read before the call (in C they are passed by value). -/
def runInstr (vt : Vt M) (st : Store ν M) : Instr ν → Option (Store ν M)
  | .const c b => wipe1 c b st
  | .op1 op c x => run1 vt op c (st.vars x) st
  | .op2 op c x y => run2 vt op c (st.vars x) (st.vars y) st

/-! ### Decision diagrams -/

/-- The three copies of each variable, `pre_id`, `img_id`, `aux_id`, src/pfmla-glu.c:501-503. -/
inductive Copy where
  | pre | img | aux
  deriving DecidableEq, Repr

instance : Fintype Copy := ⟨{.pre, .img, .aux}, fun x => by cases x <;> simp⟩

/-- Values of all variables. -/
abbrev Env (n : ℕ) (dom : Fin n → ℕ) := Copy → (i : Fin n) → Fin (dom i)

variable {n : ℕ} {dom : Fin n → ℕ}

/-- A diagram denotes a set of assignments to all variables. -/
abbrev Mdd (n : ℕ) (dom : Fin n → ℕ) := Finset (Env n dom)

/-- `mdd_smooth` (library function, assumed): existential quantification of the variables `W`. -/
def mddSmooth (W : Finset (Copy × Fin n)) (f : Mdd n dom) : Mdd n dom :=
  Finset.univ.filter fun e => ∃ e' ∈ f, ∀ c i, (c, i) ∉ W → e' c i = e c i

/-- The assignment in which the copy `old` of the variables `L` has the values of the copy `new`. -/
def copyTo (old new : Copy) (L : Finset (Fin n)) (e : Env n dom) : Env n dom :=
  fun c i => if c = old ∧ i ∈ L then e new i else e c i

/-- `f` does not depend on the variables `W`. -/
def IndepOf (W : Finset (Copy × Fin n)) (f : Mdd n dom) : Prop :=
  ∀ e e' : Env n dom, (∀ c i, (c, i) ∉ W → e c i = e' c i) → (e ∈ f ↔ e' ∈ f)

/-- `mdd_substitute (f, old, new)` (library function).  Assumed only for diagrams that do not depend on the
new variables; whether it composes or exchanges the variables is open. -/
structure MddLib (n : ℕ) (dom : Fin n → ℕ) where
  subst : Copy → Copy → Finset (Fin n) → Mdd n dom → Mdd n dom
  ok : ∀ old new L f, IndepOf (L.image fun i => (new, i)) f →
    subst old new L f = Finset.univ.filter fun e => copyTo old new L e ∈ f

/-- The variables of a copy. -/
def cp (c : Copy) (L : Finset (Fin n)) : Finset (Copy × Fin n) := L.image fun i => (c, i)

/-- `op2_GluPFmla`, src/pfmla-glu.c:71-117. -/
def gluOp2 : BitOp → Mdd n dom → Mdd n dom → Mdd n dom
  | .nimp, a, b => a \ b
  | .not0, a, _ => aᶜ
  | .and, a, b => a ∩ b
  | .xnor, a, b => (a ∩ b) ∪ (aᶜ ∩ bᶜ)
  | .xor, a, b => (a \ b) ∪ (b \ a)
  | .iden0, a, _ => a
  | .or, a, b => a ∪ b

/-- The table of functions of src/pfmla-glu.c; `lists` are the lists of variables. -/
def gluVt (lib : MddLib n dom) (lists : ℕ → Finset (Fin n)) : Vt (Mdd n dom) where
  op2 := gluOp2
  -- `smooth_vbls_GluPFmla`, src/pfmla-glu.c:120-139
  smooth := fun l sg a =>
    mddSmooth (if sg < 0 then cp .pre (lists l) else if 0 < sg then cp .img (lists l)
      else cp .aux (lists l) ∪ cp .img (lists l) ∪ cp .pre (lists l)) a
  -- `subst1_vbls_GluPFmla`, src/pfmla-glu.c:142-158
  subst1 := fun l toImg a =>
    if toImg then lib.subst .pre .img (lists l) a else lib.subst .img .pre (lists l) a
  -- `pre_GluPFmla`, src/pfmla-glu.c:177-186
  pre := fun a => mddSmooth (cp .img Finset.univ) a
  -- `pre1_GluPFmla`, src/pfmla-glu.c:189-203
  pre1 := fun a b => mddSmooth (cp .img Finset.univ) (a ∩ lib.subst .pre .img Finset.univ b)
  -- `pre2_GluPFmla`, src/pfmla-glu.c:206-221
  pre2 := fun l xn pf => mddSmooth (cp .img (lists l)) (xn ∩ lib.subst .pre .img (lists l) pf)
  -- `img_as_img_GluPFmla`, src/pfmla-glu.c:224-233
  imgAsImg := fun a => mddSmooth (cp .pre Finset.univ) a
  -- `img_GluPFmla`, src/pfmla-glu.c:236-248
  img := fun a => lib.subst .img .pre Finset.univ (mddSmooth (cp .pre Finset.univ) a)
  -- `img1_GluPFmla`, src/pfmla-glu.c:251-264
  img1 := fun a b => lib.subst .img .pre Finset.univ (mddSmooth (cp .pre Finset.univ) (a ∩ b))
  -- `img2_GluPFmla`, src/pfmla-glu.c:267-280
  img2 := fun l xn pf => lib.subst .img .pre (lists l) (mddSmooth (cp .pre (lists l)) (xn ∩ pf))
  -- `dotjoin_GluPFmla`, src/pfmla-glu.c:283-304
  dotjoin := fun a b => mddSmooth (cp .aux Finset.univ)
    (lib.subst .img .aux Finset.univ a ∩ lib.subst .pre .aux Finset.univ b)
  -- `inverse_GluPFmla`, src/pfmla-glu.c:307-328
  inverse := fun a => lib.subst .aux .pre Finset.univ
    (lib.subst .pre .img Finset.univ (lib.subst .img .aux Finset.univ a))
  -- `as_img_GluPFmla`, src/pfmla-glu.c:331-342
  asImg := fun a => lib.subst .pre .img Finset.univ a
  -- src/pfmla-glu.c:344-391
  taut := fun a => decide (a = Finset.univ)
  sat := fun a => decide (a ≠ ∅)
  equiv := fun a b => decide (a = b)
  overlap := fun a b => ! decide (a ⊆ bᶜ)
  subseteq := fun a b => decide (a ⊆ b)
  one := Finset.univ
  zero := ∅

/-! ### Variables

The functions below are given on sets: the operations they use on formulas are those on sets (C41).
Domain sizes are positive. -/

/-- `eqc_PFmlaVbl`, src/pfmla.c:734-743, with `vbl_eqc_GluPFmla`, src/pfmla-glu.c:436-445. -/
def eqc (a : Fin n) (x : ℕ) : Mdd n dom :=
  if dom a ≤ x then ∅ else Finset.univ.filter fun e => (e .pre a).val = x

/-- `img_eqc_PFmlaVbl`, src/pfmla.c:772-780, with `vbl_img_eqc_GluPFmla`, src/pfmla-glu.c:447-456. -/
def imgEqc (a : Fin n) (x : ℕ) : Mdd n dom :=
  Finset.univ.filter fun e => (e .img a).val = if dom a ≤ x then x % dom a else x

/-- `eq_PFmlaVbl`, src/pfmla.c:709-732 (the table has no `vbl_eq_fn`). -/
def eqVbl (a b : Fin n) : Mdd n dom :=
  (List.range (if dom a ≤ dom b then dom a else dom b)).foldl (fun dst i => dst ∪ (eqc a i ∩ eqc b i)) ∅

/-- `img_eq_PFmlaVbl`, src/pfmla.c:745-770. -/
def imgEqVbl (a b : Fin n) : Mdd n dom :=
  (List.range (dom b)).foldl (fun dst i => dst ∪ (imgEqc a i ∩ eqc b i)) ∅

/-- `img_eq_img_PFmlaVbl`, src/pfmla.c:782-804. -/
def imgEqImgVbl (a b : Fin n) : Mdd n dom :=
  (List.range (dom b)).foldl (fun dst i => dst ∪ (imgEqc a i ∩ imgEqc b i)) ∅

/-- The inner loop of `pick_pre_PFmla` and `state_of_PFmla`, src/pfmla.c:650-659 and 687-700: the value
for the variable `i`. -/
def pickVal (a conj : Mdd n dom) (i : Fin n) : ℕ :=
  ((List.range (dom i - 1)).find? fun val => decide (conj ∩ eqc i val ∩ a ≠ ∅)).getD (dom i - 1)

/-- The outer loop, src/pfmla.c:648-661 and 685-702: the values and the conjunction. -/
def stateLoop (a : Mdd n dom) : List (Fin n) → Mdd n dom → List ℕ × Mdd n dom
  | [], conj => ([], conj)
  | i :: l, conj =>
    let v := pickVal a conj i
    let r := stateLoop a l (conj ∩ eqc i v)
    (v :: r.1, r.2)

/-- `state_of_PFmla`, src/pfmla.c:669-707. -/
def stateOf (ph : Phase) (a : Mdd n dom) (indices : List (Fin n)) : Option (List ℕ) :=
  match ph with
  | .may => some (stateLoop a indices Finset.univ).1
  | .yes => some (indices.map fun _ => 0)
  | .no => none

/-- `pick_pre_PFmla`, src/pfmla.c:627-667 (the table has no `pick_pre_fn`). -/
def pickPre (ph : Phase) (a : Mdd n dom) : Option (Mdd n dom) :=
  match ph with
  | .may => some (stateLoop a (List.finRange n) Finset.univ).2
  | .no => some ∅
  | .yes => none

end Verif.Model
