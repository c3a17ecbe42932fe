import Verif.Model.Action
import Verif.Model.Legit

/-!
Model of whole specification files: the remaining rules of src/prot-xfile.leg:23-298, which use the rules
for expressions (`Model/Grammar`), actions (`Model/Action`), assumptions and invariants (`Model/Legit`),
and the writing of a file, `oput_protocon_file`, src/prot-ofile.cc:10-107 and 206-449.

The rules record what they have read as trees; the functions that the actions in braces call (`add_…`)
are not part of this model, except for what decides how later parts are read (predicates) and written
(accesses).
-/

namespace Verif.Model

/-! ### Rules -/

/-- The result of matching a rule: as in `Model/Grammar`, `none` if the fuel is used up. -/
abbrev RRes (α : Type) := Option (Option (α × List Char))

/-- A match. -/
def okR {α : Type} (a : α) (r : List Char) : RRes α := some (some (a, r))

/-- A sequence whose first part is a rule. -/
def thenP {α β : Type} (x : RRes α) (f : α → List Char → RRes β) : RRes β :=
  match x with
  | none => none
  | some none => some none
  | some (some (a, r)) => f a r

/-- A sequence whose first part is a terminal. -/
def tokR {α β : Type} (o : Option α) (f : α → RRes β) : RRes β :=
  match o with
  | none => some none
  | some a => f a

/-- An ordered choice. -/
def elseP {α : Type} (x y : RRes α) : RRes α :=
  match x with
  | none => none
  | some none => y
  | some (some v) => some (some v)

/-- A repetition; the rule can depend on what has been read before. -/
def repP {α : Type} (p : List α → List Char → RRes α) : ℕ → List α → List Char → RRes (List α)
  | 0, _, _ => none
  | m + 1, acc, s =>
    match p acc s with
    | none => none
    | some none => okR acc s
    | some (some (a, r)) => repP p m (acc ++ [a]) r

/-- `END_STMT`, src/prot-xfile.leg:692. -/
def endP (s : List Char) : Option (List Char) := lit ";" (ows s)

/-- No predicates. -/
def noPred : String → Bool := fun _ => false

/-! ### Constants and variables -/

/-- The value of a constant: one or a list. -/
inductive CVal where
  | one (e : Ex)
  | list (l : List Ex)
  deriving DecidableEq, Repr

/-- A constant. -/
structure ConstD where
  name : String
  val : CVal
  deriving DecidableEq, Repr

/-- `ConstIntList`, src/prot-xfile.leg:56-61. -/
def constListP (k : ℕ) (s : List Char) : RRes (List Ex) :=
  tokR (lit "(" s) fun r =>
  thenP (parse noPred k (.sum true) (ows r)) fun a r =>
  thenP (repP (fun _ s => tokR (lit "," s) fun r =>
    thenP (parse noPred k (.sum true) (ows r)) fun b r => okR b.1 (ows r)) k [a.1] (ows r)) fun l r =>
  tokR (lit ")" r) fun r => okR l r

/-- `ConstDecl`, src/prot-xfile.leg:45-53. -/
def constP (k : ℕ) (s : List Char) : RRes ConstD :=
  tokR (lit "constant" s) fun r =>
  tokR (ws r) fun r =>
  tokR (ident r) fun (x, r) =>
  tokR (defeqP r) fun r =>
  thenP
    (elseP (thenP (parse noPred k (.sum true) r) fun a r => okR (CVal.one a.1) r)
      (thenP (constListP k r) fun l r => okR (CVal.list l) r)) fun v r =>
  tokR (endP r) fun r => okR ⟨x, v⟩ r

/-- A declaration of variables. -/
structure VarD where
  role : Role
  name : String
  count : Ex
  dom : Ex
  deriving DecidableEq, Repr

/-- `OptionalShadowPuppetRole`, src/prot-xfile.leg:63-70. -/
def roleP (s : List Char) : Role × List Char :=
  match (lit "shadow" s).bind ws with
  | some r => (.shadow, r)
  | none =>
    match (puppetT s).bind ws with
    | some r => (.puppet, r)
    | none =>
      match (lit "direct" s).bind ws with
      | some r => (.direct, r)
      | none =>
        match (lit "underlying" s).bind ws with
        | some r => (.direct, r)
        | none => (.direct, s)

/-- The number in `(NatDom n)`. -/
def innerEx : Ex → Ex
  | .natDom e => e
  | e => e

/-- `NatDom`, src/prot-xfile.leg:578-584 (only the number is kept). -/
def natDomP (k : ℕ) (s : List Char) : RRes Ex :=
  tokR (firstLit [("Int", ()), ("Nat", ())] s) fun (_, r) =>
  tokR (lit "%" (ows r)) fun r =>
  thenP (parse noPred k (.value true) (ows r)) fun a r => okR a.1 r

/-- `VarDecl`, src/prot-xfile.leg:72-84. -/
def varP (k : ℕ) (s : List Char) : RRes VarD :=
  tokR (lit "variable" (roleP s).2) fun r =>
  tokR (ws r) fun r =>
  tokR (ident r) fun (x, r) =>
  tokR (lit "[" r) fun r =>
  thenP (elseP (natDomP k (ows r)) (thenP (parse noPred k (.sum true) (ows r)) fun a r => okR a.1 r)) fun b r =>
  tokR (lit "]" (ows r)) fun r =>
  thenP (parse noPred k .dom (ows r)) fun c r =>
  tokR (endP r) fun r => okR ⟨(roleP s).1, x, b, innerEx c.1⟩ r

/-! ### Predicates -/

/-- `NamedPredicate` and `ProcNamedPredicate`, src/prot-xfile.leg:148-151 and 256-259. -/
def predP (isPred : String → Bool) (k : ℕ) (s : List Char) : RRes (String × Ex) :=
  tokR (lit "predicate" s) fun r =>
  tokR (ws r) fun r =>
  tokR (ident r) fun (x, r) =>
  tokR (defeqP r) fun r =>
  thenP (parse isPred k .expr r) fun a r =>
  tokR (endP r) fun r => okR (x, a.1) r

/-! ### Processes -/

/-- Accesses: one statement with some references, or `symmetric` with the names, the tuples and the
statements. -/
inductive AccD where
  | one (t : AccessType) (refs : List Ex)
  | sym (names : List String) (vals : List (List Ex)) (stmts : List (AccessType × List Ex))
  deriving DecidableEq, Repr

/-- The alternatives of `VblAccessType`, src/prot-xfile.leg:210-217. -/
def accTypes : List (AccessType × (List Char → Option (List Char))) :=
  [(.read, lit "read:"), (.write, lit "write:"), (.yield, lit "yield:"), (.effect, lit "effect:"),
   (.randomRead, fun s => ((lit "random" s).bind ws).bind (lit "read:")),
   (.randomWrite, fun s => ((lit "random" s).bind ws).bind (lit "write:"))]

/-- `access:VblAccessType WS? u:VblRef WS? (',' WS? v:VblRef WS?)* END_STMT WS?`,
src/prot-xfile.leg:182-185 and 242-252. -/
def accP (k : ℕ) (s : List Char) : RRes (AccessType × List Ex) :=
  tokR (firstAlt accTypes s) fun (t, r) =>
  thenP (parse noPred k .vref (ows r)) fun u r =>
  thenP (repP (fun _ s => tokR (lit "," s) fun r =>
    thenP (parse noPred k .vref (ows r)) fun v r => okR v.1 (ows r)) k [u.1] (ows r)) fun l r =>
  tokR (endP r) fun r => okR (t, l) (ows r)

/-- `Expr WS? (',' WS? Expr WS?)*` -/
def exprsP (k : ℕ) (s : List Char) : RRes (List Ex) :=
  thenP (parse noPred k .expr s) fun u r =>
  repP (fun _ s => tokR (lit "," s) fun r =>
    thenP (parse noPred k .expr (ows r)) fun v r => okR v.1 (ows r)) k [u.1] (ows r)

/-- `ValueList`, src/prot-xfile.leg:219-224. -/
def valuesP (k : ℕ) (s : List Char) : RRes (List Ex) :=
  tokR (lit "(" s) fun r =>
  thenP (exprsP k (ows r)) fun l r =>
  tokR (lit ")" r) fun r => okR l r

/-- The names and tuples of `SymmetricLinks`: the first alternative, src/prot-xfile.leg:228-231. -/
def links1P (k : ℕ) (s : List Char) : RRes (List String × List (List Ex)) :=
  tokR (ident s) fun (x, r) =>
  tokR (lit "<-" (ows r)) fun r =>
  tokR (lit "{#" (ows r)) fun r =>
  thenP (exprsP k (ows r)) fun l r => okR ([x], l.map fun e => [e]) r

/-- The second alternative, src/prot-xfile.leg:233-238. -/
def links2P (k : ℕ) (s : List Char) : RRes (List String × List (List Ex)) :=
  tokR (lit "(" s) fun r =>
  tokR (ident r) fun (x, r) =>
  thenP (repP (fun _ s => tokR (lit "," s) fun r =>
    tokR (ident (ows r)) fun (y, r) => okR y (ows r)) k [x] (ows r)) fun xs r =>
  tokR (lit ")" r) fun r =>
  tokR (lit "<-" (ows r)) fun r =>
  tokR (lit "{#" (ows r)) fun r =>
  thenP (valuesP k (ows r)) fun l r =>
  thenP (repP (fun _ s => tokR (lit "," s) fun r =>
    thenP (valuesP k (ows r)) fun m r => okR m (ows r)) k [l] (ows r)) fun ls r =>
  okR (xs, ls) r

/-- `SymmetricLinks`, src/prot-xfile.leg:226-254. -/
def symP (k : ℕ) (s : List Char) : RRes AccD :=
  tokR (lit "symmetric" s) fun r =>
  tokR (ws r) fun r =>
  thenP (elseP (links1P k r) (links2P k r)) fun v r =>
  tokR (lit "#}" r) fun r =>
  tokR (lit "{" (ows r)) fun r =>
  thenP (repP (fun _ s => accP k s) k [] (ows r)) fun l r =>
  if l = [] then some none else tokR (lit "}" r) fun r => okR (.sym v.1 v.2 l) r

/-- One of the accesses of a process, src/prot-xfile.leg:181-187. -/
def accDP (k : ℕ) (s : List Char) : RRes AccD :=
  elseP (thenP (accP k s) fun v r => okR (.one v.1 v.2) r) (thenP (symP k s) fun v r => okR v (ows r))

/-- The sections with actions. -/
inductive ActKind where
  | shadow | direct | puppet | permit | forbid | conflict
  deriving DecidableEq, Repr

/-- `ACTION`, src/prot-xfile.leg:688. -/
def actionT (s : List Char) : Option (List Char) :=
  (firstLit [("act:", ()), ("action:", ())] s).map Prod.snd

/-- `(WS ACTION | ':')` -/
def actColon (s : List Char) : Option (List Char) :=
  match (ws s).bind actionT with
  | some r => some r
  | none => lit ":" s

/-- The beginnings of the sections in the order of the rules, src/prot-xfile.leg:112-145. -/
def actHeads : List (ActKind × (List Char → Option (List Char))) :=
  [(.shadow, fun s => ((firstLit [("shadow", ()), ("underlying", ())] s).map Prod.snd).bind actColon),
   (.direct, fun s =>
      match actionT (((lit "direct" s).bind ws).getD s) with
      | some r => some r
      | none => (lit "direct" s).bind (lit ":")),
   (.puppet, fun s => (puppetT s).bind actColon),
   (.permit, fun s => (lit "permit" s).bind actColon),
   (.forbid, fun s => (lit "forbid" s).bind actColon),
   (.conflict, fun s => lit "conflict:" s)]

/-- A section with actions, src/prot-xfile.leg:112-145.  (No two beginnings match the same text.) -/
def actDefP (isPred : String → Bool) (k : ℕ) (s : List Char) : RRes (ActKind × List ActTree) :=
  tokR (firstAlt actHeads s) fun (kd, r) =>
  match actsP isPred k k [] (ows r) with
  | none => none
  | some (l, r) => tokR (endP r) fun r => okR (kd, l) r

/-- The other parts of a process. -/
inductive PcItem where
  | pred (x : String) (e : Ex)
  | assume (e : Ex)
  | legit (m : Style × Scope) (e : Ex)
  | acts (kd : ActKind) (l : List ActTree)
  deriving DecidableEq

/-- Whether a name is that of a predicate of the process that has been read: `pc_symm->predicate_map`,
src/prot-xfile.leg:459-461. -/
def pcPred (l : List PcItem) (x : String) : Bool :=
  l.any fun
    | .pred y _ => y == x
    | _ => false

/-- One of the other parts, src/prot-xfile.leg:191-203.  If none matches, the file is not accepted. -/
def pcItemP (k : ℕ) (acc : List PcItem) (s : List Char) : RRes PcItem :=
  thenP
    (elseP (thenP (predP (pcPred acc) k s) fun v r => okR (PcItem.pred v.1 v.2) r)
    (elseP (thenP (assumeStmtP (pcPred acc) k s) fun v r => okR (PcItem.assume v.2) r)
    (elseP (thenP (legitStmtP (pcPred acc) k s) fun v r => okR (PcItem.legit v.1 v.2) r)
      (thenP (actDefP (pcPred acc) k s) fun v r => okR (PcItem.acts v.1 v.2) r)))) fun a r => okR a (ows r)

/-- A process. -/
structure PcD where
  name : String
  idx : String
  map : Option (String × Ex)
  count : Ex
  lets : List (String × Ex)
  accs : List AccD
  items : List PcItem
  deriving DecidableEq

/-- The index of a process, src/prot-xfile.leg:166-174. -/
def pcIdxP (isPred : String → Bool) (k : ℕ) (s : List Char) : RRes (Option (String × Ex) × Ex) :=
  elseP
    (tokR (lit "<-" s) fun r =>
     tokR (lit "map" (ows r)) fun r =>
     tokR (ws r) fun r =>
     tokR (ident r) fun (x, r) =>
     tokR (lit "<" (ows r)) fun r =>
     thenP (parse noPred k (.sum true) (ows r)) fun a r =>
     tokR (lit ":" (ows r)) fun r =>
     thenP (parse isPred k (.sum false) (ows r)) fun b r => okR (some (x, b.1), a.1) r)
    (thenP (parse noPred k .dom s) fun a r => okR (none, innerEx a.1) r)

/-- `'let' WS let_name:ID DEFEQ let_val:Expr END_STMT WS?`, src/prot-xfile.leg:178-180. -/
def letP (k : ℕ) (s : List Char) : RRes (String × Ex) :=
  tokR (lit "let" s) fun r =>
  tokR (ws r) fun r =>
  tokR (ident r) fun (x, r) =>
  tokR (defeqP r) fun r =>
  thenP (parse noPred k .expr r) fun a r =>
  tokR (endP r) fun r => okR (x, a.1) (ows r)

/-- `ProcDecl`, src/prot-xfile.leg:164-208.  In the index, the predicates of the system are known; after
the index, those of the process, src/prot-xfile.leg:459-464.  The alternatives that report an error are
left out: the file is not accepted. -/
def procP (isPred : String → Bool) (k : ℕ) (s : List Char) : RRes PcD :=
  tokR (lit "process" s) fun r =>
  tokR (ws r) fun r =>
  tokR (ident r) fun (x, r) =>
  tokR (lit "[" r) fun r =>
  tokR (ident (ows r)) fun (y, r) =>
  thenP (pcIdxP isPred k (ows r)) fun i r =>
  tokR (lit "]" (ows r)) fun r =>
  tokR (lit "{" (ows r)) fun r =>
  thenP (repP (fun _ s => letP k s) k [] (ows r)) fun lets r =>
  thenP (repP (fun _ s => accDP k s) k [] r) fun accs r =>
  if accs = [] then some none else
  thenP (repP (pcItemP k) k [] r) fun items r =>
  tokR (lit "}" r) fun r => okR ⟨x, y, i.1, i.2, lets, accs, items⟩ r

/-! ### Files -/

/-- The parts of a file after the variables. -/
inductive TopItem where
  | pred (x : String) (e : Ex)
  | assume (e : Ex)
  | legit (m : Style × Scope) (e : Ex)
  | behav (b : Behav)
  | proc (d : PcD)
  deriving DecidableEq

/-- Whether a name is that of a predicate of the system that has been read: `sys->predicate_map`,
src/prot-xfile.leg:462-464. -/
def topPred (l : List TopItem) (x : String) : Bool :=
  l.any fun
    | .pred y _ => y == x
    | _ => false

/-- One part, src/prot-xfile.leg:30-38.  If none matches, the file is not accepted. -/
def topItemP (k : ℕ) (acc : List TopItem) (s : List Char) : RRes TopItem :=
  thenP
    (elseP (thenP (predP (topPred acc) k s) fun v r => okR (TopItem.pred v.1 v.2) r)
    (elseP (thenP (assumeStmtP (topPred acc) k s) fun v r => okR (TopItem.assume v.2) r)
    (elseP (thenP (legitStmtP (topPred acc) k s) fun v r => okR (TopItem.legit v.1 v.2) r)
    (elseP (tokR (behavP s) fun (b, r) => okR (TopItem.behav b) r)
      (thenP (procP (topPred acc) k s) fun v r => okR (TopItem.proc v) r))))) fun a r => okR a (ows r)

/-- A file. -/
structure FileD where
  consts : List ConstD
  vars : List VarD
  items : List TopItem
  deriving DecidableEq

/-- `(Protocol WS?)?`, src/prot-xfile.leg:25 and 42. -/
def protocolP (s : List Char) : List Char :=
  match (lit "protocol" s).bind fun r => (ws r).bind fun r => (ident r).bind fun v => endP v.2 with
  | some r => ows r
  | none => s

/-- `ProtoconFile`, src/prot-xfile.leg:23-40: `some none` if the file is not accepted. -/
def fileP (k : ℕ) (s : List Char) : Option (Option FileD) :=
  match
    thenP (repP (fun _ s => thenP (constP k s) fun v r => okR v (ows r)) k [] (protocolP (ows s))) fun cs r =>
    thenP (repP (fun _ s => thenP (varP k s) fun v r => okR v (ows r)) k [] r) fun vs r =>
    if vs = [] then some none else
    thenP (repP (topItemP k) k [] r) fun l r => okR (FileD.mk cs vs l) r with
  | none => none
  | some none => some none
  | some (some (f, r)) => if r = [] then some (some f) else some none

/-! ### Writing -/

/-- Texts with `sep` between them. -/
def sepBy (sep : List Char) : List (List Char) → List Char
  | [] => []
  | [a] => a
  | a :: b :: l => a ++ sep ++ sepBy sep (b :: l)

/-- The text of the value of a constant, `string_expression`, src/prot-xfile.cc:1112-1122. -/
def cvalText : CVal → List Char
  | .one e => exText e
  | .list l => "(".toList ++ sepBy ",".toList (l.map exText) ++ ")".toList

/-- `oput_protocon_constants`, src/prot-ofile.cc:10-19. -/
def constText (c : ConstD) : List Char :=
  "\n".toList ++ "constant".toList ++ " ".toList ++ c.name.toList ++ " := ".toList ++ cvalText c.val ++
    ";".toList

/-- The role of variables, src/prot-ofile.cc:379-382. -/
def roleText : Role → List Char
  | .direct => []
  | .shadow => "shadow".toList ++ " ".toList
  | .puppet => "puppet".toList ++ " ".toList

/-- Variables, src/prot-ofile.cc:376-387. -/
def varText (v : VarD) : List Char :=
  "\n".toList ++ roleText v.role ++ "variable".toList ++ " ".toList ++ v.name.toList ++ "[".toList ++
    exText v.count ++ "]".toList ++ " < ".toList ++ exText v.dom ++ ";".toList

/-- Predicates of the system, src/prot-ofile.cc:389-392. -/
def topPredText (p : String × Ex) : List Char :=
  "\n".toList ++ "predicate".toList ++ " ".toList ++ p.1.toList ++ " :=\n  ".toList ++ exText p.2 ++
    ";".toList

/-- `oput_protocon_pc_lets`, src/prot-ofile.cc:21-30. -/
def letText (p : String × Ex) : List Char :=
  "\n  ".toList ++ "let".toList ++ " ".toList ++ p.1.toList ++ " := ".toList ++ exText p.2 ++ ";".toList

/-- `oput_protocon_pc_predicates`, src/prot-ofile.cc:32-43. -/
def pcPredText (p : String × Ex) : List Char :=
  "\n  ".toList ++ "predicate".toList ++ " ".toList ++ p.1.toList ++ " := ".toList ++ exText p.2 ++
    ";".toList

/-- `string_of_access_type`, src/prot-ofile.cc:45-66, and the colon. -/
def accWord : AccessType → List Char
  | .read => "read:".toList
  | .write => "write:".toList
  | .yield => "yield:".toList
  | .effect => "effect:".toList
  | .randomRead => "random".toList ++ " ".toList ++ "read:".toList
  | .randomWrite => "random".toList ++ " ".toList ++ "write:".toList

/-- `oput_protocon_pc_vbl`, src/prot-ofile.cc:68-77. -/
def accText (t : AccessType) (x : String) (i : List Char) : List Char :=
  accWord t ++ " ".toList ++ x.toList ++ "[".toList ++ i ++ "];".toList

/-- An access in `PcSymmSpec::access`: type, name of the variable, `index_expression`. -/
abbrev AccM := AccessType × String × List Char

/-- `LinkSymmetry`, src/xnspec.hh:133-167 (`nvbls` is the number of `index_expressions`). -/
structure LinkM where
  nlinks : ℕ
  lets : List Char
  vals : List Char
  idxs : List (List Char)
  t : List ℕ

/-- The accesses and links of a process. -/
structure AccSt where
  accs : List AccM
  links : List LinkM

/-- The variable and index of a reference, src/prot-xfile.cc:221-233. -/
def refParts : Ex → Option (String × Ex)
  | .aref x i => some (x, i)
  | _ => none

/-- `add_access`, src/prot-xfile.cc:210-256 (without the evaluation); `lets` are the texts of
`scope_let_map`. -/
def addAccess (lets : String → Option (List Char)) (t : AccessType) (st : AccSt) (u : Ex) : Option AccSt :=
  (refParts u).map fun p => { st with accs := st.accs ++ [(t, p.1, strEx lets p.2)] }

/-- `add_symmetric_links`, src/prot-xfile.cc:258-309. -/
def linkTexts (names : List String) (vals : List (List Ex)) : List Char × List Char :=
  match names with
  | [x] => (x.toList, sepBy ", ".toList (vals.map fun v => match v with | [] => [] | e :: _ => exText e))
  | _ => ("(".toList ++ sepBy ", ".toList (names.map String.toList) ++ ")".toList,
      sepBy ", ".toList (vals.map fun v => "(".toList ++ sepBy ", ".toList (v.map exText) ++ ")".toList))

/-- The texts of `scope_let_map` for one tuple, src/prot-xfile.cc:322-333.  (The values are written
without the names; the program calls itself forever if a value contains its own name.  If a name occurs
twice, the last value counts.) -/
def scopeLets (names : List String) (vals : List Ex) (x : String) : Option (List Char) :=
  ((names.zip vals).reverse.find? fun p => p.1 == x).map fun p => exText p.2

/-- Adding to the link that was added last, `add_link_symmetry`, src/xnspec.hh:151-158. -/
def addLink (links : List LinkM) (ids : List ℕ) (i : List Char) : List LinkM :=
  match links.reverse with
  | [] => []
  | l :: ls => (({ l with idxs := l.idxs ++ [i], t := l.t ++ ids }) :: ls).reverse

/-- One reference of `add_symmetric_access`, src/prot-xfile.cc:319-352. -/
def addSymRef (names : List String) (vals : List (List Ex)) (t : AccessType) (st : AccSt) (u : Ex) :
    Option AccSt :=
  match vals.foldlM (fun st v => if names.length = v.length then addAccess (scopeLets names v) t st u else none)
      st with
  | none => none
  | some st' => (refParts u).map fun p =>
    { st' with links := addLink st'.links ((List.range vals.length).map (st.accs.length + ·)) (exText p.2) }

/-- The accesses that have been read, src/prot-xfile.cc:210-355. -/
def addAccD (st : AccSt) : AccD → Option AccSt
  | .one t refs => refs.foldlM (addAccess (fun _ => none) t) st
  | .sym names vals stmts =>
    let T := linkTexts names vals
    stmts.foldlM (fun st p => p.2.foldlM (addSymRef names vals p.1) st)
      { st with links := st.links ++ [⟨vals.length, T.1, T.2, [], []⟩] }

/-- The text of a link, src/prot-ofile.cc:86-98; `link_symmetry(v, 0)` is the number of an access. -/
def linkText (accs : List AccM) (l : LinkM) : Option (List Char) :=
  ((l.idxs.zipIdx).mapM fun p =>
    (l.t[p.2 * l.nlinks]?).bind fun e => (accs[e]?).map fun a => "\n    ".toList ++ accText a.1 a.2.1 p.1).map
  fun ts => "\n  ".toList ++ "symmetric".toList ++ " ".toList ++ l.lets ++ " <- ".toList ++ "{# ".toList ++
    l.vals ++ " #}".toList ++ "\n  {".toList ++ ts.flatten ++ "\n  }".toList

/-- The loop of `oput_protocon_pc_vbls`, src/prot-ofile.cc:79-108, from the access with number `i`. -/
def accsText (st : AccSt) : ℕ → ℕ → Option (List Char)
  | 0, _ => none
  | k + 1, i =>
    match st.accs[i]? with
    | none => some []
    | some a =>
      match st.links.find? fun l => l.t.contains i with
      | some l => (linkText st.accs l).bind fun t =>
          (accsText st k (i + l.nlinks * l.idxs.length - 1 + 1)).map (t ++ ·)
      | none => (accsText st k (i + 1)).map fun t => "\n  ".toList ++ accText a.1 a.2.1 a.2.2 ++ t

/-- `vbl_name(i)`: the text of the reference of an access. -/
def vblName (st : AccSt) (i : ℕ) : List Char :=
  match st.accs[i]? with
  | none => []
  | some a => a.2.1.toList ++ "[".toList ++ a.2.2 ++ "]".toList

/-- What is known about a kind of processes (with at least one member). -/
structure PcMem where
  name : String
  idx : String
  map : Option (String × Ex)
  count : Ex
  lets : List (String × Ex)
  accs : List AccD
  preds : List (String × Ex)
  assumes : List Ex
  legits : List Ex
  shadow : List ActTree
  permit : List ActTree
  forbid : List ActTree
  pc : PcSymm
  acts : List (List ℕ)

/-- What is known after a file has been read and actions have been chosen. -/
structure FileMem where
  consts : List ConstD
  vars : List VarD
  preds : List (String × Ex)
  assumes : List Ex
  mode : Style × Scope
  legits : List Ex
  behav : Behav
  pcs : List PcMem

/-- The index of a process, src/prot-ofile.cc:424-434. -/
def idxText (p : PcMem) : List Char :=
  p.idx.toList ++
  (match p.map with
   | some (x, e) => " <- ".toList ++ "map".toList ++ " ".toList ++ x.toList ++ " < ".toList ++
      exText p.count ++ " : ".toList ++ exText e
   | none => " < ".toList ++ exText p.count)

/-- A statement that is left out if its text is empty. -/
def optText (f : List Char → List Char) (t : List Char) : List Char := if t = [] then [] else f t

/-- The text of an assignment, `string_expression`, src/prot-xfile.cc:1036-1061 and 1088-1091. -/
def asgStr : Asg → List Char
  | .set v e => exText v ++ ":=".toList ++ exText e
  | .rand v => exText v ++ ":=".toList ++ "_".toList
  | .wildAll => "_".toList ++ ":=".toList ++ "_".toList
  | .wild => "_".toList

/-- The text of an action that has been read, `string_expression`, src/prot-xfile.cc:1067-1076. -/
def actStr (T : ActTree) : List Char :=
  exText T.guard ++ " ".toList ++ (if T.actto then "-=>".toList else "-->".toList) ++
    T.asgs.flatMap fun a => " ".toList ++ asgStr a ++ ";".toList

/-- A section with actions that have been read, src/prot-ofile.cc:213-233. -/
def sectText (w : String) (l : List ActTree) : List Char :=
  if l = [] then [] else
    "\n  ".toList ++ w.toList ++ ":".toList ++ (l.flatMap fun T => "\n    ( ".toList ++ actStr T ++ " )".toList) ++
      "\n    ;".toList

/-- A process, src/prot-ofile.cc:420-446.  (`pc_symm.conflicts` is always empty: nothing calls
`push_conflict_action`.) -/
def procText (m : Style × Scope) (p : PcMem) : Option (List Char) :=
  (p.accs.foldlM addAccD ⟨[], []⟩).bind fun st =>
  (accsText st (st.accs.length + 1) 0).bind fun ta =>
  (puppetText p.pc (vblName st) p.acts).map fun tp =>
    "\n".toList ++ "process".toList ++ " ".toList ++ p.name.toList ++ "[".toList ++ idxText p ++ "]".toList ++
    "\n{".toList ++ p.lets.flatMap letText ++ ta ++ p.preds.flatMap pcPredText ++
    optText pcAssumeText (p.assumes.foldl (joinAssume pcSep) []) ++
    optText (pcLegitText m.1 m.2) (p.legits.foldl (joinLegit pcSep) []) ++
    sectText "shadow" p.shadow ++ sectText "permit" p.permit ++ sectText "forbid" p.forbid ++ tp ++ "\n}\n".toList

/-- The comment, src/prot-ofile.cc:372-374. -/
def commentText : Option (List Char) → List Char
  | none => []
  | some c => "// ".toList ++ c

/-- `oput_protocon_file`, src/prot-ofile.cc:362-449, without espresso. -/
def fileText (comment : Option (List Char)) (f : FileMem) : Option (List Char) :=
  (f.pcs.mapM (procText f.mode)).map fun ps =>
    commentText comment ++ f.consts.flatMap constText ++ f.vars.flatMap varText ++
    f.preds.flatMap topPredText ++ optText globalAssumeText (f.assumes.foldl (joinAssume globalSep) []) ++
    optText (globalLegitText f.mode.1 f.mode.2) (f.legits.foldl (joinLegit globalSep) []) ++
    behavText f.behav ++ ps.flatten

end Verif.Model
