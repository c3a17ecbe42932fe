import Verif.Model.Grammar
import Verif.Model.Stab

/-!
Model of assumptions and invariants in files: the rules `GlobalAssume`, `ProcAssume`, `LegitMode`,
`LegitStmt`, `GlobalLegitBehav`, src/prot-xfile.leg:150-161, 262-298, 596-690, the functions that take
them in, src/prot-xfile.cc:797-865 and 905-974, the functions that write them, src/prot-ofile.cc:275-362
and 394-412, and the option that sets the style, src/opt.cc:48-133.
-/

namespace Verif.Model

/-! ### Words -/

/-- `ANDPOS`, src/prot-xfile.leg:596. -/
def andPosP (s : List Char) : Option (List Char) := (lit "&" (ows s)).map ows

/-- `FUTURE`, src/prot-xfile.leg:598. -/
def futureT (s : List Char) : Option (List Char) :=
  (firstLit [("future", ()), ("eventually", ()), ("<>", ())] s).map Prod.snd

/-- `PUPPET`, src/prot-xfile.leg:600. -/
def puppetT (s : List Char) : Option (List Char) :=
  (firstLit [("puppet", ()), ("superposed", ())] s).map Prod.snd

/-- `CLOSED`, `SILENT`, `SHADOW` and `ACTIVE_SHADOW`, src/prot-xfile.leg:599-607. -/
def styleT : Style → List Char → Option (List Char)
  | .closed => lit "closed"
  | .silent => lit "silent"
  | .shadow => lit "shadow"
  | .activeShadow => fun s => ((lit "active" s).bind ws).bind (lit "shadow")

/-- `a ANDPOS b | b ANDPOS a`, src/prot-xfile.leg:610-628 and 648-667. -/
def bothP (a b : List Char → Option (List Char)) (s : List Char) : Option (List Char) :=
  match ((a s).bind andPosP).bind b with
  | some r => some r
  | none => ((b s).bind andPosP).bind a

/-- `FUTURE_SILENT`, `FUTURE_SHADOW`, `FUTURE_ACTIVE_SHADOW`, src/prot-xfile.leg:676-688. -/
def futureStyleT (y : Style) (s : List Char) : Option (List Char) := ((futureT s).bind ws).bind (styleT y)

/-- `'(' WS? a WS? ')' WS? MOD_PUPPET`, src/prot-xfile.leg:630-646. -/
def modPuppetP (a : List Char → Option (List Char)) (s : List Char) : Option (List Char) :=
  (lit "(" s).bind fun r => (a (ows r)).bind fun r => (lit ")" (ows r)).bind fun r =>
    (lit "%" (ows r)).bind fun r => puppetT (ows r)

/-- The alternatives of `LegitMode` in their order, src/prot-xfile.leg:268-281. -/
def legitModes : List ((Style × Scope) × (List Char → Option (List Char))) :=
  [((.silent, .direct), bothP futureT (styleT .silent)),
   ((.shadow, .direct), bothP futureT (styleT .shadow)),
   ((.closed, .direct), bothP futureT (styleT .closed)),
   ((.activeShadow, .direct), bothP futureT (styleT .activeShadow)),
   ((.silent, .shadow), modPuppetP (bothP futureT (styleT .silent))),
   ((.shadow, .shadow), modPuppetP (bothP futureT (styleT .shadow))),
   ((.activeShadow, .shadow), modPuppetP (bothP futureT (styleT .activeShadow))),
   ((.silent, .future), bothP futureT (futureStyleT .silent)),
   ((.shadow, .future), bothP futureT (futureStyleT .shadow)),
   ((.activeShadow, .future), bothP futureT (futureStyleT .activeShadow)),
   ((.silent, .future), bothP futureT (styleT .silent))]

/-- The first alternative that matches. -/
def firstAlt {α : Type} : List (α × (List Char → Option (List Char))) → List Char → Option (α × List Char)
  | [], _ => none
  | (a, p) :: l, s =>
    match p s with
    | some r => some (a, r)
    | none => firstAlt l s

/-- `LegitMode`, src/prot-xfile.leg:267-281. -/
def legitModeP (s : List Char) : Option ((Style × Scope) × List Char) := firstAlt legitModes s

/-- `ASSUME_AND_CLOSED`, src/prot-xfile.leg:610-613. -/
def assumeT (s : List Char) : Option (Unit × List Char) :=
  (bothP (lit "assume") (lit "closed") s).map fun r => ((), r)

/-- `'(' WS? h WS? ')' WS? '(' WS? a:Expr WS? ')' END_STMT`: `LegitStmt`, `GlobalAssume` and
`ProcAssume`, src/prot-xfile.leg:152-156, 262-266, 284-288. -/
def headedP {α : Type} (isPred : String → Bool) (h : List Char → Option (α × List Char)) (k : ℕ)
    (s : List Char) : Option (Option ((α × Ex) × List Char)) :=
  match (lit "(" s).bind fun r => h (ows r) with
  | none => some none
  | some (a, r) =>
    match (lit ")" (ows r)).bind fun r => lit "(" (ows r) with
    | none => some none
    | some r =>
      match parse isPred k .expr (ows r) with
      | none => none
      | some none => some none
      | some (some (e, r)) =>
        match (lit ")" (ows r)).bind fun r => lit ";" (ows r) with
        | none => some none
        | some r => some (some ((a, e.1), r))

/-- `LegitStmt`. -/
def legitStmtP (isPred : String → Bool) := headedP isPred legitModeP

/-- `GlobalAssume`, `ProcAssume`. -/
def assumeStmtP (isPred : String → Bool) := headedP isPred assumeT

/-- `GlobalLegitBehav`, src/prot-xfile.leg:293-298. -/
def behavP (s : List Char) : Option (Behav × List Char) :=
  (firstAlt [(Behav.silent, futureStyleT .silent), (.activeShadow, futureStyleT .activeShadow)] s).bind
    fun (b, r) => (lit ";" (ows r)).map fun r => (b, r)

/-! ### Writing -/

/-- The word of a style, src/prot-ofile.cc:310-325. -/
def styleWord : Style → List Char
  | .closed => "closed".toList
  | .silent => "silent".toList
  | .shadow => "shadow".toList
  | .activeShadow => "active shadow".toList

/-- `string_of_invariant_style`, src/prot-ofile.cc:286-328. -/
def styleText (y : Style) : Scope → List Char
  | .direct => "(future & ".toList ++ styleWord y ++ ")".toList
  | .shadow => "((future & ".toList ++ styleWord y ++ ") % puppet)".toList
  | .future => "(future & future ".toList ++ styleWord y ++ ")".toList

/-- The invariant of the system, src/prot-ofile.cc:398-404 (left out if the text is empty). -/
def globalLegitText (y : Style) (c : Scope) (t : List Char) : List Char :=
  "\n".toList ++ styleText y c ++ "\n  (".toList ++ t ++ ")\n  ;".toList

/-- The invariant of a process, src/prot-ofile.cc:349-362 (left out if the text is empty). -/
def pcLegitText (y : Style) (c : Scope) (t : List Char) : List Char :=
  "\n  ".toList ++ styleText y c ++ "\n    (".toList ++ t ++ ");".toList

/-- The assumption of the system, src/prot-ofile.cc:394-396 (left out if the text is empty). -/
def globalAssumeText (t : List Char) : List Char :=
  "\n(assume & closed)\n  (".toList ++ t ++ ")\n  ;".toList

/-- The assumption of a process, src/prot-ofile.cc:275-283 (left out if the text is empty). -/
def pcAssumeText (t : List Char) : List Char :=
  "\n  (assume & closed)\n    (".toList ++ t ++ ");".toList

/-- `string_of_invariant_behav` and what is written, src/prot-ofile.cc:330-345 and 406-409. -/
def behavText : Behav → List Char
  | .silent => "\nfuture silent;".toList
  | .activeShadow => "\nfuture active shadow;".toList
  | .shadow => []

/-! ### Collecting -/

/-- Between two expressions of the system, src/prot-xfile.cc:917 and 962. -/
def globalSep : List Char := "\n  &&\n  ".toList

/-- Between two expressions of a process, src/prot-xfile.cc:808 and 846. -/
def pcSep : List Char := " && ".toList

/-- The text of the assumptions so far and one more: `add_assume`, `add_pc_assume`,
src/prot-xfile.cc:797-812 and 905-921. -/
def joinAssume (sep t : List Char) (e : Ex) : List Char :=
  (if t = [] then [] else t ++ sep) ++ parendEx (fun _ => none) e

/-- The text of the invariants so far and one more: `add_legit`, `add_pc_legit`,
src/prot-xfile.cc:832-850 and 951-966. -/
def joinLegit (sep t : List Char) (e : Ex) : List Char :=
  (if t = [] then [] else "(".toList ++ t ++ ")".toList ++ sep) ++ exText e

variable {n : ℕ} {dom : Fin n → ℕ}

/-- The text of the assumptions or invariants and the sets of states: of the system, and of each process
of the kind. -/
structure CollSt (n : ℕ) (dom : Fin n → ℕ) where
  text : List Char
  all : Finset (FSt n dom)
  membs : List (Finset (FSt n dom))

/-- `add_assume`, `add_legit` (one context, no processes) and `add_pc_assume`, `add_pc_legit` (one context
per process), src/prot-xfile.cc:797-865 and 905-974.  A context is what `within_process` sets up for the
evaluation: the variables that can be read and the index.  If the evaluation fails, the file is not
accepted. -/
def collect (join : List Char → Ex → List Char) (ctx : List (EvalEnv n dom × IMap)) (k : ℕ)
    (st : CollSt n dom) (e : Ex) : Option (CollSt n dom) :=
  match ctx.mapM fun c => (evalP c.1 k c.2 e).map Prod.fst with
  | none => none
  | some l => some ⟨join st.text e, l.foldl (· ∩ ·) st.all, List.zipWith (· ∩ ·) st.membs l⟩

/-- One after the other. -/
def collectAll (join : List Char → Ex → List Char) (ctx : List (EvalEnv n dom × IMap)) (k : ℕ) :
    List Ex → CollSt n dom → Option (CollSt n dom)
  | [], st => some st
  | e :: l, st =>
    match collect join ctx k st e with
    | none => none
    | some st => collectAll join ctx k l st

/-- `assign_legit_mode`, src/prot-xfile.cc:934-948: the mode so far (if assigned) and one more. -/
def assignMode (m : Option (Style × Scope)) (x : Style × Scope) : Option (Option (Style × Scope)) :=
  match m with
  | none => some (some x)
  | some y => if y = x then some (some x) else none

/-! ### The option -/

/-- `eqck_skipws`, src/opt.cc:48-74. -/
def eqSkip : List Char → List Char → Bool
  | [], [] => true
  | ' ' :: a, b => eqSkip a b
  | a, ' ' :: b => eqSkip a b
  | c :: a, d :: b => c == d && eqSkip a b
  | [], _ :: _ => false
  | _ :: _, [] => false
termination_by a b => a.length + b.length

/-- What an option sets. -/
inductive StyleOpt where
  | mode (y : Style) (c : Scope)
  | behav (b : Behav)
  deriving DecidableEq

/-- The texts of `parse_style` in their order, src/opt.cc:82-129. -/
def styleOpts : List (String × StyleOpt) :=
  [("(future & closed)", .mode .closed .direct),
   ("(future & silent)", .mode .silent .direct),
   ("(future & shadow)", .mode .shadow .direct),
   ("(future & active shadow)", .mode .activeShadow .direct),
   ("((future & closed) % puppet)", .mode .closed .shadow),
   ("((future & silent) % puppet)", .mode .silent .shadow),
   ("((future & shadow) % puppet)", .mode .shadow .shadow),
   ("(future & silent)", .mode .shadow .future),
   ("(future & future shadow)", .mode .shadow .future),
   ("future silent", .behav .silent),
   ("future shadow", .behav .shadow),
   ("future active shadow", .behav .activeShadow)]

/-- `parse_style`, src/opt.cc:77-133. -/
def parseStyle (arg : List Char) : Option StyleOpt :=
  (styleOpts.find? fun p => eqSkip arg p.1.toList).map Prod.snd

end Verif.Model
