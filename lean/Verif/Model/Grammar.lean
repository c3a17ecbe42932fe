import Verif.Model.Eval

/-!
Model of the grammar of expressions in specification files, src/prot-xfile.leg, and of the function
that writes an expression into the output file, `ProtoconFile::string_expression`,
src/prot-xfile.cc:980-1136.

The grammar is a parsing expression grammar (generated by `leg`): alternatives are ordered, repetition
is greedy and never given back.  A text is a list of characters.  The result of matching a rule is
* `none`: the fuel (depth of the recursion) is used up,
* `some none`: the rule does not match,
* `some (some (a, rest))`: it matches, with value `a` (the `FinMeta` with its `sp` and `int_ck`).
The actions in braces run after the whole file has matched, in the order of the text; those of
abandoned alternatives do not run.  So the tree of a rule is built from the trees of its parts, and the
only state it depends on is the predicates known at that point of the file (`isPred`).
Numbers that do not fit into `uint` are not modelled.
-/

namespace Verif.Model

/-- A blank of `WHITE_SPACE`, src/prot-xfile.leg:709-710. -/
def isBlank (c : Char) : Bool := c == ' ' || c == '\t' || c == '\r' || c == '\n'

/-- `WS?`, src/prot-xfile.leg:707-712: blanks and comments `//` up to the end of their line.  A comment
without a newline is not one.  The flag is set inside a comment. -/
def owsGo : Bool → List Char → List Char
  | _, [] => []
  | true, c :: s => if c = '\n' then owsGo false s else owsGo true s
  | false, c :: s =>
    if isBlank c then owsGo false s
    else if c = '/' ∧ s.head? = some '/' ∧ '\n' ∈ s then owsGo true s
    else c :: s

/-- `WS?` -/
def ows (s : List Char) : List Char := owsGo false s

/-- `WS`, src/prot-xfile.leg:711-712: at least one blank or comment. -/
def ws (s : List Char) : Option (List Char) :=
  if ows s = s then none else some (ows s)

/-- A literal. -/
def litL : List Char → List Char → Option (List Char)
  | [], s => some s
  | _ :: _, [] => none
  | c :: w, d :: s => if c = d then litL w s else none

/-- A literal. -/
def lit (w : String) (s : List Char) : Option (List Char) := litL w.toList s

/-- The first of several literals that matches, with the value that goes with it. -/
def firstLit {α : Type} : List (String × α) → List Char → Option (α × List Char)
  | [], _ => none
  | (w, a) :: l, s =>
    match lit w s with
    | some r => some (a, r)
    | none => firstLit l s

/-- `[0-9A-Za-z_]`, src/prot-xfile.leg:701. -/
def idChar (c : Char) : Bool := c.isAlpha || c.isDigit || c == '_'

/-- `ID`, src/prot-xfile.leg:701-706. -/
def ident : List Char → Option (String × List Char)
  | [] => none
  | c :: s =>
    if c.isAlpha then some (String.ofList (c :: s.takeWhile idChar), s.dropWhile idChar) else none

/-- The result of matching a rule. -/
abbrev PRes := Option (Option ((Ex × Bool) × List Char))

/-- A match. -/
def okP (a : Ex × Bool) (r : List Char) : PRes := some (some (a, r))

/-- A sequence whose first part is a rule. -/
def bindP (x : PRes) (f : Ex × Bool → List Char → PRes) : PRes :=
  match x with
  | none => none
  | some none => some none
  | some (some (a, r)) => f a r

/-- An ordered choice. -/
def altP (x y : PRes) : PRes :=
  match x with
  | none => none
  | some none => y
  | some (some v) => some (some v)

/-- A sequence whose first part is a terminal. -/
def tok {α : Type} (o : Option α) (f : α → PRes) : PRes :=
  match o with
  | none => some none
  | some a => f a

/-- `NAT`, src/prot-xfile.leg:586-593. -/
def natP (s : List Char) : PRes :=
  if s.takeWhile Char.isDigit = [] then some none
  else okP (.num (Nat.ofDigitChars 10 (s.takeWhile Char.isDigit) 0), true) (s.dropWhile Char.isDigit)

/-- The last alternative of `Expr`, src/prot-xfile.leg:379-384: it records a failure (`bad_parse`) and
gives the tree `(error)`, which is not an identifier. -/
def badExpr (s : List Char) : PRes :=
  if s.takeWhile (fun c => !(c == ')' || c == '}' || c == ']' || c == ';')) = [] then some none
  else okP (.name "(error)", false) (s.dropWhile (fun c => !(c == ')' || c == '}' || c == ']' || c == ';')))

/-- The repetition `(WS? op WS? b:sub {…})*`; `i` is the value of `int_ck` after the action. -/
def chain (ops : List (String × (Ex → Ex → Ex))) (i : Bool) (sub : List Char → PRes) :
    ℕ → Ex × Bool → List Char → PRes
  | 0, _, _ => none
  | k + 1, a, s =>
    match firstLit ops (ows s) with
    | none => okP a s
    | some (f, r) =>
      match sub (ows r) with
      | none => none
      | some none => okP a s
      | some (some (b, r1)) => chain ops i sub k (f a.1 b.1, i) r1

/-- The operators of `Comparison`, src/prot-xfile.leg:444-449. -/
inductive CmpOp where
  | eq | ne | le | ge | lt | gt
  deriving DecidableEq, Repr

/-- In this order, src/prot-xfile.leg:444-449. -/
def cmpOps : List (String × CmpOp) :=
  [("==", .eq), ("!=", .ne), ("<=", .le), (">=", .ge), ("<", .lt), (">", .gt)]

/-- The tree of a comparison of integers. -/
def CmpOp.tree : CmpOp → Ex → Ex → Ex
  | .eq => .cmp false true false
  | .ne => .cmp true false true
  | .le => .cmp true true false
  | .ge => .cmp false true true
  | .lt => .cmp true false false
  | .gt => .cmp false false true

/-- `ccstr_of_Sesp` of a tree that is a name. -/
def nameOf : Ex → Option String
  | .name x => some x
  | _ => none

/-- Whether `==` and `!=` compare truth values, src/prot-xfile.leg:444-470: the left operand is a truth
value, or it is a name and either the right operand is a truth value or the name is a predicate. -/
def boolCmp (isPred : String → Bool) (a b : Ex × Bool) : Bool :=
  !a.2 || match nameOf a.1 with
    | none => false
    | some x => !b.2 || isPred x

/-- The action of `Comparison`, src/prot-xfile.leg:444-474. -/
def cmpTree (isPred : String → Bool) (o : CmpOp) (a b : Ex × Bool) : Ex :=
  if boolCmp isPred a b then
    match o with
    | .eq => .iff a.1 b.1
    | .ne => .xor a.1 b.1
    | _ => o.tree a.1 b.1
  else o.tree a.1 b.1

/-- The words of `Quantify`, src/prot-xfile.leg:400-403. -/
def quantWords : List (String × Quant) := [("forall", .all), ("exists", .ex), ("unique", .uniq)]

/-- The prefixes of `OptionalNeg` and `OptionalArithNeg` (for constants), src/prot-xfile.leg:508-517 and
330-333. -/
def negOps : Bool → List (String × (Ex → Ex))
  | false => [("-", .neg), ("!", .not)]
  | true => [("-", .neg)]

/-- The words of `IntFuncall` and `ConstIntFuncall`, src/prot-xfile.leg:536-538 and 353-355. -/
def callWords : List (String × IntOp) := [("max", .max), ("min", .min)]

/-- The rules.  The flag chooses the rules for constants (`ConstSum`, …). -/
inductive NT where
  | expr | quant | iif | biimp | impl | disj | conj | unit | comp | dom | vref
  | sum (c : Bool) | prod (c : Bool) | neg (c : Bool) | pow (c : Bool) | fcall (c : Bool)
  | value (c : Bool)
  deriving DecidableEq, Repr

/-- A rule of the form `a:hd (WS? op WS? b:tl {…})*`. -/
structure Chain where
  hd : NT
  tl : NT
  ops : List (String × (Ex → Ex → Ex))
  int : Bool

/-- `BiImplication`, `Implication`, `Disjunction`, `Conjunction`, `Sum`, `Product`, `Power`,
src/prot-xfile.leg:411-433, 481-506, 527-532, and the same for constants, 303-328, 344-349. -/
def chainOf : NT → Option Chain
  | .biimp => some ⟨.impl, .impl, [("<=>", .iff)], false⟩
  | .impl => some ⟨.disj, .disj, [("==>", .imp)], false⟩
  | .disj => some ⟨.conj, .conj, [("||", .or)], false⟩
  | .conj => some ⟨.unit, .unit, [("&&", .and)], false⟩
  | .sum c => some ⟨.prod c, .prod c, [("+", .arith .add), ("-", .arith .sub)], true⟩
  | .prod c => some ⟨.neg c, .neg c, [("*", .arith .mul), ("/", .arith .div), ("%", .arith .mod)], true⟩
  | .pow c => some ⟨.fcall c, .neg c, [("^", .arith .pow)], true⟩
  | _ => none

/-- The remaining rules, with the other rules as `p`. -/
def ruleP (isPred : String → Bool) (p : NT → List Char → PRes) (s : List Char) : NT → PRes
  -- src/prot-xfile.leg:375-385
  | .expr => altP (p .quant s) (altP (p .iif s) (altP (p .biimp s) (badExpr s)))
  -- src/prot-xfile.leg:398-409
  | .quant =>
    tok (firstLit quantWords s) fun (q, r) =>
    tok (ws r) fun r =>
    tok (ident r) fun (x, r) =>
    bindP (p .dom (ows r)) fun a r =>
    tok (lit ":" (ows r)) fun r =>
    bindP (p .expr (ows r)) fun d r =>
    okP (.quant q x a.1 d.1, false) r
  -- src/prot-xfile.leg:387-395; a failed `Claim` ends the program, which is the tree `(error)` here
  | .iif =>
    tok (lit "if" s) fun r =>
    tok (ws r) fun r =>
    bindP (p .expr r) fun a r =>
    tok (ws r) fun r =>
    tok (lit "then" r) fun r =>
    tok (ws r) fun r =>
    bindP (p .expr r) fun b r =>
    tok (ws r) fun r =>
    tok (lit "else" r) fun r =>
    tok (ws r) fun r =>
    bindP (p .expr r) fun c r =>
    okP (if b.2 && c.2 then .iif a.1 b.1 c.1 else .name "(error)", true) r
  -- src/prot-xfile.leg:435-438
  | .unit => altP (p .quant s) (p .comp s)
  -- src/prot-xfile.leg:440-477
  | .comp =>
    bindP (p (.sum false) s) fun a r =>
    altP
      (tok (firstLit cmpOps (ows r)) fun (o, r) =>
       bindP (p (.sum false) (ows r)) fun b r =>
       okP (cmpTree isPred o a b, false) r)
      (okP a r)
  -- src/prot-xfile.leg:568-584
  | .dom =>
    altP
      (tok (lit "<-" s) fun r =>
       tok (firstLit [("Int", ()), ("Nat", ())] (ows r)) fun (_, r) =>
       tok (lit "%" (ows r)) fun r =>
       bindP (p (.value true) (ows r)) fun a r =>
       okP (.natDom a.1, true) r)
      (tok (lit "<" s) fun r =>
       bindP (p (.sum true) (ows r)) fun a r =>
       okP (.natDom a.1, true) r)
  -- src/prot-xfile.leg:519-525 and 335-342
  | .neg c =>
    match firstLit (negOps c) s with
    | some (f, r) => bindP (p (.pow c) (ows r)) fun a r => okP (f a.1, a.2) r
    | none => p (.pow c) s
  -- src/prot-xfile.leg:534-545 and 351-362
  | .fcall c =>
    altP
      (tok (firstLit callWords s) fun (o, r) =>
       tok (lit "(" (ows r)) fun r =>
       bindP (p (.sum c) (ows r)) fun a r =>
       tok (lit "," (ows r)) fun r =>
       bindP (p (.sum c) (ows r)) fun b r =>
       tok (lit ")" (ows r)) fun r =>
       okP (.arith o a.1 b.1, true) r)
      (p (.value c) s)
  -- src/prot-xfile.leg:547-555
  | .value false =>
    altP (p .vref s) (altP (natP s)
      (tok (lit "(" s) fun r =>
       bindP (p .expr (ows r)) fun a r =>
       tok (lit ")" (ows r)) fun r =>
       okP (if a.2 then .castI a.1 else .castB a.1, a.2) r))
  -- src/prot-xfile.leg:364-372
  | .value true =>
    altP (natP s) (altP (tok (ident s) fun (x, r) => okP (.name x, true) r)
      (tok (lit "(" s) fun r =>
       bindP (p (.sum true) (ows r)) fun a r =>
       tok (lit ")" (ows r)) fun r =>
       okP (.castI a.1, a.2) r))
  -- src/prot-xfile.leg:557-566
  | .vref =>
    tok (ident s) fun (x, r) =>
    altP
      (tok (lit "[" r) fun r =>
       bindP (p .expr (ows r)) fun i r =>
       tok (lit "]" (ows r)) fun r =>
       okP (.aref x i.1, true) r)
      (okP (.name x, true) r)
  | _ => some none

/-- Matching a rule at the beginning of a text, src/prot-xfile.leg:300-593. -/
def parse (isPred : String → Bool) : ℕ → NT → List Char → PRes
  | 0, _, _ => none
  | k + 1, nt, s =>
    match chainOf nt with
    | some C => bindP (parse isPred k C.hd s) fun a r => chain C.ops C.int (parse isPred k C.tl) k a r
    | none => ruleP isPred (parse isPred k) s nt

/-- The key of a comparison. -/
def cmpText (lt eq gt : Bool) : String :=
  match lt, eq, gt with
  | true, false, false => "<"
  | true, true, false => "<="
  | true, false, true => "!="
  | false, true, false => "=="
  | false, true, true => ">="
  | false, false, true => ">"
  | _, _, _ => ""

/-- The key of an arithmetic operator. -/
def arithText : IntOp → String
  | .add => "+"
  | .sub => "-"
  | .mul => "*"
  | .div => "/"
  | .mod => "%"
  | .pow => "^"
  | .min => "min"
  | .max => "max"

/-- The key of a quantifier. -/
def quantText : Quant → String
  | .all => "forall"
  | .ex => "exists"
  | .uniq => "unique"

/-- `string_expression`, src/prot-xfile.cc:980-1136; `lets` gives for each name in `scope_let_map` the
text of its value, which the function obtains by calling itself. -/
def strEx (lets : String → Option (List Char)) : Ex → List Char
  | .name x => (lets x).getD x.toList
  | .num u => Nat.toDigits 10 u
  | .castB b => "(".toList ++ strEx lets b ++ ")".toList
  | .castI b => "(".toList ++ strEx lets b ++ ")".toList
  | .not b => "!".toList ++ strEx lets b
  | .neg b => "-".toList ++ strEx lets b
  | .and b c => strEx lets b ++ " && ".toList ++ strEx lets c
  | .or b c => strEx lets b ++ " || ".toList ++ strEx lets c
  | .imp b c => strEx lets b ++ " ==> ".toList ++ strEx lets c
  | .iff b c => strEx lets b ++ " <=> ".toList ++ strEx lets c
  | .xor b c => strEx lets b ++ "!=".toList ++ strEx lets c
  | .cmp l e g b c => strEx lets b ++ (cmpText l e g).toList ++ strEx lets c
  | .arith .min b c => "min(".toList ++ strEx lets b ++ ",".toList ++ strEx lets c ++ ")".toList
  | .arith .max b c => "max(".toList ++ strEx lets b ++ ",".toList ++ strEx lets c ++ ")".toList
  | .arith op b c => strEx lets b ++ (arithText op).toList ++ strEx lets c
  | .natDom b => "Nat % ".toList ++ strEx lets b
  | .aref a i => a.toList ++ "[".toList ++ strEx lets i ++ "]".toList
  | .iif b c d =>
    "if ".toList ++ strEx lets b ++ " then ".toList ++ strEx lets c ++ " else ".toList ++ strEx lets d
  | .quant q x (.natDom r) d =>
    (quantText q).toList ++ " ".toList ++ x.toList ++ " < ".toList ++ strEx lets r ++ " : ".toList ++
      strEx lets d
  | .quant q x _ d =>
    (quantText q).toList ++ " ".toList ++ x.toList ++ " < ".toList ++ " : ".toList ++ strEx lets d

/-- `parend_string_expression`, src/prot-xfile.cc:1138-1152. -/
def parendEx (lets : String → Option (List Char)) (e : Ex) : List Char :=
  match e with
  | .castB _ => strEx lets e
  | .castI _ => strEx lets e
  | _ => "(".toList ++ strEx lets e ++ ")".toList

/-- The text of an expression outside the scope of a `let`. -/
def exText (e : Ex) : List Char := strEx (fun _ => none) e

end Verif.Model
