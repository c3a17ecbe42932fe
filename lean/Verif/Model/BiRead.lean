import Verif.Model.Biring

/-!
Model of how sets are read and which answers the filter of bidirectional rings writes, src/biring.cc:818-841 and
1008-1055.

The input is the list of its lines.  `skipds_XFile (olay, 0)` skips white space.  What is written for a set is the list
of the answers that are written; the answers themselves are in Model/BiFilter and Model/BiOutput.
-/

namespace Verif.Model

/-- Results of `xget_BitTable`: `false`, the end of the program, or `true` with the table. -/
inductive BiRead where
  | stop
  | fail
  | set (s : Finset ℕ)
  deriving DecidableEq

/-- White space of the library cx. -/
def isWhite (c : Char) : Bool := c == ' ' || c == '\t' || c == '\x0b' || c == '\r' || c == '\n'

/-- The loop of `xget_BitTable`, src/biring.cc:826-839; `k` places are left. -/
def readBits (n : ℕ) : ℕ → List Char → Finset ℕ → BiRead
  | 0, _, s => .set s
  | k + 1, l, s =>
    let i := n - (k + 1)
    match l with
    | [] => if i = 0 then .stop else .fail
    | c :: l => readBits n k l (if c = '1' then insert i s else s)

/-- `xget_BitTable`, src/biring.cc:818-841, for a line. -/
def xgetBits (n : ℕ) (line : List Char) : BiRead := readBits n n (line.dropWhile isWhite) ∅

/-- The parts of `FilterOpt` that `filter_stdin` uses, src/biring.cc:20-35. -/
structure BiFilterOpt where
  echoBits : Bool
  countOnes : Bool
  subckKnown : Bool
  subckMatch : Bool
  ppgck : Bool
  echoSubsets : Bool
  xlate : Bool
  spec : Bool
  graphviz : Bool
  deriving DecidableEq, Repr

/-- Kinds of answers. -/
inductive BiAnswer where
  | bits | count | known | isMatch | ppg | subsets | invariant | spec | graphviz
  deriving DecidableEq, Repr

/-- The answers for one set, src/biring.cc:1015-1051. -/
def biAnswers (o : BiFilterOpt) : List BiAnswer :=
  (if o.echoBits then
    [.bits] ++ (if o.countOnes then [.count] else []) ++ (if o.subckKnown then [.known] else []) ++
      (if o.subckMatch then [.isMatch] else []) ++ (if o.ppgck then [.ppg] else []) ++
      (if o.echoSubsets then [.subsets] else [])
  else []) ++ (if o.xlate then [.invariant] else []) ++ (if o.spec then [.spec] else []) ++
    (if o.graphviz then [.graphviz] else [])

/-- The loop of `filter_stdin`, src/biring.cc:1014-1052: the sets with the answers for them, and whether the program
ended with an error. -/
def filterStdin (n : ℕ) (o : BiFilterOpt) : List (List Char) → List (Finset ℕ × List BiAnswer) × Bool
  | [] => ([], false)
  | line :: rest =>
    match xgetBits n line with
    | .stop => ([], false)
    | .fail => ([], true)
    | .set s => ((s, biAnswers o) :: (filterStdin n o rest).1, (filterStdin n o rest).2)

/-- How a table is written, `ofile << set`: a digit for each place. -/
def bitText (n : ℕ) (s : Finset ℕ) : List Char := (List.range n).map fun i => if i ∈ s then '1' else '0'

end Verif.Model
