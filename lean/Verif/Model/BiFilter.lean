import Verif.Model.BiSearch

/-!
Model of the filters of invariants of bidirectional rings, src/biring.cc:437-476, 843-1006.

Sets are as in Model/Biring.  Setting a bit outside of a table and reading behind the end of a string are `none`.
-/

namespace Verif.Model

/-- `ck_pc_config`, src/biring.cc:130-140. -/
def biCk (d : ℕ) (set : Finset ℕ) (a b c : ℕ) : Bool := decide (enumIdxOfPcConfig (a, b, c) d ∈ set)

/-- `subck_match`, src/biring.cc:843-881. -/
def subckMatch (d : ℕ) (set : Finset ℕ) : Bool :=
  (List.range d).any fun a => (List.range d).any fun b =>
    biCk d set a b a && biCk d set b a b && (decide (a = b) || (List.range d).any fun c =>
      !decide (c = a) && biCk d set b a c && (List.range d).any fun e =>
        !decide (e = a) && biCk d set a c e && biCk d set c e a && biCk d set e a b && biCk d set e a c)

/-- `matching_set` made from a table of configurations, src/biring.cc:891-896, 912-917, 936-941. -/
def patternSet (d : ℕ) (l : List (ℕ × ℕ × ℕ)) : Option (Finset ℕ) :=
  l.foldlM (fun s c => if enumIdxOfPcConfig c d < d * d * d then some (insert (enumIdxOfPcConfig c d) s) else none) ∅

/-- The rest of `subck_2match`, `subck_3match` and `subck_next7`, src/biring.cc:898, 919, 943. -/
def subckPattern (d : ℕ) (l : List (ℕ × ℕ × ℕ)) (set : Finset ℕ) : Option Bool :=
  (patternSet d l).bind fun p => subgraphIsomorphismCk (biBits d p) (biBits d set) d

/-- The table of `subck_2match`, src/biring.cc:885-890. -/
def match2 : List (ℕ × ℕ × ℕ) := [(0, 0, 1), (1, 0, 1), (0, 1, 0), (1, 0, 0)]

/-- The table of `subck_3match`, src/biring.cc:905-911. -/
def match3 : List (ℕ × ℕ × ℕ) := [(0, 1, 0), (0, 1, 2), (1, 0, 1), (1, 2, 0), (2, 0, 1)]

/-- The table of `subck_next7`, src/biring.cc:926-934. -/
def next7 : List (ℕ × ℕ × ℕ) := [(0, 0, 1), (0, 1, 0), (0, 1, 2), (1, 0, 0), (1, 2, 1), (2, 1, 0), (2, 1, 2)]

/-- The strings of `subck_next10`, src/biring.cc:950-966. -/
def next10 : List String := ["010100110101000001000011100", "010101101100000100101000010", "010101111100000001100010000",
  "011100011101000000100001100", "011101000100000101001010010", "011101011100000001100010000", "010101101101000100100110000",
  "010101111101000100100010000", "011101011101000100100010000", "011100011101000100110010000", "010111110011100011100010000",
  "011111010010101101100010000", "010111101011100011101001010", "011110011010101101100001110"]

/-- `matching_set` made from a string, src/biring.cc:970-975; behind the characters of the string is a zero byte. -/
def stringSet (d : ℕ) (s : List Char) : Option (Finset ℕ) :=
  (List.range (d * d * d)).foldlM (fun acc i => ((s ++ [Char.ofNat 0])[i]?).map fun ch =>
    if ch = '1' then insert i acc else acc) ∅

/-- The loop of `subck_next10`, src/biring.cc:969-978. -/
def next10Loop (d : ℕ) (set : Finset ℕ) : List String → Option Bool
  | [] => some false
  | s :: l => (stringSet d s.toList).bind fun p => (subgraphIsomorphismCk (biBits d p) (biBits d set) d).bind fun b =>
    if b then some true else next10Loop d set l

/-- `subck_next10`, src/biring.cc:948-981. -/
def subckNext10 (d : ℕ) (set : Finset ℕ) : Option Bool := next10Loop d set next10

/-- The loop of `local_propagation_syn` over the values of a process, src/biring.cc:454-469. -/
def lpValues (d : ℕ) (set : Finset ℕ) (a c : ℕ) : List ℕ → Option Bool
  | [] => some false
  | v :: l =>
    let idx := enumIdxOfPcConfig (a, v, c) d
    if idx ∈ set then some true
    else (biLegit d (insert idx set) idx).bind fun b => if b then lpValues d set a c l else some true

/-- The loop of `local_propagation_syn` over the configurations, src/biring.cc:446-470. -/
def lpLoop (d : ℕ) (set : Finset ℕ) : List ℕ → Option Bool
  | [] => some true
  | i :: l =>
    if i ∈ set then lpLoop d set l
    else
      let config := pcConfigOfEnumIdx i d
      (lpValues d set config.1 config.2.2 (List.range d)).bind fun b => if b then lpLoop d set l else some false

/-- `local_propagation_syn`, src/biring.cc:437-476. -/
def localPropagationSyn (d : ℕ) (set : Finset ℕ) : Option Bool := lpLoop d set (List.range (d * d * d))

/-- A round of `echo_subsets`, src/biring.cc:992-1004; the table `db` is the list of what is written. -/
def echoRound (gt : List Bool → List Bool → Bool) (d minsz : ℕ) (set : Finset ℕ) (out : List (List Bool)) (idx : ℕ) :
    Option (List (List Bool)) :=
  (biFix d (set.erase idx)).bind fun s => (biSat d s minsz).bind fun b =>
    if b then (canonicalSet gt (biBits d s) d).map fun c => if c ∈ out then out else out ++ [c] else some out

/-- `echo_subsets`, src/biring.cc:983-1006. -/
def echoSubsets (gt : List Bool → List Bool → Bool) (d minsz : ℕ) (set : Finset ℕ) : Option (List (List Bool)) :=
  (biList d set).foldlM (echoRound gt d minsz set) []

end Verif.Model
