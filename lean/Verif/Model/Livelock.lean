import Verif.Model.Uni

/-!
Model of the livelock check for unidirectional rings, src/uni/livelock.cc:54-177.

A failing `Claim` and an access outside a table are the outer result `none`.  Values fit in a byte
(`domsz ≤ 255`, since a loop variable of type `PcState` has to reach `domsz`); arithmetic is
unbounded.
-/

namespace Verif.Model

/-- `ppgfun[id_of2(a, b, domsz)]`, src/uni/livelock.cc:73. -/
def ppgAt (ppg : List ℕ) (d a b : ℕ) : Option ℕ := (idOf2 a b d).bind fun i => ppg[i]?

/-- The loop over `j` at src/uni/livelock.cc:72-75: new values of the row given the value to the west
and the old values; the inner `none` is `return false`. -/
def fillRow (ppg : List ℕ) (d : ℕ) : ℕ → List ℕ → Option (Option (List ℕ))
  | _, [] => some (some [])
  | w, b :: l => (ppgAt ppg d w b).bind fun c =>
    if c = d then some none else (fillRow ppg d c l).map fun r => r.map (c :: ·)

/-- The loop over `i` at src/uni/livelock.cc:70-77, over the remaining entries of `col`. -/
def fillLoop (ppg : List ℕ) (d : ℕ) : List ℕ → List ℕ → Option (Option (List ℕ))
  | [], row => some (some row)
  | c :: cs, row => (fillRow ppg d c row.tail).bind fun r =>
    match r with
    | none => some none
    | some r => if (c :: r).getLast? ≠ some c then some none else fillLoop ppg d cs (c :: r)

/-- `fill_livelock_ck`, src/uni/livelock.cc:54-83; the inner result is the row, or `none` for
`return false`. -/
def fillLivelockCk (ppg : List ℕ) (d : ℕ) (top col : List ℕ) : Option (Option (List ℕ)) :=
  if top.head? ≠ none ∧ top.head? = col.head? ∧ top.head? = col.getLast? ∧
      top.head? = top.getLast? then
    (fillLoop ppg d col.tail top).map fun r => r.bind fun row => if row = top then some row else none
  else none

/-- Building the next column, src/uni/livelock.cc:104-110: `prev` is the entry above. -/
def fillCol (ppg : List ℕ) (d : ℕ) : ℕ → List ℕ → Option (Option (List ℕ))
  | _, [] => some (some [])
  | prev, a :: l => (ppgAt ppg d a prev).bind fun c =>
    if c = d then some none else (fillCol ppg d c l).map fun r => r.map (c :: ·)

/-- The loops over `j` and `i` at src/uni/livelock.cc:113-126, over the remaining pairs. -/
def tryFill (ppg : List ℕ) (d : ℕ) (bot col : List ℕ) :
    List (ℕ × ℕ) → Option (Option (List ℕ × List ℕ))
  | [] => some none
  | (j, i) :: l =>
    if bot[j]? = bot.getLast? ∧ col[i]? = col.getLast? then
      (fillLivelockCk ppg d (bot.drop j) (col.drop i)).bind fun r =>
        match r with
        | some row => some (some (row, col.drop i))
        | none => tryFill ppg d bot col l
    else tryFill ppg d bot col l

/-- The order of the pairs `(j, i)`, src/uni/livelock.cc:113,115. -/
def fillPairs (n : ℕ) : List (ℕ × ℕ) :=
  (List.range n).reverse.flatMap fun j => (List.range n).reverse.map fun i => (j, i)

/-- The result of the check: `Yes` with `ret_row` and `ret_col`, `May` or `Nil`. -/
inductive LkVerdict where
  | yes (row col : List ℕ)
  | may
  | nil
  deriving DecidableEq, Repr

/-- The loops over `diag_val` (src/uni/livelock.cc:101-139) and over `c` without the changes to
`ppgfun`: stop at `Yes`, remember `May` in `may_exist`. -/
def verdictLoop {α : Type} (f : α → Option LkVerdict) : List α → Bool → Option LkVerdict
  | [], may => some (if may then .may else .nil)
  | v :: l, may => (f v).bind fun r =>
    match r with
    | .yes row col => some (.yes row col)
    | .may => verdictLoop f l true
    | .nil => verdictLoop f l may

/-- `livelock_semick_rec`, src/uni/livelock.cc:85-141.  A value that gives no column is skipped, which
has the same effect as `Nil`. -/
def semickRec (ppg : List ℕ) (d limit : ℕ) : ℕ → List ℕ → List ℕ → Option LkVerdict
  | 0, _, _ => none
  | fuel + 1, oldBot, oldCol =>
    (oldBot.head?).bind fun b0 =>
      verdictLoop (fun diag =>
        (fillCol ppg d diag oldCol).bind fun r =>
          match r with
          | none => some .nil
          | some rest =>
            let col := diag :: rest
            let bot := oldBot ++ [col.getLastD 0]
            (tryFill ppg d bot col (fillPairs oldBot.length)).bind fun t =>
              match t with
              | some (row, c) => some (.yes row c)
              | none =>
                if oldBot.length = limit then some .may
                else semickRec ppg d limit fuel bot col)
        (List.range' b0 (d - b0)) false

/-- Removing one entry, src/uni/livelock.cc:169-172. -/
def removeEntry (d c : ℕ) (ppg : List ℕ) (p : ℕ × ℕ) : Option (List ℕ) :=
  (idOf2 p.1 p.2 d).bind fun i => (ppg[i]?).map fun v =>
    if p.1 = c ∨ p.2 = c ∨ v = c then ppg.set i d else ppg

/-- Removing value `c`, src/uni/livelock.cc:167-174. -/
def removeVal (d c : ℕ) (ppg : List ℕ) : Option (List ℕ) :=
  ((List.range' c (d - c)).flatMap fun a => (List.range' c (d - c)).map fun b => (a, b)).foldlM
    (removeEntry d c) ppg

/-- The loop over `c` of `livelock_semick`, src/uni/livelock.cc:155-175. -/
def semickLoop (d limit fuel : ℕ) : List ℕ → List ℕ → Bool → Option LkVerdict
  | [], _, may => some (if may then .may else .nil)
  | c :: l, ppg, may => (semickRec ppg d limit fuel [c] [c]).bind fun r =>
    match r with
    | .yes row col => some (.yes row col)
    | .may => (removeVal d c ppg).bind fun ppg => semickLoop d limit fuel l ppg true
    | .nil => (removeVal d c ppg).bind fun ppg => semickLoop d limit fuel l ppg may

/-- `livelock_semick`, src/uni/livelock.cc:145-177; the recursion is cut off at depth `fuel`. -/
def livelockSemick (fuel limit : ℕ) (ppg : List ℕ) (d : ℕ) : Option LkVerdict :=
  semickLoop d limit fuel (List.range d) ppg false

end Verif.Model
