import Verif.Model.Loop
import Verif.Model.Uni

/-!
Model of the base-64 notation of propagation functions, src/uni/unifile.cc:161-230.

`BitTable` belongs to a library that is not in the checkout.  `bt.set(i, n, x)` writes the `n` low
bits of `x` to the positions `i..i+n-1` and `bt.get(i, n)` reads them; the parameter `msb` says
whether the most significant bit comes first, and the parameter `strict` whether a write beyond the end
is an error (result `none`) or drops the bits beyond the end.  `lg_luint(d)` is the position of the
highest one bit.  Splitting the input into tokens is not modelled.
-/

namespace Verif.Model

/-- The `n` low bits of `x`, lowest first. -/
def natBits : ℕ → ℕ → List Bool
  | 0, _ => []
  | n + 1, x => (x % 2 == 1) :: natBits n (x / 2)

/-- The number with the given bits, lowest first. -/
def ofBits : List Bool → ℕ
  | [] => 0
  | b :: l => b.toNat + 2 * ofBits l

/-- `bt.set(i, n, x)`, used at src/uni/unifile.cc:175,221. -/
def btSet (msb strict : Bool) (bt : List Bool) (i n x : ℕ) : Option (List Bool) :=
  let bs := if msb then (natBits n x).reverse else natBits n x
  if strict ∧ bt.length < i + n then none
  else some ((List.range bt.length).map fun k =>
    if i ≤ k ∧ k < i + n then bs.getD (k - i) false else bt.getD k false)

/-- `bt.get(i, n)`, used at src/uni/unifile.cc:179,226; reading beyond the end is the result `none`. -/
def btGet (msb : Bool) (bt : List Bool) (i n : ℕ) : Option ℕ :=
  if i + n ≤ bt.length then
    let bs := (List.range n).map fun k => bt.getD (i + k) false
    some (ofBits (if msb then bs.reverse else bs))
  else none

/-- `1+lg_luint(domsz)`, src/uni/unifile.cc:167. -/
def elgsz (domsz : ℕ) : ℕ := 1 + Nat.log2 domsz

/-- The character for `w`, src/uni/unifile.cc:180-184. -/
def b64Char (w : ℕ) : Char :=
  if w < 26 then Char.ofNat ('A'.toNat + w)
  else if w < 52 then Char.ofNat ('a'.toNat + (w - 26))
  else if w < 62 then Char.ofNat ('0'.toNat + (w - 52))
  else if w < 63 then '-' else '_'

/-- The number for a character, src/uni/unifile.cc:210-216; 64 for a wrong one. -/
def b64Val (c : Char) : ℕ :=
  if 'A'.toNat ≤ c.toNat ∧ c.toNat ≤ 'Z'.toNat then c.toNat - 'A'.toNat
  else if 'a'.toNat ≤ c.toNat ∧ c.toNat ≤ 'z'.toNat then c.toNat - 'a'.toNat + 26
  else if '0'.toNat ≤ c.toNat ∧ c.toNat ≤ '9'.toNat then c.toNat - '0'.toNat + 52
  else if c = '-' then 62
  else if c = '_' then 63
  else 64

/-- The loop at src/uni/unifile.cc:172-176, over the remaining entries, the first being entry `i`. -/
def b64Fill (msb strict : Bool) (domsz : ℕ) : ℕ → List ℕ → List Bool → Option (List Bool)
  | _, [], bt => some bt
  | i, c :: l, bt =>
    if c < domsz then
      (btSet msb strict bt (i * elgsz domsz) (elgsz domsz) c).bind (b64Fill msb strict domsz (i + 1) l)
    else b64Fill msb strict domsz (i + 1) l bt

/-- `oput_b64_ppgfun`, src/uni/unifile.cc:161-188. -/
def oputB64 (msb strict : Bool) (ppgfun : List ℕ) (domsz : ℕ) : Option (List Char) :=
  let domsz := if domsz = 0 then domszOfPpg ppgfun.length else domsz
  if domsz = 0 then none
  else
    let btsz := domsz * domsz * elgsz domsz
    (b64Fill msb strict domsz 0 ppgfun (List.replicate (btsz + 5) true)).bind fun bt =>
      (List.range ((btsz + 5) / 6)).mapM fun j => (btGet msb bt (6 * j) 6).map b64Char

/-- The loop that finds the domain size, src/uni/unifile.cc:196-201. -/
def b64DomszBody (n domsz : ℕ) : ℕ ⊕ ℕ :=
  if domsz * domsz * elgsz domsz + 5 < 6 * n then .inr (domsz + 1) else .inl domsz

/-- The loop over the characters, src/uni/unifile.cc:208-222; the inner `none` is `return 0`. -/
def b64Load (msb strict : Bool) : ℕ → List Char → List Bool → Option (Option (List Bool))
  | _, [], bt => some (some bt)
  | i, c :: l, bt =>
    if 64 ≤ b64Val c then some none
    else (btSet msb strict bt (6 * i) 6 (b64Val c)).bind (b64Load msb strict (i + 1) l)

/-- `xget_b64_ppgfun`, src/uni/unifile.cc:190-230, for the token `s`: the value returned and the
resulting `ppgfun`.  `fuel` bounds the loop that finds the domain size. -/
def xgetB64 (msb strict : Bool) (fuel : ℕ) (s : List Char) (ppgfun : List ℕ) : Option (ℕ × List ℕ) :=
  (loopFuel (b64DomszBody s.length) fuel 1).bind fun domsz =>
    if (domsz * domsz * elgsz domsz + 5) / 6 ≠ s.length then some (0, ppgfun)
    else
      (b64Load msb strict 0 s (List.replicate (domsz * domsz * elgsz domsz) false)).bind fun r =>
        match r with
        | none => some (0, ppgfun)
        | some bt =>
          ((List.range (domsz * domsz)).mapM fun i =>
            (btGet msb bt (elgsz domsz * i) (elgsz domsz)).map fun c =>
              toByte (if toByte c < domsz then toByte c else domsz)).map fun tab => (toByte domsz, tab)

end Verif.Model
