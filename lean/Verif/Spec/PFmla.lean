import Verif.Model.PFmla

/-!
Specification for formulas: the value of a handle, memory without sharing and leaks, and the sets and
relations that formulas denote.
-/

namespace Verif.Spec
open Verif.Model

variable {ν M : Type} [DecidableEq ν]

/-- What a handle stands for: a constant, or a diagram in a context. -/
inductive FVal (M : Type) where
  | no | yes | may (k : ℕ) (m : M)
  deriving DecidableEq

/-- The value of a pointer; none for a freed object or one without diagram. -/
def pval (st : Store ν M) : Ptr → Option (FVal M)
  | .null => some .no
  | .base => some .yes
  | .obj p => (st.heap p).bind fun o => o.mdd.map fun m => .may o.ctx m

/-- The value of a handle. -/
def hval (st : Store ν M) (x : ν) : Option (FVal M) := pval st (st.vars x)

/-- Every handle owns its object, every object is owned. -/
structure Owned (st : Store ν M) : Prop where
  /-- No two handles share an object. -/
  inj : ∀ x y p, st.vars x = .obj p → st.vars y = .obj p → x = y
  /-- No handle points to a freed object. -/
  live : ∀ x p, st.vars x = .obj p → ∃ k m, st.heap p = some ⟨k, some m⟩
  /-- No object is lost. -/
  noLeak : ∀ p o, st.heap p = some o → ∃ x, st.vars x = .obj p
  fresh : ∀ p, st.brk ≤ p → st.heap p = none

/-- The operation succeeded, the handle `c` has the value `v`, all others are as before, and memory is in
order. -/
def Sets (st st' : Store ν M) (c : ν) (v : FVal M) : Prop :=
  Owned st' ∧ hval st' c = some v ∧ ∀ z, z ≠ c → hval st' z = hval st z

/-- Two values can be combined: unless one is a constant they belong to the same context. -/
def Compat : FVal M → FVal M → Prop
  | .may k _, .may k' _ => k = k'
  | _, _ => True

/-! ### The operations on values -/

/-- The constant. -/
def cval (b : Bool) : FVal M := if b then .yes else .no

/-- An operation with one operand. -/
def unV (k : Bool → Bool) (f : M → M) : FVal M → FVal M
  | .no => cval (k false)
  | .yes => cval (k true)
  | .may c m => .may c (f m)

/-- An operation with two operands, given its five branches. -/
def brV (aYes aNo : FVal M → FVal M) (bYes bNo : FVal M → FVal M) (f : M → M → M) : FVal M → FVal M → FVal M
  | .yes, b => aYes b
  | .no, b => aNo b
  | .may k m, .yes => bYes (.may k m)
  | .may k m, .no => bNo (.may k m)
  | .may k m, .may _ m' => .may k (f m m')

/-- The value of an operation with one operand. -/
def op1V (vt : Vt M) : Op1 → FVal M → FVal M
  | .iden => unV id fun m => vt.op2 .iden0 m m
  | .not => unV not fun m => vt.op2 .not0 m m
  | .smooth l sg => unV id (vt.smooth l sg)
  | .subst1 l b => unV id (vt.subst1 l b)
  | .pre => unV id vt.pre
  | .imgAsImg => unV id vt.imgAsImg
  | .img => unV id vt.img
  | .inverse => unV id vt.inverse
  | .asImg => unV id vt.asImg

/-- The value of an operation with two operands. -/
def op2V (vt : Vt M) : Op2 → FVal M → FVal M → FVal M
  | .and => brV (op1V vt .iden) (fun _ => .no) (op1V vt .iden) (fun _ => .no) (vt.op2 .and)
  | .or => brV (fun _ => .yes) (op1V vt .iden) (fun _ => .yes) (op1V vt .iden) (vt.op2 .or)
  | .nimp => brV (op1V vt .not) (fun _ => .no) (fun _ => .no) (op1V vt .iden) (vt.op2 .nimp)
  | .xnor => brV (op1V vt .iden) (op1V vt .not) (op1V vt .iden) (op1V vt .not) (vt.op2 .xnor)
  | .xor => brV (op1V vt .not) (op1V vt .iden) (op1V vt .not) (op1V vt .iden) (vt.op2 .xor)
  | .pre1 => fun a b => brV (fun a => op1V vt .pre a) (fun _ => .no) (fun _ => .yes) (fun _ => .no)
      (fun m m' => vt.pre1 m' m) b a
  | .pre2 l => fun a b => brV (fun a => op1V vt .pre a) (fun _ => .no) (op1V vt (.smooth l (-1))) (fun _ => .no)
      (fun m m' => vt.pre2 l m' m) b a
  | .img1 => fun a b => brV (fun a => op1V vt .img a) (fun _ => .no) (fun _ => .yes) (fun _ => .no)
      (fun m m' => vt.img1 m' m) b a
  | .img2 l => fun a b => brV (fun a => op1V vt .img a) (fun _ => .no) (op1V vt (.smooth l (-1))) (fun _ => .no)
      (fun m m' => vt.img2 l m' m) b a
  | .dotjoin => fun a b => brV (fun a => op1V vt .pre a) (fun _ => .no) (op1V vt .imgAsImg) (fun _ => .no)
      (fun m m' => vt.dotjoin m' m) b a

/-- What an assignment does to the values of the handles. -/
def valInstr (vt : Vt M) (ρ : ν → FVal M) : Instr ν → (ν → FVal M)
  | .const c b => Function.update ρ c (cval b)
  | .op1 op c x => Function.update ρ c (op1V vt op (ρ x))
  | .op2 op c x y => Function.update ρ c (op2V vt op (ρ x) (ρ y))

/-- All formulas that are not constants belong to the context `K`. -/
def OneCtx (K : ℕ) (ρ : ν → FVal M) : Prop := ∀ x k m, ρ x = .may k m → k = K

variable {n : ℕ} {dom : Fin n → ℕ}

/-- The assignments a value stands for. -/
def FVal.den : FVal (Mdd n dom) → Finset (Env n dom)
  | .no => ∅
  | .yes => Finset.univ
  | .may _ m => m

/-- The value stands for the relation `R` between the unprimed and the primed variables. -/
def IsRel (v : FVal (Mdd n dom)) (R : Set (FSt n dom × FSt n dom)) : Prop :=
  ∀ e : Env n dom, e ∈ v.den ↔ (e .pre, e .img) ∈ R

/-- The value stands for the set `P` of states. -/
def IsPred (v : FVal (Mdd n dom)) (P : Set (FSt n dom)) : Prop :=
  ∀ e : Env n dom, e ∈ v.den ↔ e .pre ∈ P

/-- The operations on sets with one operand. -/
def Bool1 : Op1 → Finset (Env n dom) → Finset (Env n dom) → Prop
  | .iden, A, C => C = A
  | .not, A, C => C = Aᶜ
  | _, _, _ => False

/-- The operations on sets with two operands. -/
def Bool2 : Op2 → Finset (Env n dom) → Finset (Env n dom) → Finset (Env n dom) → Prop
  | .and, A, B, C => C = A ∩ B
  | .or, A, B, C => C = A ∪ B
  | .nimp, A, B, C => C = A \ B
  | .xnor, A, B, C => ∀ e, e ∈ C ↔ (e ∈ A ↔ e ∈ B)
  | .xor, A, B, C => ∀ e, e ∈ C ↔ ¬ (e ∈ A ↔ e ∈ B)
  | _, _, _, _ => False

/-- The instruction uses constants and Boolean operations only. -/
def IsBool : Instr ν → Prop
  | .const _ _ => True
  | .op1 op _ _ => op = .iden ∨ op = .not
  | .op2 op _ _ _ => op = .and ∨ op = .or ∨ op = .nimp ∨ op = .xnor ∨ op = .xor

/-- One Boolean instruction on sets: `c` is set to the result, the others stay. -/
def SetStep (S S' : ν → Finset (Env n dom)) : Instr ν → Prop
  | .const c b => S' c = (if b then Finset.univ else ∅) ∧ ∀ z, z ≠ c → S' z = S z
  | .op1 op c x => Bool1 op (S x) (S' c) ∧ ∀ z, z ≠ c → S' z = S z
  | .op2 op c x y => Bool2 op (S x) (S y) (S' c) ∧ ∀ z, z ≠ c → S' z = S z

/-- A sequence of instructions on sets. -/
inductive SetRun : List (Instr ν) → (ν → Finset (Env n dom)) → (ν → Finset (Env n dom)) → Prop
  | nil {S} : SetRun [] S S
  | cons {i l S S1 S2} : SetStep S S1 i → SetRun l S1 S2 → SetRun (i :: l) S S2

/-- Lexicographic order of lists of equal length. -/
inductive LexLe : List ℕ → List ℕ → Prop
  | nil : LexLe [] []
  | lt {a b l m} : a < b → l.length = m.length → LexLe (a :: l) (b :: m)
  | eq {a l m} : LexLe l m → LexLe (a :: l) (a :: m)

/-- The values of the variables `l` in the unprimed state. -/
def valsOf (l : List (Fin n)) (s : FSt n dom) : List ℕ := l.map fun i => (s i).val

end Verif.Spec
