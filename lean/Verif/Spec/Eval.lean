import Verif.Model.Eval

/-!
Specification of the expressions in specification files: what an expression means in one state.

`Sem env ρ e s r`: under the bindings `ρ` of the quantified variables the expression `e` has in the
state `s` the truth value or the numbers `r` (an expression like `NatDom 3` stands for several numbers).
Quantifiers bind their variable in their body only.  Connectives are evaluated from left to right
and ignore the second operand if the first one decides.
-/

namespace Verif.Spec
open Verif.Model

/-- Specification: `z` is the result of the operation on `x` and `y`.  Division rounds toward zero, the
remainder is not negative, exponents are not negative. -/
def OpVal : IntOp → ℤ → ℤ → ℤ → Prop
  | .add, x, y, z => z = x + y
  | .sub, x, y, z => z = x - y
  | .mul, x, y, z => z = x * y
  | .div, x, y, z => y ≠ 0 ∧ z = x.tdiv y
  | .mod, x, y, z => 0 < y ∧ 0 ≤ z ∧ z < y ∧ y ∣ x - z
  | .pow, x, y, z => 0 ≤ y ∧ z = x ^ y.toNat
  | .min, x, y, z => z = min x y
  | .max, x, y, z => z = max x y

/-- A truth value or a list of numbers. -/
inductive Res where
  | bool (b : Bool)
  | ints (l : List ℤ)
  deriving DecidableEq, Repr

/-- The truth value of a quantifier whose body has the values `bs 0`, ..., `bs (k-1)`. -/
def QuantVal (q : Quant) (k : ℕ) (bs : ℕ → Bool) (b : Bool) : Prop :=
  match q with
  | .all => b = true ↔ ∀ i < k, bs i = true
  | .ex => b = true ↔ ∃ i < k, bs i = true
  | .uniq => b = true ↔ ∃ i, (i < k ∧ bs i = true) ∧ ∀ j, j < k → bs j = true → j = i

/-- The predicate a name stands for. -/
def PredNamed {n : ℕ} {dom : Fin n → ℕ} (env : EvalEnv n dom) (x : String) (pf : Finset (FSt n dom)) : Prop :=
  (x = "true" ∧ pf = Finset.univ) ∨ (x = "false" ∧ pf = ∅) ∨
  (x ≠ "true" ∧ x ≠ "false" ∧ (env.preds x = some pf ∨
    (env.preds x = none ∧ ∃ pc, env.pc = some pc ∧ pc.preds x = some pf)))

/-- The number a name stands for: a quantified variable or process index, else a constant, else a number
defined in the process. -/
def IntNamed {n : ℕ} {dom : Fin n → ℕ} (env : EvalEnv n dom) (ρ : IMap) (x : String) (v : ℤ) : Prop :=
  ρ x = some v ∨ (ρ x = none ∧ ((∃ l, env.consts x = some (v :: l)) ∨
    (env.consts x = none ∧ ∃ pc, env.pc = some pc ∧ pc.lets x = some v)))

/-- Member of a list, the index taken modulo its length. -/
def Member {α : Type} (l : List α) (i : ℤ) (a : α) : Prop :=
  ∃ k : ℕ, l[k]? = some a ∧ (l.length : ℤ) ∣ i - k

/-- Meaning of expressions. -/
inductive Sem {n : ℕ} {dom : Fin n → ℕ} (env : EvalEnv n dom) : IMap → Ex → FSt n dom → Res → Prop
  | pname {ρ x s pf} : PredNamed env x pf → Sem env ρ (.name x) s (.bool (decide (s ∈ pf)))
  | castB {ρ e s b} : Sem env ρ e s (.bool b) → Sem env ρ (.castB e) s (.bool b)
  | castI {ρ e s r} : Sem env ρ e s r → Sem env ρ (.castI e) s r
  | not {ρ e s b} : Sem env ρ e s (.bool b) → Sem env ρ (.not e) s (.bool (!b))
  | and_false {ρ e1 e2 s} : Sem env ρ e1 s (.bool false) → Sem env ρ (.and e1 e2) s (.bool false)
  | and_true {ρ e1 e2 s b} : Sem env ρ e1 s (.bool true) → Sem env ρ e2 s (.bool b) →
      Sem env ρ (.and e1 e2) s (.bool b)
  | or_true {ρ e1 e2 s} : Sem env ρ e1 s (.bool true) → Sem env ρ (.or e1 e2) s (.bool true)
  | or_false {ρ e1 e2 s b} : Sem env ρ e1 s (.bool false) → Sem env ρ e2 s (.bool b) →
      Sem env ρ (.or e1 e2) s (.bool b)
  | imp_false {ρ e1 e2 s} : Sem env ρ e1 s (.bool false) → Sem env ρ (.imp e1 e2) s (.bool true)
  | imp_true {ρ e1 e2 s b} : Sem env ρ e1 s (.bool true) → Sem env ρ e2 s (.bool b) →
      Sem env ρ (.imp e1 e2) s (.bool b)
  | iff {ρ e1 e2 s b1 b2} : Sem env ρ e1 s (.bool b1) → Sem env ρ e2 s (.bool b2) →
      Sem env ρ (.iff e1 e2) s (.bool (b1 == b2))
  | xor {ρ e1 e2 s b1 b2} : Sem env ρ e1 s (.bool b1) → Sem env ρ e2 s (.bool b2) →
      Sem env ρ (.xor e1 e2) s (.bool (b1 != b2))
  | cmp {ρ lt eq gt e1 e2 s x y} : Sem env ρ e1 s (.ints [x]) → Sem env ρ e2 s (.ints [y]) →
      Sem env ρ (.cmp lt eq gt e1 e2) s
        (.bool (decide ((lt = true ∧ x < y) ∨ (eq = true ∧ x = y) ∨ (gt = true ∧ x > y))))
  | quant {ρ q x r d s l b} (bs : ℕ → Bool) : Sem env ρ r s (.ints l) →
      (∀ i (h : i < l.length), Sem env (Function.update ρ x (some l[i])) d s (.bool (bs i))) →
      QuantVal q l.length bs b → Sem env ρ (.quant q x r d) s (.bool b)
  | letname {ρ x s e r} : ρ x = none → env.lets x = some e → Sem env ρ e s (.ints r) → Sem env ρ (.name x) s (.ints r)
  | iname {ρ x s v} : (ρ x = none → env.lets x = none) → IntNamed env ρ x v → Sem env ρ (.name x) s (.ints [v])
  | num {ρ k s} : Sem env ρ (.num k) s (.ints [(k : ℤ)])
  | neg {ρ e s l} : Sem env ρ e s (.ints l) → Sem env ρ (.neg e) s (.ints (l.map fun x => -x))
  | arith {ρ op e1 e2 s l1 l2 l} : Sem env ρ e1 s (.ints l1) → Sem env ρ e2 s (.ints l2) →
      List.Forall₂ (fun p z => OpVal op p.1 p.2 z) (l1.flatMap fun x => l2.map fun y => (x, y)) l →
      Sem env ρ (.arith op e1 e2) s (.ints l)
  | natDom {ρ e s m} : Sem env ρ e s (.ints [m]) → 0 < m →
      Sem env ρ (.natDom e) s (.ints ((List.range m.toNat).map fun i : ℕ => (i : ℤ)))
  | iif_true {ρ e1 e2 e3 s l} : Sem env ρ e1 s (.bool true) → Sem env ρ e2 s (.ints l) →
      Sem env ρ (.iif e1 e2 e3) s (.ints l)
  | iif_false {ρ e1 e2 e3 s l} : Sem env ρ e1 s (.bool false) → Sem env ρ e3 s (.ints l) →
      Sem env ρ (.iif e1 e2 e3) s (.ints l)
  | aref_const {ρ a e s i l v} : env.consts a = some l → Sem env ρ e s (.ints [i]) → Member l i v →
      Sem env ρ (.aref a e) s (.ints [v])
  | aref_vbl {ρ a e s i l v} : env.consts a = none → env.vbls a = some l → Sem env ρ e s (.ints [i]) →
      Member l i v → Sem env ρ (.aref a e) s (.ints [((s v).val : ℤ)])

/-- No quantifier rebinds a name that is already bound: `D` is the set of bound names.  Names defined by
a `let` stand for their definition and are not bound by quantifiers either. -/
inductive Fresh {n : ℕ} {dom : Fin n → ℕ} (env : EvalEnv n dom) : Set String → Ex → Prop
  | name {D x} : (∀ e, env.lets x = some e → Fresh env D e) → Fresh env D (.name x)
  | num {D k} : Fresh env D (.num k)
  | castB {D e} : Fresh env D e → Fresh env D (.castB e)
  | castI {D e} : Fresh env D e → Fresh env D (.castI e)
  | not {D e} : Fresh env D e → Fresh env D (.not e)
  | and {D b c} : Fresh env D b → Fresh env D c → Fresh env D (.and b c)
  | or {D b c} : Fresh env D b → Fresh env D c → Fresh env D (.or b c)
  | imp {D b c} : Fresh env D b → Fresh env D c → Fresh env D (.imp b c)
  | iff {D b c} : Fresh env D b → Fresh env D c → Fresh env D (.iff b c)
  | xor {D b c} : Fresh env D b → Fresh env D c → Fresh env D (.xor b c)
  | cmp {D lt eq gt b c} : Fresh env D b → Fresh env D c → Fresh env D (.cmp lt eq gt b c)
  | quant {D q x r d} : x ∉ D → env.lets x = none → Fresh env D r → Fresh env (insert x D) d →
      Fresh env D (.quant q x r d)
  | neg {D e} : Fresh env D e → Fresh env D (.neg e)
  | arith {D op b c} : Fresh env D b → Fresh env D c → Fresh env D (.arith op b c)
  | natDom {D e} : Fresh env D e → Fresh env D (.natDom e)
  | iif {D b c d} : Fresh env D b → Fresh env D c → Fresh env D d → Fresh env D (.iif b c d)
  | aref {D a e} : Fresh env D e → Fresh env D (.aref a e)

end Verif.Spec
