import Verif.Proofs.Grammar
import Verif.Spec.Grammar

/-!
The shape of the trees that the grammar gives.
-/

namespace Verif.Proofs

open Verif.Model Verif.Spec

variable {isPred : String → Bool}

/-- The expression ends with the body of a quantifier, which extends as far as possible. -/
def openR : Ex → Bool
  | .quant _ _ _ _ => true
  | .and _ c => openR c
  | .or _ c => openR c
  | .imp _ c => openR c
  | .iff _ c => openR c
  | _ => false

/-- A power. -/
def isPow : Ex → Bool
  | .arith .pow _ _ => true
  | _ => false

/-- The rule of powers. -/
def powNT : NT → Bool
  | .pow _ => true
  | _ => false

/-- A left operand is not an open quantifier; the base of a power is not a power. -/
def endOk (nt : NT) (a : Ex) : Bool := !openR a && !(powNT nt && isPow a)

/-- Identifiers. -/
def isId (x : String) : Prop := ∃ c t, x.toList = c :: t ∧ c.isAlpha = true ∧ ∀ d ∈ t, idChar d = true

/-- The trees that a rule gives, with their `int_ck`; equalities of truth values that print as another
operator are left out. -/
inductive Shape (isPred : String → Bool) : NT → Ex → Bool → Prop where
  | name {c x} : isId x → x ∉ reserved → Shape isPred (.value c) (.name x) true
  | num {c u} : Shape isPred (.value c) (.num u) true
  | aref {x i j} : isId x → Shape isPred .expr i j → Shape isPred (.value false) (.aref x i) true
  | parI {e} : Shape isPred .expr e true → Shape isPred (.value false) (.castI e) true
  | parB {e} : Shape isPred .expr e false → Shape isPred (.value false) (.castB e) false
  | cpar {e i} : Shape isPred (.sum true) e i → Shape isPred (.value true) (.castI e) i
  | val {c e i} : Shape isPred (.value c) e i → Shape isPred (.fcall c) e i
  | call {c w o a b i j} : (w, o) ∈ callWords → Shape isPred (.sum c) a i → Shape isPred (.sum c) b j →
      Shape isPred (.fcall c) (.arith o a b) true
  | pow {c e i} : Shape isPred (.pow c) e i → Shape isPred (.neg c) e i
  | neg {c w f e i} : (w, f) ∈ negOps c → Shape isPred (.pow c) e i → Shape isPred (.neg c) (f e) i
  | up {nt C e i} : chainOf nt = some C → Shape isPred C.hd e i → Shape isPred nt e i
  | chain {nt C w f a b i j} : chainOf nt = some C → (w, f) ∈ C.ops → Shape isPred nt a i →
      endOk nt a = true → Shape isPred C.tl b j → Shape isPred nt (f a b) C.int
  | sum {e i} : Shape isPred (.sum false) e i → Shape isPred .comp e i
  | cmp {w o a b i j} : (w, o) ∈ cmpOps → Shape isPred (.sum false) a i → Shape isPred (.sum false) b j →
      notIff (cmpTree isPred o (a, i) (b, j)) = true →
      Shape isPred .comp (cmpTree isPred o (a, i) (b, j)) false
  | comp {e i} : Shape isPred .comp e i → Shape isPred .unit e i
  | quant {w q x r d i j} : (w, q) ∈ quantWords → isId x → Shape isPred (.sum true) r i →
      Shape isPred .expr d j → Shape isPred .unit (.quant q x (.natDom r) d) false
  | biimp {e i} : Shape isPred .biimp e i → Shape isPred .expr e i
  | iif {a b c i} : Shape isPred .expr a i → Shape isPred .expr b true → Shape isPred .expr c true →
      Shape isPred .expr (.iif a b c) true

theorem firstLit_some {α : Type} {l : List (String × α)} {s : List Char} {a : α} {r : List Char}
    (h : firstLit l s = some (a, r)) : ∃ w, (w, a) ∈ l ∧ lit w s = some r := by
  induction l with
  | nil => simp [firstLit] at h
  | cons x l ih =>
    obtain ⟨w, b⟩ := x
    simp only [firstLit] at h
    cases h1 : lit w s with
    | some r' =>
      rw [h1] at h
      simp only [Option.some.injEq, Prod.mk.injEq] at h
      obtain ⟨rfl, rfl⟩ := h
      exact ⟨w, by simp, h1⟩
    | none =>
      rw [h1] at h
      obtain ⟨w', hw, hl⟩ := ih h
      exact ⟨w', by simp [hw], hl⟩

theorem chain_inv {ops : List (String × (Ex → Ex → Ex))} {i : Bool} {sub : List Char → PRes}
    {Q : Ex × Bool → List Char → Prop}
    (step : ∀ a s w f r b r1, Q a s → (w, f) ∈ ops → firstLit ops (ows s) = some (f, r) →
      sub (ows r) = some (some (b, r1)) → Q (f a.1 b.1, i) r1) :
    ∀ (k : ℕ) a s v, Q a s → chain ops i sub k a s = some (some v) → Q v.1 v.2 := by
  intro k
  induction k with
  | zero => intro a s v _ hv; simp [chain] at hv
  | succ k ih =>
    intro a s v hs hv
    simp only [chain] at hv
    cases h1 : firstLit ops (ows s) with
    | none => rw [h1] at hv; rw [okP_ok hv]; exact hs
    | some fr =>
      obtain ⟨f, r⟩ := fr
      rw [h1] at hv
      simp only at hv
      cases h2 : sub (ows r) with
      | none => rw [h2] at hv; simp at hv
      | some w =>
        rw [h2] at hv
        cases w with
        | none => rw [okP_ok hv]; exact hs
        | some br =>
          obtain ⟨w, hw, _⟩ := firstLit_some h1
          exact ih _ _ v (step a s w f r br.1 br.2 hs hw h1 h2) hv

/-- Nothing can extend an expression that ends with an open quantifier. -/
theorem parse_open : ∀ (k : ℕ) (nt : NT) (s : List Char) v, parse isPred k nt s = some (some v) →
    openR v.1.1 = true → ∀ m ∈ under .expr, Stuck isPred m v.2 := by
  intro k
  induction k with
  | zero => intro nt s v hv; simp [parse] at hv
  | succ k ih =>
    intro nt s v hv
    rw [parse] at hv
    cases hC : chainOf nt with
    | some C =>
      rw [hC] at hv
      obtain ⟨a, r, h1, h2⟩ := bind_ok hv
      refine chain_inv (Q := fun a r => openR a.1 = true → ∀ m ∈ under .expr, Stuck isPred m r)
        ?_ k a r v (ih _ _ _ h1) h2
      intro a s w f r b r1 _ hw _ hs ho
      refine ih _ _ _ hs ?_
      cases nt <;> simp only [chainOf, Option.some.injEq, reduceCtorEq] at hC <;> subst hC <;>
        simp only [List.mem_cons, Prod.mk.injEq, List.not_mem_nil, or_false] at hw
      · obtain ⟨_, rfl⟩ := hw; exact ho
      · obtain ⟨_, rfl⟩ := hw; exact ho
      · obtain ⟨_, rfl⟩ := hw; exact ho
      · obtain ⟨_, rfl⟩ := hw; exact ho
      · rcases hw with ⟨_, rfl⟩ | ⟨_, rfl⟩ <;> simp [openR] at ho
      · rcases hw with ⟨_, rfl⟩ | ⟨_, rfl⟩ | ⟨_, rfl⟩ <;> simp [openR] at ho
      · obtain ⟨_, rfl⟩ := hw; simp [openR] at ho
    | none =>
      rw [hC] at hv
      rcases nt with _ | _ | _ | _ | _ | _ | _ | _ | _ | _ | _ | c | c | c | c | c | c <;>
        simp only [chainOf, reduceCtorEq] at hC
      · -- expr
        simp only [ruleP] at hv
        rcases or_ok hv with h | ⟨_, h⟩
        · exact ih _ _ _ h
        rcases or_ok h with h | ⟨_, h⟩
        · exact ih _ _ _ h
        rcases or_ok h with h | ⟨_, h⟩
        · exact ih _ _ _ h
        · exact fun _ m _ => stuck_close (bad_rest h)
      · -- quant
        intro _ m hm
        refine parse_stuck (k + 1) .quant s v ?_ m hm
        rw [parse]
        exact hv
      · -- iif
        simp only [ruleP] at hv
        obtain ⟨_, _, hv⟩ := tok_ok hv
        obtain ⟨_, _, hv⟩ := tok_ok hv
        obtain ⟨_, _, _, hv⟩ := bind_ok hv
        obtain ⟨_, _, hv⟩ := tok_ok hv
        obtain ⟨_, _, hv⟩ := tok_ok hv
        obtain ⟨_, _, hv⟩ := tok_ok hv
        obtain ⟨_, _, _, hv⟩ := bind_ok hv
        obtain ⟨_, _, hv⟩ := tok_ok hv
        obtain ⟨_, _, hv⟩ := tok_ok hv
        obtain ⟨_, _, hv⟩ := tok_ok hv
        obtain ⟨_, _, h, hv⟩ := bind_ok hv
        rw [okP_ok hv]
        split <;> simp [openR]
      · -- unit
        simp only [ruleP] at hv
        rcases or_ok hv with h | ⟨_, h⟩
        · exact ih _ _ _ h
        · exact ih _ _ _ h
      · -- comp
        simp only [ruleP] at hv
        obtain ⟨a, _, h, hv⟩ := bind_ok hv
        rcases or_ok hv with h' | ⟨_, h'⟩
        · obtain ⟨⟨o, _⟩, _, h'⟩ := tok_ok h'
          obtain ⟨b, _, h2, h'⟩ := bind_ok h'
          rw [okP_ok h']
          intro ho
          have hb := ih _ _ _ h2
          refine hb ?_
          simp only [cmpTree] at ho
          split at ho <;> cases o <;> simp only [CmpOp.tree, openR, Bool.false_eq_true] at ho
          exact ho
        · rw [okP_ok h']
          exact ih _ _ _ h
      · -- dom
        simp only [ruleP] at hv
        rcases or_ok hv with h' | ⟨_, h'⟩
        · obtain ⟨_, _, h'⟩ := tok_ok h'
          obtain ⟨_, _, h'⟩ := tok_ok h'
          obtain ⟨_, _, h'⟩ := tok_ok h'
          obtain ⟨b, _, h2, h'⟩ := bind_ok h'
          rw [okP_ok h']
          simp [openR]
        · obtain ⟨_, _, h'⟩ := tok_ok h'
          obtain ⟨b, _, h2, h'⟩ := bind_ok h'
          rw [okP_ok h']
          simp [openR]
      · -- vref
        simp only [ruleP] at hv
        obtain ⟨_, _, hv⟩ := tok_ok hv
        rcases or_ok hv with h' | ⟨_, h'⟩
        · obtain ⟨_, _, h'⟩ := tok_ok h'
          obtain ⟨b, _, h2, h'⟩ := bind_ok h'
          obtain ⟨_, _, h'⟩ := tok_ok h'
          rw [okP_ok h']
          simp [openR]
        · rw [okP_ok h']
          simp [openR]
      · -- neg
        simp only [ruleP] at hv
        cases h1 : firstLit (negOps c) s with
        | none => rw [h1] at hv; exact ih _ _ _ hv
        | some fr =>
          obtain ⟨f, r⟩ := fr
          rw [h1] at hv
          obtain ⟨_, _, h2, h'⟩ := bind_ok hv
          rw [okP_ok h']
          obtain ⟨w, hw, _⟩ := firstLit_some h1
          cases c <;> simp only [negOps, List.mem_cons, Prod.mk.injEq, List.not_mem_nil, or_false] at hw
          · rcases hw with ⟨_, rfl⟩ | ⟨_, rfl⟩ <;> simp [openR]
          · obtain ⟨_, rfl⟩ := hw; simp [openR]
      · -- fcall
        simp only [ruleP] at hv
        rcases or_ok hv with h' | ⟨_, h'⟩
        · obtain ⟨_, _, h'⟩ := tok_ok h'
          obtain ⟨_, _, h'⟩ := tok_ok h'
          obtain ⟨_, _, _, h'⟩ := bind_ok h'
          obtain ⟨_, _, h'⟩ := tok_ok h'
          obtain ⟨_, _, _, h'⟩ := bind_ok h'
          obtain ⟨_, _, h'⟩ := tok_ok h'
          rw [okP_ok h']
          simp [openR]
        · exact ih _ _ _ h'
      · -- value
        have hnat : natP s = some (some v) → openR v.1.1 = true → ∀ m ∈ under .expr, Stuck isPred m v.2 := by
          intro h
          simp only [natP] at h
          split at h
          · cases h
          · rw [okP_ok h]; simp [openR]
        cases c <;> simp only [ruleP] at hv
        · rcases or_ok hv with h' | ⟨_, h'⟩
          · exact ih _ _ _ h'
          rcases or_ok h' with h' | ⟨_, h'⟩
          · exact hnat h'
          · obtain ⟨_, _, h'⟩ := tok_ok h'
            obtain ⟨_, _, _, h'⟩ := bind_ok h'
            obtain ⟨_, _, h'⟩ := tok_ok h'
            rw [okP_ok h']
            split <;> simp [openR]
        · rcases or_ok hv with h' | ⟨_, h'⟩
          · exact hnat h'
          rcases or_ok h' with h' | ⟨_, h'⟩
          · obtain ⟨_, _, h'⟩ := tok_ok h'
            rw [okP_ok h']; simp [openR]
          · obtain ⟨_, _, h'⟩ := tok_ok h'
            obtain ⟨_, _, _, h'⟩ := bind_ok h'
            obtain ⟨_, _, h'⟩ := tok_ok h'
            rw [okP_ok h']
            simp [openR]

/-- Shape up to equalities of truth values, whose operator changes. -/
def ShapeB (isPred : String → Bool) (nt : NT) (e : Ex) (i : Bool) : Prop :=
  (notIff e = true → Shape isPred nt e i) ∧ (notIff e = false → Shape isPred .biimp e i)

/-- What is shown of the tree of each rule. -/
def Snd (isPred : String → Bool) : NT → Ex → Bool → Prop
  | .dom, e, _ => ∃ x j, e = .natDom x ∧ (tidy x = true → Shape isPred (.sum true) x j)
  | .quant, e, i => notIff e = true ∧ (tidy e = true → Shape isPred .unit e i)
  | .iif, e, i => tidy e = true → Shape isPred .expr e i
  | .vref, e, i => notIff e = true ∧ openR e = false ∧ isPow e = false ∧ (tidy e = true → Shape isPred (.value false) e i)
  | .impl, e, i => tidy e = true → ShapeB isPred .impl e i
  | .disj, e, i => tidy e = true → ShapeB isPred .disj e i
  | .conj, e, i => tidy e = true → ShapeB isPred .conj e i
  | .unit, e, i => tidy e = true → ShapeB isPred .unit e i
  | .comp, e, i => tidy e = true → ShapeB isPred .comp e i
  | .biimp, e, i => tidy e = true → Shape isPred .biimp e i
  | .expr, e, i => tidy e = true → Shape isPred .expr e i
  | .fcall c, e, i => notIff e = true ∧ openR e = false ∧ isPow e = false ∧ (tidy e = true → Shape isPred (.fcall c) e i)
  | .value c, e, i => notIff e = true ∧ openR e = false ∧ isPow e = false ∧ (tidy e = true → Shape isPred (.value c) e i)
  | nt, e, i => notIff e = true ∧ openR e = false ∧ (tidy e = true → Shape isPred nt e i)

theorem shape_bi {nt : NT} (h : nt = .impl ∨ nt = .disj ∨ nt = .conj ∨ nt = .unit ∨ nt = .comp)
    {e : Ex} {i : Bool} (hs : Shape isPred nt e i) : Shape isPred .impl e i := by
  have h4 : Shape isPred .unit e i → Shape isPred .impl e i := fun h =>
    .up (nt := .impl) rfl (.up (nt := .disj) rfl (.up (nt := .conj) rfl h))
  rcases h with rfl | rfl | rfl | rfl | rfl
  · exact hs
  · exact .up (nt := .impl) rfl hs
  · exact .up (nt := .impl) rfl (.up (nt := .disj) rfl hs)
  · exact h4 hs
  · exact h4 (.comp hs)

theorem ident_some {s : List Char} {x : String} {r : List Char} (h : ident s = some (x, r)) : isId x := by
  cases s with
  | nil => simp [ident] at h
  | cons c s =>
    simp only [ident] at h
    split at h
    · rename_i hc
      simp only [Option.some.injEq, Prod.mk.injEq] at h
      obtain ⟨rfl, _⟩ := h
      refine ⟨c, s.takeWhile idChar, by simp, hc, fun d hd => ?_⟩
      exact List.all_eq_true.1 (List.all_takeWhile (p := idChar) (l := s)) d hd
    · cases h

/-- The trees that the rules give have the shape. -/
theorem parse_shape : ∀ (k : ℕ) (nt : NT) (s : List Char) v, parse isPred k nt s = some (some v) →
    Snd isPred nt v.1.1 v.1.2 := by
  intro k
  induction k with
  | zero => intro nt s v hv; simp [parse] at hv
  | succ k ih =>
    intro nt s v hv
    have hv0 := hv
    rw [parse] at hv
    cases hC : chainOf nt with
    | some C =>
      rw [hC] at hv
      obtain ⟨a, r, h1, h2⟩ := bind_ok hv
      have key := chain_inv (ops := C.ops) (i := C.int) (sub := parse isPred k C.tl)
        (Q := fun a r => Snd isPred nt a.1 a.2 ∧ (openR a.1 = true → ∀ m ∈ under .expr, Stuck isPred m r) ∧
          (powNT nt = true → isPow a.1 = true → Stuck isPred nt r))
        ?_ k a r v ⟨?_, parse_open _ _ _ _ h1, ?_⟩ h2
      · exact key.1
      · -- a step
        intro a s w f r b r1 ⟨ha, ho, hp⟩ hw hf hs
        have hb := ih _ _ _ hs
        have hob := parse_open _ _ _ _ hs
        have hst := parse_stuck _ _ _ _ hs
        have hno : ∀ m ∈ under .expr, m = nt → openR a.1 = false := by
          rintro m hm rfl
          by_contra hc
          rw [Bool.not_eq_false] at hc
          exact ho hc m hm C hC f r hf k (b, r1) hs
        cases nt <;> simp only [chainOf, Option.some.injEq, reduceCtorEq] at hC <;> subst hC <;>
          simp only [List.mem_cons, Prod.mk.injEq, List.not_mem_nil, or_false] at hw
        · obtain ⟨_, rfl⟩ := hw
          refine ⟨?_, hob, by simp [powNT]⟩
          intro ht
          simp only [tidy, Bool.and_eq_true] at ht
          exact .chain (nt := .biimp) rfl (w := "<=>") (f := .iff) (by simp) (ha ht.1.2)
            (by simp [endOk, powNT, hno .biimp (by simp [under]) rfl]) ((hb ht.2).1 ht.1.1)
        · obtain ⟨_, rfl⟩ := hw
          refine ⟨?_, hob, by simp [powNT]⟩
          intro ht
          simp only [tidy, Bool.and_eq_true] at ht
          refine ⟨fun _ => ?_, fun h => absurd h (by simp [notIff])⟩
          exact .chain (nt := .impl) rfl (w := "==>") (f := .imp) (by simp) ((ha ht.1.2).1 ht.1.1.1)
            (by simp [endOk, powNT, hno .impl (by simp [under]) rfl]) ((hb ht.2).1 ht.1.1.2)
        · obtain ⟨_, rfl⟩ := hw
          refine ⟨?_, hob, by simp [powNT]⟩
          intro ht
          simp only [tidy, Bool.and_eq_true] at ht
          refine ⟨fun _ => ?_, fun h => absurd h (by simp [notIff])⟩
          exact .chain (nt := .disj) rfl (w := "||") (f := .or) (by simp) ((ha ht.1.2).1 ht.1.1.1)
            (by simp [endOk, powNT, hno .disj (by simp [under]) rfl]) ((hb ht.2).1 ht.1.1.2)
        · obtain ⟨_, rfl⟩ := hw
          refine ⟨?_, hob, by simp [powNT]⟩
          intro ht
          simp only [tidy, Bool.and_eq_true] at ht
          refine ⟨fun _ => ?_, fun h => absurd h (by simp [notIff])⟩
          exact .chain (nt := .conj) rfl (w := "&&") (f := .and) (by simp) ((ha ht.1.2).1 ht.1.1.1)
            (by simp [endOk, powNT, hno .conj (by simp [under]) rfl]) ((hb ht.2).1 ht.1.1.2)
        · rename_i c
          have hf' : ∃ o, f = .arith o ∧ o ≠ .pow := by
            rcases hw with ⟨_, rfl⟩ | ⟨_, rfl⟩
            · exact ⟨_, rfl, by decide⟩
            · exact ⟨_, rfl, by decide⟩
          obtain ⟨o, rfl, hop⟩ := hf'
          refine ⟨⟨rfl, rfl, fun ht => ?_⟩, by simp [openR], by simp [powNT]⟩
          simp only [tidy, Bool.and_eq_true] at ht
          exact .chain (nt := .sum c) rfl (w := w) (f := .arith o) (by simpa using hw) (ha.2.2 ht.1)
            (by simp [endOk, powNT, ha.2.1]) (hb.2.2 ht.2)
        · rename_i c
          have hf' : ∃ o, f = .arith o ∧ o ≠ .pow := by
            rcases hw with ⟨_, rfl⟩ | ⟨_, rfl⟩ | ⟨_, rfl⟩
            · exact ⟨_, rfl, by decide⟩
            · exact ⟨_, rfl, by decide⟩
            · exact ⟨_, rfl, by decide⟩
          obtain ⟨o, rfl, hop⟩ := hf'
          refine ⟨⟨rfl, rfl, fun ht => ?_⟩, by simp [openR], by simp [powNT]⟩
          simp only [tidy, Bool.and_eq_true] at ht
          exact .chain (nt := .prod c) rfl (w := w) (f := .arith o) (by simpa using hw) (ha.2.2 ht.1)
            (by simp [endOk, powNT, ha.2.1]) (hb.2.2 ht.2)
        · rename_i c
          obtain ⟨_, rfl⟩ := hw
          have hnp : isPow a.1 = false := by
            by_contra hc
            rw [Bool.not_eq_false] at hc
            exact hp rfl hc _ rfl _ _ hf k _ hs
          refine ⟨⟨rfl, rfl, fun ht => ?_⟩, by simp [openR], fun _ _ => hst _ (by simp [under])⟩
          simp only [tidy, Bool.and_eq_true] at ht
          exact .chain (nt := .pow c) rfl (w := "^") (f := .arith .pow) (by simp) (ha.2.2 ht.1)
            (by simp [endOk, powNT, ha.2.1, hnp]) (hb.2.2 ht.2)
      · -- the head
        have hh := ih _ _ _ h1
        cases nt <;> simp only [chainOf, Option.some.injEq, reduceCtorEq] at hC <;> subst hC
        · intro ht
          cases hn : notIff a.1 with
          | true => exact .up (nt := .biimp) rfl ((hh ht).1 hn)
          | false => exact (hh ht).2 hn
        · exact fun ht => ⟨fun hn => .up (nt := .impl) rfl ((hh ht).1 hn), (hh ht).2⟩
        · exact fun ht => ⟨fun hn => .up (nt := .disj) rfl ((hh ht).1 hn), (hh ht).2⟩
        · exact fun ht => ⟨fun hn => .up (nt := .conj) rfl ((hh ht).1 hn), (hh ht).2⟩
        · exact ⟨hh.1, hh.2.1, fun ht => .up (C := ⟨_, _, _, _⟩) rfl (hh.2.2 ht)⟩
        · exact ⟨hh.1, hh.2.1, fun ht => .up (C := ⟨_, _, _, _⟩) rfl (hh.2.2 ht)⟩
        · exact ⟨hh.1, hh.2.1, fun ht => .up (C := ⟨_, _, _, _⟩) rfl (hh.2.2.2 ht)⟩
      · intro hpn hpa
        have hh := ih _ _ _ h1
        cases nt <;> simp only [chainOf, Option.some.injEq, reduceCtorEq] at hC <;> subst hC <;>
          simp only [powNT, Bool.false_eq_true] at hpn
        exact absurd hpa (by rw [hh.2.2.1]; simp)
    | none =>
      rw [hC] at hv
      rcases nt with _ | _ | _ | _ | _ | _ | _ | _ | _ | _ | _ | c | c | c | c | c | c <;>
        simp only [chainOf, reduceCtorEq] at hC
      · -- expr
        simp only [ruleP] at hv
        intro ht
        rcases or_ok hv with h | ⟨_, h⟩
        · have := ih _ _ _ h
          exact .biimp (.up (nt := .biimp) rfl (shape_bi (by simp) (this.2 ht)))
        rcases or_ok h with h | ⟨_, h⟩
        · exact ih _ _ _ h ht
        rcases or_ok h with h | ⟨_, h⟩
        · exact .biimp (ih _ _ _ h ht)
        · exfalso
          simp only [badExpr] at h
          split at h
          · cases h
          · rw [okP_ok h] at ht
            simp [tidy, reserved] at ht
      · -- quant
        simp only [ruleP] at hv
        obtain ⟨⟨q, _⟩, hq, hv⟩ := tok_ok hv
        obtain ⟨_, _, hv⟩ := tok_ok hv
        obtain ⟨⟨x, _⟩, hx, hv⟩ := tok_ok hv
        obtain ⟨a, _, ha, hv⟩ := bind_ok hv
        obtain ⟨_, _, hv⟩ := tok_ok hv
        obtain ⟨d, _, h, hv⟩ := bind_ok hv
        rw [okP_ok hv]
        refine ⟨rfl, fun ht => ?_⟩
        obtain ⟨w, hw, _⟩ := firstLit_some hq
        obtain ⟨y, j, hy, hty⟩ := ih _ _ _ ha
        simp only at hy
        rw [hy] at ht ⊢
        simp only [tidy, Bool.and_eq_true] at ht
        exact .quant hw (ident_some hx) (hty ht.1) (ih _ _ _ h ht.2)
      · -- iif
        simp only [ruleP] at hv
        obtain ⟨_, _, hv⟩ := tok_ok hv
        obtain ⟨_, _, hv⟩ := tok_ok hv
        obtain ⟨a, _, ha, hv⟩ := bind_ok hv
        obtain ⟨_, _, hv⟩ := tok_ok hv
        obtain ⟨_, _, hv⟩ := tok_ok hv
        obtain ⟨_, _, hv⟩ := tok_ok hv
        obtain ⟨b, _, hb, hv⟩ := bind_ok hv
        obtain ⟨_, _, hv⟩ := tok_ok hv
        obtain ⟨_, _, hv⟩ := tok_ok hv
        obtain ⟨_, _, hv⟩ := tok_ok hv
        obtain ⟨c, _, hc, hv⟩ := bind_ok hv
        rw [okP_ok hv]
        intro ht
        simp only at ht ⊢
        by_cases hbc : (b.2 && c.2) = true
        · rw [if_pos hbc] at ht ⊢
          rw [Bool.and_eq_true] at hbc
          simp only [tidy, Bool.and_eq_true] at ht
          have h2 := ih _ _ _ hb ht.1.2
          have h3 := ih _ _ _ hc ht.2
          simp only [hbc] at h2 h3
          exact .iif (ih _ _ _ ha ht.1.1) h2 h3
        · rw [if_neg hbc] at ht
          simp [tidy, reserved] at ht
      · -- unit
        simp only [ruleP] at hv
        intro ht
        rcases or_ok hv with h | ⟨_, h⟩
        · have := ih _ _ _ h
          exact ⟨fun _ => this.2 ht, fun hn => absurd this.1 (by rw [hn]; simp)⟩
        · have := ih _ _ _ h ht
          exact ⟨fun hn => .comp (this.1 hn), this.2⟩
      · -- comp
        simp only [ruleP] at hv
        obtain ⟨a, _, ha, hv⟩ := bind_ok hv
        have ha' := ih _ _ _ ha
        rcases or_ok hv with h' | ⟨_, h'⟩
        · obtain ⟨⟨o, _⟩, ho, h'⟩ := tok_ok h'
          obtain ⟨b, _, hb, h'⟩ := bind_ok h'
          have hb' := ih _ _ _ hb
          rw [okP_ok h']
          intro ht
          simp only at ht ⊢
          obtain ⟨w, hw, _⟩ := firstLit_some ho
          have hab : tidy a.1 = true ∧ tidy b.1 = true := by
            simp only [cmpTree] at ht
            split at ht <;> cases o <;> simp only [CmpOp.tree, tidy, Bool.and_eq_true] at ht
            all_goals first | exact ht | exact ⟨ht.1.2, ht.2⟩
          refine ⟨fun hn => ?_, fun hn => ?_⟩
          · exact .cmp hw (ha'.2.2 hab.1) (hb'.2.2 hab.2) hn
          · simp only [cmpTree] at hn ⊢
            by_cases hbc : boolCmp isPred a b = true
            swap
            · rw [if_neg hbc] at hn
              cases o <;> simp only [CmpOp.tree, notIff, reduceCtorEq] at hn
            rw [if_pos hbc] at hn ⊢
            cases o <;> simp only [CmpOp.tree, notIff, reduceCtorEq] at hn
            refine .chain (nt := .biimp) rfl (w := "<=>") (f := .iff) (by simp)
              (.up (nt := .biimp) rfl (shape_bi (by simp) (.sum (ha'.2.2 hab.1)))) ?_
              (shape_bi (by simp) (.sum (hb'.2.2 hab.2)))
            have := ha'.2.1
            simp only at this
            simp [endOk, powNT, this]
        · rw [okP_ok h']
          intro ht
          exact ⟨fun _ => .sum (ha'.2.2 ht), fun hn => absurd ha'.1 (by simp only at hn ⊢; rw [hn]; simp)⟩
      · -- dom
        simp only [ruleP] at hv
        rcases or_ok hv with h' | ⟨_, h'⟩
        · obtain ⟨_, _, h'⟩ := tok_ok h'
          obtain ⟨_, _, h'⟩ := tok_ok h'
          obtain ⟨_, _, h'⟩ := tok_ok h'
          obtain ⟨b, _, h2, h'⟩ := bind_ok h'
          rw [okP_ok h']
          refine ⟨b.1, b.2, rfl, fun ht => ?_⟩
          exact .up (nt := .sum true) rfl (.up (nt := .prod true) rfl (.pow (.up (nt := .pow true) rfl
            (.val ((ih _ _ _ h2).2.2.2 ht)))))
        · obtain ⟨_, _, h'⟩ := tok_ok h'
          obtain ⟨b, _, h2, h'⟩ := bind_ok h'
          rw [okP_ok h']
          exact ⟨b.1, b.2, rfl, (ih _ _ _ h2).2.2⟩
      · -- vref
        simp only [ruleP] at hv
        obtain ⟨⟨x, _⟩, hx, hv⟩ := tok_ok hv
        rcases or_ok hv with h' | ⟨_, h'⟩
        · obtain ⟨_, _, h'⟩ := tok_ok h'
          obtain ⟨b, _, h2, h'⟩ := bind_ok h'
          obtain ⟨_, _, h'⟩ := tok_ok h'
          rw [okP_ok h']
          exact ⟨rfl, rfl, rfl, fun ht => .aref (ident_some hx) (ih _ _ _ h2 ht)⟩
        · rw [okP_ok h']
          refine ⟨rfl, rfl, rfl, fun ht => .name (ident_some hx) ?_⟩
          simp only [tidy, Bool.not_eq_true'] at ht
          simpa using ht
      · -- neg
        simp only [ruleP] at hv
        cases h1 : firstLit (negOps c) s with
        | none =>
          rw [h1] at hv
          have := ih _ _ _ hv
          exact ⟨this.1, this.2.1, fun ht => .pow (this.2.2 ht)⟩
        | some fr =>
          obtain ⟨f, r⟩ := fr
          rw [h1] at hv
          obtain ⟨a, _, h2, h'⟩ := bind_ok hv
          rw [okP_ok h']
          obtain ⟨w, hw, _⟩ := firstLit_some h1
          have hf : f = .neg ∨ f = .not := by
            cases c <;> simp only [negOps, List.mem_cons, Prod.mk.injEq, List.not_mem_nil, or_false] at hw
            · rcases hw with ⟨_, rfl⟩ | ⟨_, rfl⟩ <;> simp
            · exact Or.inl hw.2
          refine ⟨?_, ?_, fun ht => .neg hw ((ih _ _ _ h2).2.2 ?_)⟩
          · rcases hf with rfl | rfl <;> rfl
          · rcases hf with rfl | rfl <;> rfl
          · rcases hf with rfl | rfl <;> exact ht
      · -- fcall
        simp only [ruleP] at hv
        rcases or_ok hv with h' | ⟨_, h'⟩
        · obtain ⟨⟨o, _⟩, ho, h'⟩ := tok_ok h'
          obtain ⟨_, _, h'⟩ := tok_ok h'
          obtain ⟨a, _, ha, h'⟩ := bind_ok h'
          obtain ⟨_, _, h'⟩ := tok_ok h'
          obtain ⟨b, _, hb, h'⟩ := bind_ok h'
          obtain ⟨_, _, h'⟩ := tok_ok h'
          rw [okP_ok h']
          obtain ⟨w, hw, _⟩ := firstLit_some ho
          refine ⟨rfl, rfl, ?_, fun ht => ?_⟩
          · simp only [callWords, List.mem_cons, Prod.mk.injEq, List.not_mem_nil, or_false] at hw
            rcases hw with ⟨_, rfl⟩ | ⟨_, rfl⟩ <;> rfl
          · simp only [tidy, Bool.and_eq_true] at ht
            exact .call hw ((ih _ _ _ ha).2.2 ht.1) ((ih _ _ _ hb).2.2 ht.2)
        · have := ih _ _ _ h'
          exact ⟨this.1, this.2.1, this.2.2.1, fun ht => .val (this.2.2.2 ht)⟩
      · -- value
        have hnat : natP s = some (some v) → notIff v.1.1 = true ∧ openR v.1.1 = false ∧
            isPow v.1.1 = false ∧ (tidy v.1.1 = true → Shape isPred (.value c) v.1.1 v.1.2) := by
          intro h
          simp only [natP] at h
          split at h
          · cases h
          · rw [okP_ok h]; exact ⟨rfl, rfl, rfl, fun _ => .num⟩
        cases c <;> simp only [ruleP] at hv
        · rcases or_ok hv with h' | ⟨_, h'⟩
          · have := ih _ _ _ h'
            exact this
          rcases or_ok h' with h' | ⟨_, h'⟩
          · exact hnat h'
          · obtain ⟨_, _, h'⟩ := tok_ok h'
            obtain ⟨a, _, ha, h'⟩ := bind_ok h'
            obtain ⟨_, _, h'⟩ := tok_ok h'
            rw [okP_ok h']
            have ha' := ih _ _ _ ha
            obtain ⟨e, b⟩ := a
            cases b
            · exact ⟨rfl, rfl, rfl, fun ht => .parB (ha' ht)⟩
            · exact ⟨rfl, rfl, rfl, fun ht => .parI (ha' ht)⟩
        · rcases or_ok hv with h' | ⟨_, h'⟩
          · exact hnat h'
          rcases or_ok h' with h' | ⟨_, h'⟩
          · obtain ⟨⟨x, _⟩, hx, h'⟩ := tok_ok h'
            rw [okP_ok h']
            refine ⟨rfl, rfl, rfl, fun ht => .name (ident_some hx) ?_⟩
            simp only [tidy, Bool.not_eq_true'] at ht
            simpa using ht
          · obtain ⟨_, _, h'⟩ := tok_ok h'
            obtain ⟨a, _, ha, h'⟩ := bind_ok h'
            obtain ⟨_, _, h'⟩ := tok_ok h'
            rw [okP_ok h']
            exact ⟨rfl, rfl, rfl, fun ht => .cpar ((ih _ _ _ ha).2.2 ht)⟩

end Verif.Proofs
