import Verif.Proofs.GrammarShape

/-!
The text of a tree is read as that tree.
-/

namespace Verif.Proofs

open Verif.Model Verif.Spec

variable {isPred : String → Bool}

/-- The rule gives this result, with any fuel that is large enough. -/
def Reads (isPred : String → Bool) (nt : NT) (s : List Char) (v : Option ((Ex × Bool) × List Char)) : Prop :=
  ∃ K, ∀ k, K ≤ k → parse isPred k nt s = some v

theorem reads_rule {nt : NT} (h : chainOf nt = none) {s : List Char} {v} {K : ℕ}
    (hr : ∀ k, K ≤ k → ruleP isPred (parse isPred k) s nt = some v) : Reads isPred nt s v := by
  refine ⟨K + 1, fun k hk => ?_⟩
  obtain ⟨j, rfl⟩ : ∃ j, k = j + 1 := ⟨k - 1, by omega⟩
  rw [parse, h]
  exact hr j (by omega)

/-- The first character of an expression. -/
def startC (c : Char) : Bool := c.isAlpha || c.isDigit || c == '(' || c == '-' || c == '!'

theorem startC_blank {c : Char} (h : startC c = true) : isBlank c = false := by
  by_contra hb
  simp only [isBlank, Bool.not_eq_false, Bool.or_eq_true, beq_iff_eq] at hb
  rcases hb with ((rfl | rfl) | rfl) | rfl <;> exact absurd h (by decide)

theorem startC_ne {c d : Char} (h : startC c = true) (hd : startC d = false) : c ≠ d := by
  rintro rfl; rw [h] at hd; cases hd

theorem ows_start {c : Char} {t : List Char} (h : startC c = true) : ows (c :: t) = c :: t :=
  ows_cons (startC_blank h) (startC_ne h (by decide))

theorem ows_space {s : List Char} : ows (' ' :: s) = ows s := by
  simp [ows, owsGo, isBlank]

theorem idChar_blank {c : Char} (h : idChar c = true) : isBlank c = false ∧ c ≠ '/' := by
  constructor
  · by_contra hb
    simp only [isBlank, Bool.not_eq_false, Bool.or_eq_true, beq_iff_eq] at hb
    rcases hb with ((rfl | rfl) | rfl) | rfl <;> exact absurd h (by decide)
  · rintro rfl; exact absurd h (by decide)

/-- No identifier continues here. -/
def HeadNotId (r : List Char) : Prop := ∀ c t, r = c :: t → idChar c = false

/-- What may follow a name. -/
def NameEnd (r : List Char) : Prop :=
  HeadNotId r ∧ (∀ t, r ≠ '[' :: t) ∧ ∀ t, ows r ≠ '(' :: t

/-- A repetition stops here. -/
def Stops (isPred : String → Bool) (m : NT) (r : List Char) : Prop :=
  ∀ C, chainOf m = some C → ∀ f r', firstLit C.ops (ows r) = some (f, r') →
    Reads isPred C.tl (ows r') none

/-- A comparison stops here. -/
def StopC (isPred : String → Bool) (r : List Char) : Prop :=
  ∀ o r', firstLit cmpOps (ows r) = some (o, r') → Reads isPred (.sum false) (ows r') none

/-- The rules that may end with a comparison. -/
def compIn : NT → Bool
  | .expr => true
  | .biimp => true
  | .impl => true
  | .disj => true
  | .conj => true
  | .unit => true
  | .comp => true
  | _ => false

/-- What may follow the text of a rule. -/
def Fol (isPred : String → Bool) (nt : NT) (r : List Char) : Prop :=
  NameEnd r ∧ (∀ m ∈ under nt, Stops isPred m r) ∧ (compIn nt = true → StopC isPred r)

theorem lit_nil {w : String} {c : Char} {u : List Char} (h : w.toList = c :: u) : lit w [] = none := by
  simp [lit, h, litL]

theorem lit_head {w : String} {c d : Char} {u s : List Char} (h : w.toList = c :: u) (hd : c ≠ d) :
    lit w (d :: s) = none := by
  simp [lit, h, litL, hd]

theorem litL_app : ∀ (w s : List Char), litL w (w ++ s) = some s
  | [], _ => rfl
  | c :: w, s => by simp [litL, litL_app w s]

theorem litL_some : ∀ {w s r : List Char}, litL w s = some r → s = w ++ r
  | [], s, r, h => by simp only [litL, Option.some.injEq] at h; simp [h]
  | c :: w, [], r, h => by simp [litL] at h
  | c :: w, d :: s, r, h => by
    simp only [litL] at h
    split at h
    · rename_i hcd; subst hcd; rw [litL_some h]; rfl
    · cases h

theorem stops_nil {m : NT} {r : List Char} (h : ows r = []) : Stops isPred m r := by
  intro C hC f r' hf
  rw [h] at hf
  cases m <;> simp only [chainOf, Option.some.injEq, reduceCtorEq] at hC <;> subst hC <;>
    simp [firstLit, lit, litL] at hf

/-- The first characters of the operators of a repetition. -/
def heads : NT → List Char
  | .biimp => ['<']
  | .impl => ['=']
  | .disj => ['|']
  | .conj => ['&']
  | .sum _ => ['+', '-']
  | .prod _ => ['*', '/', '%']
  | .pow _ => ['^']
  | _ => []

theorem stops_head {m : NT} {r t : List Char} {c : Char} (h : ows r = c :: t) (hc : c ∉ heads m) :
    Stops isPred m r := by
  intro C hC f r' hf
  rw [h] at hf
  have h1 : ∀ d w, ¬c = d → litL (d :: w) (c :: t) = none := by
    intro d w hd
    simp [litL, Ne.symm hd]
  cases m <;> simp only [chainOf, Option.some.injEq, reduceCtorEq] at hC <;> subst hC <;>
    simp only [heads, List.mem_cons, List.not_mem_nil, or_false, not_or] at hc <;>
    simp [firstLit, lit, h1, hc] at hf

theorem stopC_nil {r : List Char} (h : ows r = []) : StopC isPred r := by
  intro o r' hf
  rw [h] at hf
  simp [cmpOps, firstLit, lit, litL] at hf

theorem stopC_head {r t : List Char} {c : Char} (h : ows r = c :: t)
    (hc : c ∉ ['=', '!', '<', '>']) : StopC isPred r := by
  intro o r' hf
  rw [h] at hf
  simp only [List.mem_cons, List.not_mem_nil, or_false, not_or] at hc
  have h1 : ∀ d, c ≠ d → ∀ w u, w = d :: u → litL w (c :: t) = none := by
    rintro d hd w u rfl
    simp [litL, Ne.symm hd]
  simp [cmpOps, firstLit, lit, h1 '=' hc.1, h1 '!' hc.2.1, h1 '<' hc.2.2.1, h1 '>' hc.2.2.2] at hf

/-- A character that begins no value. -/
def noVal (c : Char) : Bool := !(c.isAlpha || c.isDigit || c == '(')

theorem value_fail {b : Bool} {c : Char} {t : List Char} (h : noVal c = true) :
    Reads isPred (.value b) (c :: t) none := by
  simp only [noVal, Bool.not_eq_true', Bool.or_eq_false_iff, beq_eq_false_iff_ne] at h
  have hid : ident (c :: t) = none := by simp [ident, h.1.1]
  have hn : natP (c :: t) = some none := by simp [natP, h.1.2]
  have hl : lit "(" (c :: t) = none := lit_head (c := '(') (u := []) (by simp) (Ne.symm h.2)
  have hv : Reads isPred .vref (c :: t) none := by
    refine reads_rule (K := 0) rfl fun k _ => ?_
    simp [ruleP, hid, tok]
  obtain ⟨K, hK⟩ := hv
  refine reads_rule (K := K) rfl fun k hk => ?_
  cases b
  · simp [ruleP, hK k hk, hn, hl, tok, altP]
  · simp [ruleP, hid, hn, hl, tok, altP]

theorem pow_fail {b : Bool} {c : Char} {t : List Char} (h : noVal c = true) :
    Reads isPred (.pow b) (c :: t) none := by
  obtain ⟨K, hK⟩ := value_fail (isPred := isPred) (b := b) (t := t) h
  have hm : c ≠ 'm' := by rintro rfl; exact absurd h (by decide)
  have hc : firstLit callWords (c :: t) = none := by
    simp [firstLit, callWords, lit, litL, Ne.symm hm]
  have hf : Reads isPred (.fcall b) (c :: t) none := by
    refine reads_rule (K := K) rfl fun k hk => ?_
    simp [ruleP, hc, tok, altP, hK k hk]
  obtain ⟨K', hK'⟩ := hf
  refine ⟨K' + 1, fun k hk => ?_⟩
  obtain ⟨j, rfl⟩ : ∃ j, k = j + 1 := ⟨k - 1, by omega⟩
  simp [parse, chainOf, hK' j (by omega), bindP]

theorem neg_fail {b : Bool} {c : Char} {t : List Char} (h : noVal c = true) (h1 : c ≠ '-')
    (h2 : c ≠ '!') : Reads isPred (.neg b) (c :: t) none := by
  obtain ⟨K, hK⟩ := pow_fail (isPred := isPred) (b := b) (t := t) h
  refine reads_rule (K := K) rfl fun k hk => ?_
  have : firstLit (negOps b) (c :: t) = none := by
    cases b <;> simp [firstLit, negOps, lit, litL, Ne.symm h1, Ne.symm h2]
  simp [ruleP, this, hK k hk]

theorem prod_fail {b : Bool} {s : List Char} (h : Reads isPred (.neg b) s none) :
    Reads isPred (.prod b) s none := by
  obtain ⟨K, hK⟩ := h
  refine ⟨K + 1, fun k hk => ?_⟩
  obtain ⟨j, rfl⟩ : ∃ j, k = j + 1 := ⟨k - 1, by omega⟩
  simp [parse, chainOf, hK j (by omega), bindP]

theorem sum_fail {b : Bool} {s : List Char} (h : Reads isPred (.neg b) s none) :
    Reads isPred (.sum b) s none := by
  obtain ⟨K, hK⟩ := prod_fail h
  refine ⟨K + 1, fun k hk => ?_⟩
  obtain ⟨j, rfl⟩ : ∃ j, k = j + 1 := ⟨k - 1, by omega⟩
  simp [parse, chainOf, hK j (by omega), bindP]

/-- `->` begins no product. -/
theorem arrow_fail {b : Bool} {t : List Char} : Reads isPred (.prod b) ('-' :: '>' :: t) none := by
  refine prod_fail ?_
  obtain ⟨K, hK⟩ := pow_fail (isPred := isPred) (b := b) (c := '>') (t := t) (by decide)
  refine reads_rule (K := K) rfl fun k hk => ?_
  have : firstLit (negOps b) ('-' :: '>' :: t) = some (.neg, '>' :: t) := by
    cases b <;> simp [firstLit, negOps, lit, litL]
  have ho : ows ('>' :: t) = '>' :: t := ows_cons (by decide) (by decide)
  simp [ruleP, this, ho, hK k hk, bindP]

end Verif.Proofs
