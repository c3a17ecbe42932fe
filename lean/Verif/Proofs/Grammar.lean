import Verif.Model.Grammar
import Mathlib.Tactic.Common

/-!
Facts about the model of the grammar: more fuel does not change a result; what cannot follow a matched
rule.
-/

namespace Verif.Proofs

open Verif.Model

variable {isPred : String → Bool}

/-- The first result, if it is one, is also the second. -/
def PLe (x y : PRes) : Prop := ∀ v, x = some v → y = some v

theorem PLe.refl (x : PRes) : PLe x x := fun _ h => h

theorem PLe.bind {x y : PRes} {f g : Ex × Bool → List Char → PRes} (h : PLe x y)
    (hf : ∀ a r, PLe (f a r) (g a r)) : PLe (bindP x f) (bindP y g) := by
  intro v hv
  rcases x with _ | _ | ⟨a, r⟩
  · simp [bindP] at hv
  · rw [h none rfl]; exact hv
  · rw [h _ rfl]; exact hf a r v hv

theorem PLe.or {x y x' y' : PRes} (h : PLe x y) (h' : PLe x' y') : PLe (altP x x') (altP y y') := by
  intro v hv
  rcases x with _ | _ | ⟨a, r⟩
  · simp [altP] at hv
  · rw [h none rfl]; exact h' v hv
  · rw [h _ rfl]; exact hv

theorem PLe.tok {α : Type} {o : Option α} {f g : α → PRes} (h : ∀ a, PLe (f a) (g a)) :
    PLe (tok o f) (tok o g) := by
  cases o with
  | none => exact PLe.refl _
  | some a => exact h a

theorem chain_mono {ops : List (String × (Ex → Ex → Ex))} {i : Bool} {sub sub' : List Char → PRes}
    (h : ∀ s, PLe (sub s) (sub' s)) :
    ∀ (k k' : ℕ), k ≤ k' → ∀ a s, PLe (chain ops i sub k a s) (chain ops i sub' k' a s) := by
  intro k
  induction k with
  | zero => intro k' _ a s v hv; simp [chain] at hv
  | succ k ih =>
    intro k' hk a s v hv
    obtain ⟨k'', rfl⟩ : ∃ j, k' = j + 1 := ⟨k' - 1, by omega⟩
    simp only [chain] at hv ⊢
    cases h1 : firstLit ops (ows s) with
    | none => rw [h1] at hv; exact hv
    | some fr =>
      obtain ⟨f, r⟩ := fr
      rw [h1] at hv
      simp only at hv ⊢
      cases h2 : sub (ows r) with
      | none => rw [h2] at hv; simp at hv
      | some w =>
        rw [h _ w h2]
        rw [h2] at hv
        cases w with
        | none => exact hv
        | some br => exact ih k'' (by omega) _ _ v hv

theorem rule_mono {p p' : NT → List Char → PRes} (h : ∀ nt s, PLe (p nt s) (p' nt s)) (s : List Char)
    (nt : NT) : PLe (ruleP isPred p s nt) (ruleP isPred p' s nt) := by
  rcases nt with _ | _ | _ | _ | _ | _ | _ | _ | _ | _ | _ | c | c | c | c | c | c
  case neg =>
    simp only [ruleP]
    cases firstLit (negOps c) s with
    | none => exact h _ _
    | some fr => exact (h _ _).bind fun _ _ => PLe.refl _
  case value =>
    cases c <;> simp only [ruleP] <;>
    repeat' first
      | exact PLe.refl _
      | exact h _ _
      | refine PLe.bind (h _ _) fun _ _ => ?_
      | refine PLe.or ?_ ?_
      | refine PLe.tok fun _ => ?_
  all_goals simp only [ruleP]
  all_goals
    repeat' first
      | exact PLe.refl _
      | exact h _ _
      | refine PLe.bind (h _ _) fun _ _ => ?_
      | refine PLe.or ?_ ?_
      | refine PLe.tok fun _ => ?_

/-- More fuel does not change a result. -/
theorem parse_mono_succ : ∀ (k : ℕ) (nt : NT) (s : List Char),
    PLe (parse isPred k nt s) (parse isPred (k + 1) nt s) := by
  intro k
  induction k with
  | zero => intro nt s v hv; simp [parse] at hv
  | succ k ih =>
    intro nt s
    rw [parse, parse]
    cases chainOf nt with
    | none => exact rule_mono ih s nt
    | some C => exact (ih _ _).bind fun a r => chain_mono (fun s => ih _ s) k (k + 1) (by omega) a r

theorem parse_mono {k k' : ℕ} (h : k ≤ k') (nt : NT) (s : List Char) :
    PLe (parse isPred k nt s) (parse isPred k' nt s) := by
  induction h with
  | refl => exact PLe.refl _
  | step _ ih => exact fun v hv => parse_mono_succ _ _ _ v (ih v hv)

theorem parse_det {k k' : ℕ} {nt : NT} {s : List Char} {v w : Option ((Ex × Bool) × List Char)}
    (h : parse isPred k nt s = some v) (h' : parse isPred k' nt s = some w) : v = w := by
  rcases Nat.le_total k k' with hk | hk
  · have := parse_mono hk nt s v h
    rw [this] at h'; exact Option.some.inj h'
  · have := parse_mono hk nt s w h'
    rw [this] at h; exact (Option.some.inj h).symm

/-- After this text the repetition of the rule goes no further. -/
def Stuck (isPred : String → Bool) (m : NT) (r : List Char) : Prop :=
  ∀ C, chainOf m = some C → ∀ f r', firstLit C.ops (ows r) = some (f, r') →
    ∀ k v, parse isPred k C.tl (ows r') ≠ some (some v)

/-- The repetitions whose end is the end of the rule. -/
def under : NT → List NT
  | .expr => [.biimp, .impl, .disj, .conj, .sum false, .prod false, .pow false]
  | .quant => [.biimp, .impl, .disj, .conj, .sum false, .prod false, .pow false]
  | .iif => [.biimp, .impl, .disj, .conj, .sum false, .prod false, .pow false]
  | .biimp => [.biimp, .impl, .disj, .conj, .sum false, .prod false, .pow false]
  | .impl => [.impl, .disj, .conj, .sum false, .prod false, .pow false]
  | .disj => [.disj, .conj, .sum false, .prod false, .pow false]
  | .conj => [.conj, .sum false, .prod false, .pow false]
  | .unit => [.sum false, .prod false, .pow false]
  | .comp => [.sum false, .prod false, .pow false]
  | .sum c => [.sum c, .prod c, .pow c]
  | .prod c => [.prod c, .pow c]
  | .neg c => [.pow c]
  | .pow c => [.pow c]
  | _ => []

theorem bind_ok {x : PRes} {f : Ex × Bool → List Char → PRes} {v : (Ex × Bool) × List Char}
    (h : bindP x f = some (some v)) : ∃ a r, x = some (some (a, r)) ∧ f a r = some (some v) := by
  rcases x with _ | _ | ⟨a, r⟩
  · simp [bindP] at h
  · simp [bindP] at h
  · exact ⟨a, r, rfl, h⟩

theorem or_ok {x y : PRes} {v : (Ex × Bool) × List Char} (h : altP x y = some (some v)) :
    x = some (some v) ∨ (x = some none ∧ y = some (some v)) := by
  rcases x with _ | _ | w
  · simp [altP] at h
  · exact Or.inr ⟨rfl, h⟩
  · exact Or.inl h

theorem tok_ok {α : Type} {o : Option α} {f : α → PRes} {v : (Ex × Bool) × List Char}
    (h : tok o f = some (some v)) : ∃ a, o = some a ∧ f a = some (some v) := by
  cases o with
  | none => simp [tok] at h
  | some a => exact ⟨a, rfl, h⟩

theorem okP_ok {a : Ex × Bool} {r : List Char} {v : (Ex × Bool) × List Char}
    (h : okP a r = some (some v)) : v = (a, r) := by
  simp only [okP, Option.some.injEq] at h
  exact h.symm

/-- What holds of the rest when a repetition ends. -/
theorem chain_stuck {ops : List (String × (Ex → Ex → Ex))} {i : Bool} {sub : List Char → PRes}
    {P : List Char → Prop} (hP : ∀ s a r, sub s = some (some (a, r)) → P r) :
    ∀ (k : ℕ) a s v, P s → chain ops i sub k a s = some (some v) →
      P v.2 ∧ ∀ f r', firstLit ops (ows v.2) = some (f, r') → sub (ows r') = some none := by
  intro k
  induction k with
  | zero => intro a s v _ hv; simp [chain] at hv
  | succ k ih =>
    intro a s v hs hv
    simp only [chain] at hv
    cases h1 : firstLit ops (ows s) with
    | none =>
      rw [h1] at hv
      rw [okP_ok hv]
      refine ⟨hs, fun f r' h => ?_⟩
      simp only [h1] at h
      cases h
    | some fr =>
      obtain ⟨f, r⟩ := fr
      rw [h1] at hv
      simp only at hv
      cases h2 : sub (ows r) with
      | none => rw [h2] at hv; simp at hv
      | some w =>
        rw [h2] at hv
        cases w with
        | none =>
          rw [okP_ok hv]
          refine ⟨hs, fun f' r' h => ?_⟩
          simp only [h1, Option.some.injEq, Prod.mk.injEq] at h
          rw [← h.2]; exact h2
        | some br => exact ih _ _ v (hP _ br.1 br.2 h2) hv

theorem bad_rest {s : List Char} {v : (Ex × Bool) × List Char} (h : badExpr s = some (some v)) :
    v.2 = [] ∨ ∃ c t, v.2 = c :: t ∧ (c = ')' ∨ c = '}' ∨ c = ']' ∨ c = ';') := by
  unfold badExpr at h
  split at h
  · cases h
  · rw [okP_ok h]
    simp only
    cases hd : List.dropWhile (fun c => !(c == ')' || c == '}' || c == ']' || c == ';')) s with
    | nil => exact Or.inl rfl
    | cons c t =>
      refine Or.inr ⟨c, t, rfl, ?_⟩
      have := List.head_dropWhile_not (p := fun c => !(c == ')' || c == '}' || c == ']' || c == ';')) (l := s)
        (by rw [hd]; simp)
      simp only [hd, List.head_cons, Bool.not_eq_false', Bool.or_eq_true, beq_iff_eq] at this
      tauto

theorem ows_cons {c : Char} {s : List Char} (h : isBlank c = false) (h' : c ≠ '/') :
    ows (c :: s) = c :: s := by
  simp [ows, owsGo, h, h']

theorem stuck_close {m : NT} {r : List Char}
    (h : r = [] ∨ ∃ c t, r = c :: t ∧ (c = ')' ∨ c = '}' ∨ c = ']' ∨ c = ';')) : Stuck isPred m r := by
  intro C hC f r' hf
  exfalso
  rcases h with rfl | ⟨c, t, rfl, h⟩
  · cases m <;> simp only [chainOf, Option.some.injEq, reduceCtorEq] at hC <;> subst hC <;>
      simp [firstLit, ows, owsGo, lit, litL] at hf
  · have ho : ows (c :: t) = c :: t := by
      rcases h with rfl | rfl | rfl | rfl <;> exact ows_cons (by decide) (by decide)
    rw [ho] at hf
    rcases h with rfl | rfl | rfl | rfl <;>
    (cases m <;> simp only [chainOf, Option.some.injEq, reduceCtorEq] at hC <;> subst hC <;>
      simp [firstLit, lit, litL] at hf)

theorem under_chain {m : NT} {C : Chain} (h : chainOf m = some C) :
    (∀ x ∈ under m, x = m ∨ x ∈ under C.tl) ∧ (∀ x ∈ under m, x = m ∨ x ∈ under C.hd ∨ C.hd = C.tl ∨ ∃ c, m = .pow c) := by
  cases m <;> simp only [chainOf, Option.some.injEq, reduceCtorEq] at h <;> subst h <;> simp [under]

/-- What cannot follow a matched rule. -/
theorem parse_stuck : ∀ (k : ℕ) (nt : NT) (s : List Char) v, parse isPred k nt s = some (some v) →
    ∀ m ∈ under nt, Stuck isPred m v.2 := by
  intro k
  induction k with
  | zero => intro nt s v hv; simp [parse] at hv
  | succ k ih =>
    intro nt s v hv m hm
    rw [parse] at hv
    cases hC : chainOf nt with
    | some C =>
      rw [hC] at hv
      obtain ⟨a, r, h1, h2⟩ := bind_ok hv
      have hP : ∀ x ∈ under nt, x ≠ nt → Stuck isPred x r := by
        intro x hx hne
        rcases (under_chain hC).2 x hx with h | h | h | ⟨c, rfl⟩
        · exact absurd h hne
        · exact ih _ _ _ h1 x h
        · rcases (under_chain hC).1 x hx with h' | h'
          · exact absurd h' hne
          · exact ih _ _ _ h1 x (h ▸ h')
        · simp only [under, List.mem_singleton] at hx; exact absurd hx hne
      have := chain_stuck (P := fun r => ∀ x ∈ under nt, x ≠ nt → Stuck isPred x r)
        (sub := parse isPred k C.tl)
        (by
          intro s a r hs x hx hne
          rcases (under_chain hC).1 x hx with h | h
          · exact absurd h hne
          · exact ih _ _ _ hs x h) k a r v hP h2
      by_cases hmn : m = nt
      · subst hmn
        intro C' hC' f r' hf k' w hw
        rw [hC, Option.some.injEq] at hC'
        subst hC'
        exact absurd (parse_det (this.2 f r' hf) hw) (by simp)
      · exact this.1 m hm hmn
    | none =>
      rw [hC] at hv
      rcases nt with _ | _ | _ | _ | _ | _ | _ | _ | _ | _ | _ | c | c | c | c | c | c <;>
        simp only [chainOf, reduceCtorEq] at hC
      · -- expr
        simp only [ruleP] at hv
        rcases or_ok hv with h | ⟨_, h⟩
        · exact ih _ _ _ h m hm
        rcases or_ok h with h | ⟨_, h⟩
        · exact ih _ _ _ h m hm
        rcases or_ok h with h | ⟨_, h⟩
        · exact ih _ _ _ h m hm
        · exact stuck_close (bad_rest h)
      · -- quant
        simp only [ruleP] at hv
        obtain ⟨_, _, hv⟩ := tok_ok hv
        obtain ⟨_, _, hv⟩ := tok_ok hv
        obtain ⟨_, _, hv⟩ := tok_ok hv
        obtain ⟨_, _, _, hv⟩ := bind_ok hv
        obtain ⟨_, _, hv⟩ := tok_ok hv
        obtain ⟨_, _, h, hv⟩ := bind_ok hv
        rw [okP_ok hv]
        exact ih _ _ _ h m hm
      · -- iif
        simp only [ruleP] at hv
        obtain ⟨_, _, hv⟩ := tok_ok hv
        obtain ⟨_, _, hv⟩ := tok_ok hv
        obtain ⟨_, _, _, hv⟩ := bind_ok hv
        obtain ⟨_, _, hv⟩ := tok_ok hv
        obtain ⟨_, _, hv⟩ := tok_ok hv
        obtain ⟨_, _, hv⟩ := tok_ok hv
        obtain ⟨_, _, _, hv⟩ := bind_ok hv
        obtain ⟨_, _, hv⟩ := tok_ok hv
        obtain ⟨_, _, hv⟩ := tok_ok hv
        obtain ⟨_, _, hv⟩ := tok_ok hv
        obtain ⟨_, _, h, hv⟩ := bind_ok hv
        rw [okP_ok hv]
        exact ih _ _ _ h m hm
      · -- unit
        simp only [ruleP] at hv
        rcases or_ok hv with h | ⟨_, h⟩
        · refine ih _ _ _ h m ?_
          simp only [under, List.mem_cons, List.not_mem_nil, or_false] at hm ⊢
          tauto
        · exact ih _ _ _ h m hm
      · -- comp
        simp only [ruleP] at hv
        obtain ⟨_, _, h, hv⟩ := bind_ok hv
        rcases or_ok hv with h' | ⟨_, h'⟩
        · obtain ⟨_, _, h'⟩ := tok_ok h'
          obtain ⟨_, _, h2, h'⟩ := bind_ok h'
          rw [okP_ok h']
          exact ih _ _ _ h2 m hm
        · rw [okP_ok h']
          exact ih _ _ _ h m hm
      · simp [under] at hm
      · simp [under] at hm
      · -- neg
        simp only [ruleP] at hv
        cases h1 : firstLit (negOps c) s with
        | none => rw [h1] at hv; exact ih _ _ _ hv m hm
        | some fr =>
          rw [h1] at hv
          obtain ⟨_, _, h2, h'⟩ := bind_ok hv
          rw [okP_ok h']
          exact ih _ _ _ h2 m hm
      · simp [under] at hm
      · simp [under] at hm

end Verif.Proofs
