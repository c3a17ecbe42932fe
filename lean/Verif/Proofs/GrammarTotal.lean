import Verif.Proofs.Grammar

/-!
The matching of the expression rules ends for every text, and a match consumes at least one character.
-/

namespace Verif.Proofs

open Verif.Model

variable {isPred : String → Bool}

/-- The matching has ended; if it matched, less than `n` characters are left. -/
def Tot (n : ℕ) (x : PRes) : Prop := ∃ o, x = some o ∧ ∀ a r, o = some (a, r) → r.length < n

theorem tot_fail {n : ℕ} : Tot n (some none) := ⟨none, rfl, by simp⟩

theorem tot_ok {n : ℕ} {a : Ex × Bool} {r : List Char} (h : r.length < n) : Tot n (okP a r) :=
  ⟨_, rfl, fun _ _ h1 => by cases h1; exact h⟩

theorem tot_bind {m n : ℕ} {x : PRes} {f : Ex × Bool → List Char → PRes} (hx : Tot m x)
    (hf : ∀ a r, r.length < m → Tot n (f a r)) : Tot n (bindP x f) := by
  obtain ⟨o, rfl, ho⟩ := hx
  cases o with
  | none => exact tot_fail
  | some v => obtain ⟨a, r⟩ := v; exact hf a r (ho _ _ rfl)

theorem tot_or {n : ℕ} {x y : PRes} (hx : Tot n x) (hy : Tot n y) : Tot n (altP x y) := by
  obtain ⟨o, rfl, ho⟩ := hx
  cases o with
  | none => exact hy
  | some v => exact ⟨_, rfl, ho⟩

theorem tot_tok {n : ℕ} {α : Type} {o : Option α} {f : α → PRes} (h : ∀ a, o = some a → Tot n (f a)) :
    Tot n (tok o f) := by
  cases o with
  | none => exact tot_fail
  | some a => exact h a rfl

theorem owsGo_len : ∀ (s : List Char) (b : Bool), (owsGo b s).length ≤ s.length
  | [], _ => by simp [owsGo]
  | c :: s, b => by
    have h1 := owsGo_len s true
    have h2 := owsGo_len s false
    cases b <;> simp only [owsGo] <;> split_ifs <;> simp only [List.length_cons] <;> omega

theorem ows_len (s : List Char) : (ows s).length ≤ s.length := owsGo_len s false

theorem ws_len {s r : List Char} (h : ws s = some r) : r.length ≤ s.length := by
  rw [ws] at h
  split_ifs at h
  cases h
  exact ows_len s

theorem litL_len : ∀ {w s r : List Char}, litL w s = some r → r.length + w.length = s.length
  | [], s, r, h => by cases h; simp
  | _ :: _, [], r, h => by simp [litL] at h
  | c :: w, d :: s, r, h => by
    rw [litL] at h
    split_ifs at h
    have := litL_len h
    simp only [List.length_cons]
    omega

theorem lit_len {w : String} {s r : List Char} (h : lit w s = some r) (hw : w.toList ≠ []) :
    r.length < s.length := by
  have h1 := litL_len h
  have h2 := List.length_pos_of_ne_nil hw
  omega

theorem firstLit_len {α : Type} : ∀ {l : List (String × α)} {s : List Char} {v : α × List Char},
    firstLit l s = some v → (∀ p ∈ l, p.1.toList ≠ []) → v.2.length < s.length
  | [], _, _, h, _ => by simp [firstLit] at h
  | (w, a) :: l, s, v, h, hw => by
    rw [firstLit] at h
    cases h1 : lit w s with
    | some r =>
      rw [h1] at h
      cases h
      exact lit_len h1 (hw _ (List.mem_cons_self ..))
    | none =>
      rw [h1] at h
      exact firstLit_len h fun p hp => hw p (List.mem_cons_of_mem _ hp)

theorem ident_len {s : List Char} {v : String × List Char} (h : ident s = some v) :
    v.2.length < s.length := by
  cases s with
  | nil => simp [ident] at h
  | cons c s =>
    rw [ident] at h
    split_ifs at h
    cases h
    have := (List.dropWhile_suffix idChar (l := s)).length_le
    simp only [List.length_cons]
    omega

theorem drop_len {p : Char → Bool} {s : List Char} (h : s.takeWhile p ≠ []) :
    (s.dropWhile p).length < s.length := by
  have h1 := congrArg List.length (List.takeWhile_append_dropWhile (p := p) (l := s))
  have h2 := List.length_pos_of_ne_nil h
  simp only [List.length_append] at h1
  omega

theorem tot_nat (s : List Char) : Tot s.length (natP s) := by
  rw [natP]
  split_ifs with h
  · exact tot_fail
  · exact tot_ok (drop_len h)

theorem tot_bad (s : List Char) : Tot s.length (badExpr s) := by
  rw [badExpr]
  split_ifs with h
  · exact tot_fail
  · exact tot_ok (drop_len h)

/-- A rule calls only rules of lower rank at the same place. -/
def rank : NT → ℕ
  | .expr => 15
  | .biimp => 14
  | .impl => 13
  | .disj => 12
  | .conj => 11
  | .unit => 10
  | .comp => 9
  | .sum _ => 8
  | .prod _ => 7
  | .neg _ => 6
  | .pow _ => 5
  | .fcall _ => 4
  | .value _ => 3
  | .quant => 2
  | .iif => 2
  | .dom => 2
  | .vref => 1

theorem tot_chain {ops : List (String × (Ex → Ex → Ex))} (hops : ∀ p ∈ ops, p.1.toList ≠ []) {i : Bool}
    {sub : List Char → PRes} {n : ℕ} (hs : ∀ r, r.length < n → Tot r.length (sub r)) :
    ∀ (k : ℕ) (a : Ex × Bool) (s : List Char), s.length < n → s.length < k →
      Tot n (chain ops i sub k a s)
  | 0, _, _, _, h => by omega
  | k + 1, a, s, h, hk => by
    rw [chain]
    cases h1 : firstLit ops (ows s) with
    | none => exact tot_ok h
    | some v =>
      obtain ⟨f, r⟩ := v
      have h2 := firstLit_len h1 hops
      have h3 := ows_len s
      have h4 := ows_len r
      simp only at h2
      obtain ⟨o, ho, hl⟩ := hs (ows r) (by omega)
      simp only [ho]
      cases o with
      | none => exact tot_ok h
      | some w =>
        obtain ⟨b, r1⟩ := w
        have := hl _ _ rfl
        exact tot_chain hops hs k _ r1 (by omega) (by omega)

theorem chain_rank {nt : NT} {C : Chain} (h : chainOf nt = some C) :
    rank C.hd < rank nt ∧ ∀ p ∈ C.ops, p.1.toList ≠ [] := by
  cases nt <;> simp only [chainOf, Option.some.injEq, reduceCtorEq] at h <;> subst h <;>
    refine ⟨by simp [rank], ?_⟩ <;> simp

theorem rank_le (nt : NT) : rank nt ≤ 15 := by cases nt <;> simp [rank]

theorem tot_rule {p : NT → List Char → PRes} {s : List Char} {nt : NT}
    (h1 : ∀ m r, r.length < s.length → Tot r.length (p m r))
    (h2 : ∀ m, rank m < rank nt → Tot s.length (p m s)) : Tot s.length (ruleP isPred p s nt) := by
  have hp : ∀ m r, r.length < s.length → Tot (ows r).length (p m (ows r)) := fun m r hr =>
    h1 m _ (lt_of_le_of_lt (ows_len r) hr)
  have up : ∀ {m n x}, Tot m x → m ≤ n → Tot n x := fun ⟨o, h, h'⟩ hm =>
    ⟨o, h, fun a r hr => lt_of_lt_of_le (h' a r hr) hm⟩
  cases nt with
  | expr =>
    exact tot_or (h2 _ (by simp [rank])) (tot_or (h2 _ (by simp [rank])) (tot_or (h2 _ (by simp [rank])) (tot_bad s)))
  | quant =>
    refine tot_tok fun v hv => tot_tok fun r2 hr2 => tot_tok fun v3 hv3 => ?_
    have e1 := firstLit_len hv (by simp [quantWords])
    have e2 := ws_len hr2
    have e3 := ident_len hv3
    refine tot_bind (hp _ _ (by omega)) fun a r4 h4 => tot_tok fun r5 hr5 => ?_
    have e5 := lit_len hr5 (by simp)
    have e6 := ows_len r4
    have e7 := ows_len v3.2
    refine tot_bind (hp _ _ (by omega)) fun d r6 h6 => tot_ok ?_
    have e8 := ows_len r5
    omega
  | iif =>
    refine tot_tok fun r1 hr1 => tot_tok fun r2 hr2 => ?_
    have e1 := lit_len hr1 (by simp)
    have e2 := ws_len hr2
    refine tot_bind (h1 _ _ (by omega)) fun a r3 h3 => tot_tok fun r4 hr4 => tot_tok fun r5 hr5 =>
      tot_tok fun r6 hr6 => ?_
    have e4 := ws_len hr4
    have e5 := lit_len hr5 (by simp)
    have e6 := ws_len hr6
    refine tot_bind (h1 _ _ (by omega)) fun b r7 h7 => tot_tok fun r8 hr8 => tot_tok fun r9 hr9 =>
      tot_tok fun r10 hr10 => ?_
    have e8 := ws_len hr8
    have e9 := lit_len hr9 (by simp)
    have e10 := ws_len hr10
    exact tot_bind (h1 _ _ (by omega)) fun c r11 h11 => tot_ok (by omega)
  | unit => exact tot_or (h2 _ (by simp [rank])) (h2 _ (by simp [rank]))
  | comp =>
    refine tot_bind (h2 _ (by simp [rank])) fun a r hr => tot_or ?_ (tot_ok hr)
    refine tot_tok fun v hv => ?_
    have e1 := firstLit_len hv (by simp [cmpOps])
    have e2 := ows_len r
    have e3 := ows_len v.2
    exact tot_bind (hp _ _ (by omega)) fun b r3 h3 => tot_ok (by omega)
  | dom =>
    refine tot_or ?_ ?_
    · refine tot_tok fun r1 hr1 => tot_tok fun v2 hr2 => tot_tok fun r3 hr3 => ?_
      have e1 := lit_len hr1 (by simp)
      have e2 := firstLit_len hr2 (by simp)
      have e3 := lit_len hr3 (by simp)
      have e4 := ows_len r1
      have e5 := ows_len v2.2
      have e6 := ows_len r3
      exact tot_bind (hp _ _ (by omega)) fun a r4 h4 => tot_ok (by omega)
    · refine tot_tok fun r1 hr1 => ?_
      have e1 := lit_len hr1 (by simp)
      have e2 := ows_len r1
      exact tot_bind (hp _ _ (by omega)) fun a r4 h4 => tot_ok (by omega)
  | neg c =>
    rw [ruleP]
    cases h3 : firstLit (negOps c) s with
    | none => exact h2 _ (by simp [rank])
    | some v =>
      have e1 := firstLit_len h3 (by cases c <;> simp [negOps])
      have e2 := ows_len v.2
      exact tot_bind (hp _ _ (by omega)) fun a r4 h4 => tot_ok (by omega)
  | fcall c =>
    refine tot_or ?_ (h2 _ (by simp [rank]))
    refine tot_tok fun v hv => tot_tok fun r2 hr2 => ?_
    have e1 := firstLit_len hv (by simp [callWords])
    have e2 := lit_len hr2 (by simp)
    have e3 := ows_len v.2
    have e4 := ows_len r2
    refine tot_bind (hp _ _ (by omega)) fun a r5 h5 => tot_tok fun r6 hr6 => ?_
    have e6 := lit_len hr6 (by simp)
    have e7 := ows_len r5
    have e8 := ows_len r6
    refine tot_bind (hp _ _ (by omega)) fun a r9 h9 => tot_tok fun r10 hr10 => tot_ok ?_
    have e10 := lit_len hr10 (by simp)
    have e11 := ows_len r9
    omega
  | value c =>
    cases c with
    | false =>
      refine tot_or (h2 _ (by simp [rank])) (tot_or (tot_nat s) ?_)
      refine tot_tok fun r1 hr1 => ?_
      have e1 := lit_len hr1 (by simp)
      have e2 := ows_len r1
      refine tot_bind (hp _ _ (by omega)) fun a r3 h3 => tot_tok fun r4 hr4 => tot_ok ?_
      have e3 := lit_len hr4 (by simp)
      have e4 := ows_len r3
      omega
    | true =>
      refine tot_or (tot_nat s) (tot_or (tot_tok fun v hv => tot_ok (ident_len hv)) ?_)
      refine tot_tok fun r1 hr1 => ?_
      have e1 := lit_len hr1 (by simp)
      have e2 := ows_len r1
      refine tot_bind (hp _ _ (by omega)) fun a r3 h3 => tot_tok fun r4 hr4 => tot_ok ?_
      have e3 := lit_len hr4 (by simp)
      have e4 := ows_len r3
      omega
  | vref =>
    refine tot_tok fun v hv => tot_or ?_ (tot_ok (ident_len hv))
    have e0 := ident_len hv
    refine tot_tok fun r1 hr1 => ?_
    have e1 := lit_len hr1 (by simp)
    have e2 := ows_len r1
    refine tot_bind (hp _ _ (by omega)) fun a r3 h3 => tot_tok fun r4 hr4 => tot_ok ?_
    have e3 := lit_len hr4 (by simp)
    have e4 := ows_len r3
    omega
  | _ => exact tot_fail

/-- The recursion depth needed is at most 16 times the length of the text, plus 16. -/
theorem parse_tot : ∀ (M : ℕ) (nt : NT) (s : List Char), 16 * s.length + rank nt ≤ M →
    Tot s.length (parse isPred (M + 1) nt s) := by
  intro M
  induction M with
  | zero => intro nt s h; exact absurd h (by cases nt <;> simp [rank])
  | succ M ih =>
    intro nt s h
    have h1 : ∀ m r, r.length < s.length → Tot r.length (parse isPred (M + 1) m r) := fun m r hr =>
      ih m r (by have := rank_le m; omega)
    rw [parse]
    cases hc : chainOf nt with
    | none => exact tot_rule h1 fun m hm => ih m s (by omega)
    | some C =>
      obtain ⟨hr, ho⟩ := chain_rank hc
      exact tot_bind (ih _ _ (by omega)) fun a r hr' => tot_chain ho (h1 _) _ _ _ hr' (by omega)

end Verif.Proofs
