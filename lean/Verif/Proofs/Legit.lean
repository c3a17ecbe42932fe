import Verif.Proofs.GrammarTrip
import Verif.Proofs.Action
import Verif.Spec.Legit

/-!
Reading of texts joined by `&&` with any blanks around it.
-/

namespace Verif.Proofs

open Verif.Model Verif.Spec

variable {isPred : String → Bool}

theorem ows_blanks : ∀ {a : List Char} {s : List Char}, (∀ c ∈ a, isBlank c = true) → ows (a ++ s) = ows s
  | [], _, _ => rfl
  | c :: a, s, h => by
    have := ows_blanks (a := a) (s := s) fun d hd => h d (by simp [hd])
    rw [← this]
    simp [ows, owsGo, h c (by simp)]

/-- `&&` with blanks around it. -/
def SepOk (sep : List Char) : Prop :=
  ∃ c a b, sep = c :: a ++ '&' :: '&' :: b ∧ isBlank c = true ∧ (∀ d ∈ a, isBlank d = true) ∧
    ∀ d ∈ b, isBlank d = true

theorem sep_pc : SepOk pcSep := ⟨' ', [], [' '], rfl, by decide, by simp, by decide⟩

theorem sep_global : SepOk globalSep :=
  ⟨'\n', "  ".toList, "\n  ".toList, rfl, by decide, by decide, by decide⟩

theorem blank_props {c : Char} (h : isBlank c = true) : idChar c = false ∧ c ≠ '[' := by
  simp only [isBlank, Bool.or_eq_true, beq_iff_eq] at h
  rcases h with ((rfl | rfl) | rfl) | rfl <;> exact ⟨by decide, by decide⟩

theorem sep_ows {sep : List Char} (h : SepOk sep) {c : Char} {t : List Char} (hc : startC c = true) :
    ∃ r, ows (sep ++ c :: t) = '&' :: '&' :: r ∧ ows r = c :: t := by
  obtain ⟨d, a, b, rfl, h1, h2, h3⟩ := h
  refine ⟨b ++ c :: t, ?_, ?_⟩
  · rw [show (d :: a ++ '&' :: '&' :: b) ++ c :: t = (d :: a) ++ ('&' :: '&' :: (b ++ c :: t)) by simp,
      ows_blanks (by simpa [h1] using h2)]
    exact ows_cons (by decide) (by decide)
  · rw [ows_blanks h3]; exact ows_start hc

theorem sep_fol {sep : List Char} (h : SepOk sep) {c : Char} {t : List Char} (hc : startC c = true) :
    Fol isPred .unit (sep ++ c :: t) := by
  obtain ⟨r, h1, _⟩ := sep_ows h (t := t) hc
  obtain ⟨d, a, b, rfl, h2, h3, h4⟩ := h
  refine fol_head ?_ h1 ?_ ?_
  · exact nameEnd_cons (blank_props h2).1 (blank_props h2).2 h1 (by decide)
  · decide
  · decide

/-- The text of the further parts. -/
def tailText (l : List (List Char × Ex)) : List Char := l.flatMap fun x => x.1 ++ exText x.2

/-- The parts can be joined: `&&` between them, each of them a part of a conjunction, and only the last
may be an open quantifier. -/
def TailAnd (isPred : String → Bool) : List (List Char × Ex) → Prop
  | [] => True
  | x :: l => SepOk x.1 ∧ (∃ i, Shape isPred .unit x.2 i) ∧ (l ≠ [] → openR x.2 = false) ∧ TailAnd isPred l

theorem unit_fol {r : List Char} (h : Fol isPred .expr r) : Fol isPred .unit r := by
  obtain ⟨h1, h2, h3⟩ := h
  refine ⟨h1, fun m hm => h2 m ?_, fun _ => h3 rfl⟩
  simp only [under, List.mem_cons, List.not_mem_nil, or_false] at hm ⊢
  tauto

theorem tail_fol {l : List (List Char × Ex)} (hl : TailAnd isPred l) {r : List Char}
    (h : Fol isPred .expr r) : Fol isPred .unit (tailText l ++ r) := by
  cases l with
  | nil => exact unit_fol h
  | cons x l =>
    obtain ⟨h1, ⟨i, h2⟩, _⟩ := hl
    obtain ⟨c, t, he, hc, _⟩ := (shape_back h2).start
    have := sep_fol (isPred := isPred) h1 (t := t ++ (tailText l ++ r)) hc
    simpa [tailText, he] using this

/-- The trees of a conjunction. -/
def andsEx (e : Ex) (l : List (List Char × Ex)) : Ex := conjEx e (l.map Prod.snd)

theorem chain_tail {r : List Char} (hr : Fol isPred .expr r) :
    ∀ (l : List (List Char × Ex)) (a : Ex × Bool), TailAnd isPred l →
      ∃ K, ∀ k ≥ K, ∀ m ≥ l.length + 1,
        chain [("&&", Ex.and)] false (parse isPred k .unit) m a (tailText l ++ r) =
          okP (andsEx a.1 l, if l = [] then a.2 else false) r
  | [], a, _ => by
    have hst := hr.2.1 .conj (by simp [under]) _ rfl
    cases hf : firstLit [("&&", Ex.and)] (ows r) with
    | none =>
      refine ⟨0, fun k _ m hm => ?_⟩
      obtain ⟨m, rfl⟩ : ∃ j, m = j + 1 := ⟨m - 1, by simp at hm; omega⟩
      simp [chain, tailText, hf, andsEx, conjEx]
    | some fr =>
      obtain ⟨f, r'⟩ := fr
      obtain ⟨K, hK⟩ := hst f r' hf
      refine ⟨K, fun k hk m hm => ?_⟩
      obtain ⟨m, rfl⟩ : ∃ j, m = j + 1 := ⟨m - 1, by simp at hm; omega⟩
      simp [chain, tailText, hf, hK k hk, andsEx, conjEx]
  | x :: l, a, h => by
    obtain ⟨h1, ⟨i, h2⟩, h3, h4⟩ := h
    obtain ⟨c, t, he, hc, _⟩ := (shape_back h2).start
    obtain ⟨r1, hr1, hr2⟩ := sep_ows h1 (t := t ++ (tailText l ++ r)) hc
    have htx : tailText (x :: l) ++ r = x.1 ++ c :: (t ++ (tailText l ++ r)) := by
      simp [tailText, he]
    have ho : openR x.2 = true → Fol isPred .expr (tailText l ++ r) := by
      intro h
      by_cases hl : l = []
      · subst hl; exact hr
      · rw [h3 hl] at h; cases h
    obtain ⟨K1, hK1⟩ := (shape_back h2).read (tailText l ++ r) (tail_fol h4 hr) ho
    obtain ⟨K2, hK2⟩ := chain_tail hr l (.and a.1 x.2, false) h4
    refine ⟨K1 + K2, fun k hk m hm => ?_⟩
    obtain ⟨m, rfl⟩ : ∃ j, m = j + 1 := ⟨m - 1, by simp at hm; omega⟩
    have hp := hK1 k (by omega)
    rw [he] at hp
    rw [htx]
    simp only [chain, hr1, firstLit, lit, litL, show "&&".toList = ['&', '&'] from rfl, if_true, hr2]
    rw [List.cons_append] at hp
    rw [hp]
    simp only
    rw [hK2 k (by omega) m (by simp at hm; omega)]
    simp [andsEx, conjEx]

theorem reads_chain {nt : NT} {C : Chain} (hC : chainOf nt = some C) {s r : List Char} {a : Ex × Bool}
    (h : Reads isPred C.hd s (some (a, r))) (hs : Stops isPred nt r) : Reads isPred nt s (some (a, r)) := by
  obtain ⟨K, hK⟩ := h
  cases hf : firstLit C.ops (ows r) with
  | none =>
    refine ⟨K + 2, fun k hk => ?_⟩
    obtain ⟨k, rfl⟩ : ∃ j, k = j + 2 := ⟨k - 2, by omega⟩
    rw [parse, hC]
    simp [hK (k + 1) (by omega), bindP, chain, hf, okP]
  | some fr =>
    obtain ⟨f, r'⟩ := fr
    obtain ⟨K', hK'⟩ := hs C hC f r' hf
    refine ⟨K + K' + 2, fun k hk => ?_⟩
    obtain ⟨k, rfl⟩ : ∃ j, k = j + 2 := ⟨k - 2, by omega⟩
    rw [parse, hC]
    simp [hK (k + 1) (by omega), bindP, chain, hf, hK' (k + 1) (by omega), okP]

theorem unit_expr {e : Ex} {i : Bool} (h : Shape isPred .unit e i) : Shape isPred .expr e i :=
  shape_expr (.up (nt := .conj) rfl h)

/-- Joined parts are read as the conjunction; the first is any text. -/
theorem ands_text {w : List Char} {u : Ex} {i : Bool} {l : List (List Char × Ex)} {r : List Char}
    (hu : Reads isPred .unit (w ++ (tailText l ++ r)) (some ((u, i), tailText l ++ r)))
    (hk : KwOk (w ++ (tailText l ++ r))) (hl : TailAnd isPred l) (hr : Fol isPred .expr r) :
    Reads isPred .expr (w ++ (tailText l ++ r))
      (some ((andsEx u l, if l = [] then i else false), r)) := by
  obtain ⟨K1, hK1⟩ := hu
  obtain ⟨K2, hK2⟩ := chain_tail hr l (u, i) hl
  have hconj : Reads isPred .conj (w ++ (tailText l ++ r))
      (some ((andsEx u l, if l = [] then i else false), r)) := by
    refine ⟨K1 + K2 + l.length + 3, fun k hk => ?_⟩
    obtain ⟨k, rfl⟩ : ∃ j, k = j + 1 := ⟨k - 1, by omega⟩
    rw [parse]
    simp only [chainOf, hK1 k (by omega), bindP]
    rw [hK2 k (by omega) k (by omega)]
    rfl
  have hdisj := reads_chain (nt := .disj) rfl hconj (hr.2.1 _ (by simp [under]))
  have himpl := reads_chain (nt := .impl) rfl hdisj (hr.2.1 _ (by simp [under]))
  have hbi := reads_chain (nt := .biimp) rfl himpl (hr.2.1 _ (by simp [under]))
  obtain ⟨A, hA⟩ := quant_none (isPred := isPred) hk
  obtain ⟨B, hB⟩ := iif_none (isPred := isPred) hk
  obtain ⟨D, hD⟩ := hbi
  refine reads_rule (K := A + B + D) rfl fun k hk => ?_
  simp [ruleP, hA k (by omega), hB k (by omega), hD k (by omega), altP]

/-- Joined parts are read as the conjunction. -/
theorem ands_read {u : Ex} {i : Bool} (hu : Shape isPred .unit u i) {l : List (List Char × Ex)}
    (hl : TailAnd isPred l) (ho : l ≠ [] → openR u = false) {r : List Char} (hr : Fol isPred .expr r) :
    Reads isPred .expr (exText u ++ (tailText l ++ r))
      (some ((andsEx u l, if l = [] then i else false), r)) := by
  by_cases hl0 : l = []
  · subst hl0
    simpa [tailText, andsEx, conjEx] using (shape_back (unit_expr hu)).read r hr fun _ => hr
  have hf := tail_fol hl hr
  exact ands_text ((shape_back hu).read (tailText l ++ r) hf fun h => by rw [ho hl0] at h; cases h)
    ((shape_back hu).kw (by simp) (isQ_open (ho hl0)) _ hf.1) hl hr

/-- A text in parentheses. -/
theorem par_reads {s r : List Char} {t : Ex × Bool} (h : Reads isPred .expr (s ++ ')' :: r) (some (t, ')' :: r)))
    (hs : ows (s ++ ')' :: r) = s ++ ')' :: r) (hr : Fol isPred .unit r) :
    Reads isPred .unit ('(' :: (s ++ ')' :: r)) (some ((if t.2 then .castI t.1 else .castB t.1, t.2), r)) := by
  have hid : ident ('(' :: (s ++ ')' :: r)) = none := by simp [ident, show Char.isAlpha '(' = false by decide]
  have hv : Reads isPred .vref ('(' :: (s ++ ')' :: r)) none :=
    reads_rule (K := 0) rfl fun k _ => by simp [ruleP, hid, tok]
  have hn : natP ('(' :: (s ++ ')' :: r)) = some none := by
    simp [natP, show Char.isDigit '(' = false by decide]
  have h1 : Reads isPred (.value false) ('(' :: (s ++ ')' :: r))
      (some ((if t.2 then .castI t.1 else .castB t.1, t.2), r)) := by
    obtain ⟨K, hK⟩ := h
    obtain ⟨A, hA⟩ := hv
    refine reads_rule (K := K + A) rfl fun k hk => ?_
    have ho : ows (')' :: r) = ')' :: r := ows_cons (by decide) (by decide)
    simp [ruleP, hA k (by omega), hn, altP, tok, lit, litL, hs, hK k (by omega), bindP, ho, okP]
  have h2 : Reads isPred (.fcall false) ('(' :: (s ++ ')' :: r))
      (some ((if t.2 then .castI t.1 else .castB t.1, t.2), r)) := by
    obtain ⟨K, hK⟩ := h1
    refine reads_rule (K := K) rfl fun k hk => ?_
    simp [ruleP, callWords, firstLit, lit, litL, tok, altP, hK k hk]
  have h3 := reads_chain (nt := .pow false) rfl h2 (hr.2.1 _ (by simp [under]))
  have h4 : Reads isPred (.neg false) ('(' :: (s ++ ')' :: r))
      (some ((if t.2 then .castI t.1 else .castB t.1, t.2), r)) := by
    obtain ⟨K, hK⟩ := h3
    refine reads_rule (K := K) rfl fun k hk => ?_
    simp [ruleP, negOps, firstLit, lit, litL, hK k hk]
  have h5 := reads_chain (nt := .prod false) rfl h4 (hr.2.1 _ (by simp [under]))
  have h6 := reads_chain (nt := .sum false) rfl h5 (hr.2.1 _ (by simp [under]))
  have h7 : Reads isPred .comp ('(' :: (s ++ ')' :: r))
      (some ((if t.2 then .castI t.1 else .castB t.1, t.2), r)) := by
    obtain ⟨K, hK⟩ := h6
    cases hc : firstLit cmpOps (ows r) with
    | none =>
      refine reads_rule (K := K) rfl fun k hk => ?_
      simp [ruleP, hK k hk, bindP, hc, tok, altP, okP]
    | some x =>
      obtain ⟨o, r'⟩ := x
      obtain ⟨A, hA⟩ := hr.2.2 rfl o r' hc
      refine reads_rule (K := K + A) rfl fun k hk => ?_
      simp [ruleP, hK k (by omega), bindP, hc, tok, altP, okP, hA k (by omega)]
  obtain ⟨K, hK⟩ := h7
  obtain ⟨A, hA⟩ := quant_none (isPred := isPred) (kw_head (c := '(') (t := s ++ ')' :: r) (by decide))
  refine reads_rule (K := K + A) rfl fun k hk => ?_
  simp [ruleP, hK k (by omega), hA k (by omega), altP]

/-! ### The parts -/

theorem expr_conj {e : Ex} {i : Bool} (h : Shape isPred .expr e i) (hb : bindsAnd e = true) :
    Shape isPred .conj e i := by
  have hd : ∀ {nt : NT} {e : Ex} {i : Bool}, Shape isPred nt e i → bindsAnd e = true →
      nt = .biimp ∨ nt = .impl ∨ nt = .disj ∨ nt = .conj → Shape isPred .conj e i := by
    intro nt e i h
    induction h with
    | @up nt C e i hC h ih =>
      intro hb hn
      rcases hn with rfl | rfl | rfl | rfl <;> simp only [chainOf, Option.some.injEq] at hC <;> subst hC
      · exact ih hb (by simp)
      · exact ih hb (by simp)
      · exact ih hb (by simp)
      · exact .up (nt := .conj) rfl h
    | @chain nt C w f a b i j hC hw h1 h2 h3 ih1 ih2 =>
      intro hb hn
      rcases hn with rfl | rfl | rfl | rfl <;> simp only [chainOf, Option.some.injEq] at hC <;> subst hC
      · simp only [List.mem_singleton, Prod.mk.injEq] at hw
        obtain ⟨_, rfl⟩ := hw; simp [bindsAnd] at hb
      · simp only [List.mem_singleton, Prod.mk.injEq] at hw
        obtain ⟨_, rfl⟩ := hw; simp [bindsAnd] at hb
      · simp only [List.mem_singleton, Prod.mk.injEq] at hw
        obtain ⟨_, rfl⟩ := hw; simp [bindsAnd] at hb
      · exact .chain (nt := .conj) rfl hw h1 h2 h3
    | _ => intro _ hn; rcases hn with h | h | h | h <;> cases h
  cases h with
  | biimp h => exact hd h hb (by simp)
  | iif _ _ _ => simp [bindsAnd] at hb
  | up hC _ => simp [chainOf] at hC
  | chain hC _ _ _ _ => simp [chainOf] at hC

theorem open_ands : ∀ (l : List (List Char × Ex)) (e : Ex),
    openR (andsEx e l) = openR ((l.getLast?.map Prod.snd).getD e)
  | [], e => rfl
  | [x], e => rfl
  | x :: y :: l, e => by
    have := open_ands (y :: l) (.and e x.2)
    rw [List.getLast?_cons_cons]
    have h2 : ((y :: l).getLast?.map Prod.snd).getD (.and e x.2) = ((y :: l).getLast?.map Prod.snd).getD e := by
      cases h : (y :: l).getLast? with
      | none => simp at h
      | some z => rfl
    rw [← h2, ← this]
    rfl

theorem tail_snoc : ∀ {l : List (List Char × Ex)} {x : List Char × Ex}, TailAnd isPred l →
    (∀ y, l.getLast? = some y → openR y.2 = false) → SepOk x.1 → (∃ i, Shape isPred .unit x.2 i) →
    TailAnd isPred (l ++ [x])
  | [], x, _, _, h3, h4 => ⟨h3, h4, by simp, trivial⟩
  | y :: l, x, h1, h2, h3, h4 => by
    obtain ⟨a, b, c, d⟩ := h1
    refine ⟨a, b, fun _ => ?_, tail_snoc d ?_ h3 h4⟩
    · by_cases hl : l = []
      · subst hl; exact h2 y (by simp)
      · exact c hl
    · intro z hz
      refine h2 z ?_
      cases l with
      | nil => simp at hz
      | cons w l => rwa [List.getLast?_cons_cons]

/-- A conjunction and its parts. -/
theorem conj_parts {e : Ex} {i : Bool} (h : Shape isPred .conj e i) :
    ∃ u l, (∃ j, Shape isPred .unit u j) ∧ TailAnd isPred l ∧ (l ≠ [] → openR u = false) ∧
      andsEx u l = e ∧ exText u ++ tailText l = exText e := by
  have main : ∀ {nt : NT} {e : Ex} {i : Bool}, Shape isPred nt e i → nt = .conj →
      ∃ u l, (∃ j, Shape isPred .unit u j) ∧ TailAnd isPred l ∧ (l ≠ [] → openR u = false) ∧
        andsEx u l = e ∧ exText u ++ tailText l = exText e := by
    intro nt e i h
    induction h with
    | @up nt C e i hC h ih =>
      rintro rfl
      simp only [chainOf, Option.some.injEq] at hC
      subst hC
      exact ⟨e, [], ⟨i, h⟩, trivial, by simp, rfl, by simp [tailText]⟩
    | @chain nt C w f a b i j hC hw h1 h2 h3 ih1 ih2 =>
      rintro rfl
      simp only [chainOf, Option.some.injEq] at hC
      subst hC
      simp only [List.mem_singleton, Prod.mk.injEq] at hw
      obtain ⟨rfl, rfl⟩ := hw
      obtain ⟨u, l, g1, g2, g3, g4, g5⟩ := ih1 rfl
      simp only [endOk, Bool.and_eq_true, Bool.not_eq_true'] at h2
      have ho := h2.1
      rw [← g4, open_ands] at ho
      refine ⟨u, l ++ [(pcSep, b)], g1, tail_snoc g2 ?_ sep_pc ⟨j, h3⟩, fun _ => ?_, ?_, ?_⟩
      · intro y hy; simpa [hy] using ho
      · by_cases hl : l = []
        · subst hl; exact ho
        · exact g3 hl
      · simp [andsEx, conjEx, ← g4]
      · simp only [exText, strEx, tailText, List.flatMap_append, List.flatMap_singleton, pcSep] at g5 ⊢
        rw [← g5]; simp
    | _ => intro h; cases h
  exact main h rfl

/-! ### Assumptions -/

/-- The tree of the text of `parend_string_expression`. -/
def parTree (e : Ex) (i : Bool) : Ex :=
  match e with
  | .castB b => .castB b
  | .castI b => .castI b
  | e => if i then .castI e else .castB e

theorem conj_unit {e : Ex} {i : Bool} (h : Shape isPred .conj e i) (hn : ∀ b c, e ≠ .and b c) :
    Shape isPred .unit e i := by
  cases h with
  | up hC h =>
    simp only [chainOf, Option.some.injEq] at hC
    subst hC; exact h
  | chain hC hw _ _ _ =>
    simp only [chainOf, Option.some.injEq] at hC
    subst hC
    simp only [List.mem_singleton, Prod.mk.injEq] at hw
    obtain ⟨_, rfl⟩ := hw
    exact absurd rfl (hn _ _)

theorem value_unit {e : Ex} {i : Bool} (h : Shape isPred (.value false) e i) : Shape isPred .unit e i :=
  .comp (.sum (shape_sum h))

theorem par_shape {e : Ex} {i : Bool} (h : Shape isPred .expr e i) :
    Shape isPred .unit (parTree e i) i ∧ openR (parTree e i) = false ∧
      exText (parTree e i) = parendEx (fun _ => none) e := by
  by_cases hB : ∃ b, e = .castB b
  · obtain ⟨b, rfl⟩ := hB
    exact ⟨conj_unit (expr_conj h rfl) (fun b c h => by cases h), rfl, rfl⟩
  by_cases hI : ∃ b, e = .castI b
  · obtain ⟨b, rfl⟩ := hI
    exact ⟨conj_unit (expr_conj h rfl) (fun b c h => by cases h), rfl, rfl⟩
  have h1 : parTree e i = if i then .castI e else .castB e := by
    unfold parTree
    split
    · exact absurd ⟨_, rfl⟩ hB
    · exact absurd ⟨_, rfl⟩ hI
    · rfl
  have h2 : parendEx (fun _ => none) e = "(".toList ++ exText e ++ ")".toList := by
    unfold parendEx
    split
    · exact absurd ⟨_, rfl⟩ hB
    · exact absurd ⟨_, rfl⟩ hI
    · rfl
  rw [h1, h2]
  cases i
  · exact ⟨value_unit (.parB h), rfl, rfl⟩
  · exact ⟨value_unit (.parI h), rfl, rfl⟩

/-- The tree of the text of assumptions. -/
theorem assume_text {sep : List Char} (hs : SepOk sep) {P : Ex → Bool → Prop} : ∀ {es : List Ex}, es ≠ [] →
    (∀ e ∈ es, ∃ i, Shape isPred .expr e i ∧ P e i) →
    ∃ u l, (∃ j, Shape isPred .unit u j) ∧ TailAnd isPred l ∧ openR u = false ∧
      (∀ x ∈ l, openR x.2 = false) ∧
      exText u ++ tailText l = es.foldl (joinAssume sep) [] ∧
      List.Forall₂ (fun e t => ∃ i, P e i ∧ t = parTree e i) es (u :: l.map Prod.snd) := by
  intro es
  induction es using List.reverseRecOn with
  | nil => intro h; exact absurd rfl h
  | append_singleton es e ih =>
    intro _ he
    obtain ⟨i, h1, h2⟩ := he e (by simp)
    obtain ⟨p1, p2, p3⟩ := par_shape h1
    by_cases h0 : es = []
    · subst h0
      refine ⟨parTree e i, [], ⟨i, p1⟩, trivial, p2, by simp, ?_, ?_⟩
      · simp [tailText, joinAssume, p3]
      · exact .cons ⟨i, h2, rfl⟩ .nil
    · obtain ⟨u, l, g1, g2, g3, g4, g5, g6⟩ := ih h0 fun x hx => he x (by simp [hx])
      refine ⟨u, l ++ [(sep, parTree e i)], g1, tail_snoc g2 ?_ hs ⟨i, p1⟩, g3, ?_, ?_, ?_⟩
      · intro y hy; exact g4 y (List.mem_of_mem_getLast? hy)
      · intro x hx
        rcases List.mem_append.1 hx with hx | hx
        · exact g4 x hx
        · simp only [List.mem_singleton] at hx; subst hx; exact p2
      · have hne : es.foldl (joinAssume sep) [] ≠ [] := by
          obtain ⟨j, g1⟩ := g1
          obtain ⟨c, t, hc, _⟩ := (shape_back g1).start
          rw [← g5, hc]; simp
        rw [List.foldl_append]
        simp only [List.foldl_cons, List.foldl_nil]
        rw [joinAssume, if_neg hne, ← g5, ← p3]
        simp [tailText]
      · rw [List.map_append, ← List.cons_append]
        exact List.rel_append g6 (List.Forall₂.cons ⟨i, h2, rfl⟩ .nil)

/-! ### Invariants -/

/-- `t` and the parts of `e`. -/
def andInto (t : Ex) (e : Ex) : Ex :=
  match e with
  | .and b c => .and (andInto t b) c
  | e => .and t e

theorem andInto_ands : ∀ (l : List (List Char × Ex)) (t u : Ex), (∀ b c, u ≠ .and b c) →
    andInto t (andsEx u l) = andsEx t (([], u) :: l) := by
  intro l
  induction l using List.reverseRecOn with
  | nil =>
    intro t u hu
    cases u <;> first | rfl | exact absurd rfl (hu _ _)
  | append_singleton l x ih =>
    intro t u hu
    have := ih t u hu
    simp only [andsEx, conjEx, List.map_append, List.foldl_append, List.map_cons, List.map_nil, List.foldl_cons,
      List.foldl_nil] at this ⊢
    simp only [andInto, this]

/-- The tree of the text of invariants, one added to the tree of the others. -/
def nextTree (t : Ex × Bool) (e : Ex) : Ex × Bool :=
  (andInto (if t.2 then .castI t.1 else .castB t.1) e, false)

theorem unit_notAnd {e : Ex} {i : Bool} (h : Shape isPred .unit e i) : ∀ b c, e ≠ .and b c := by
  have main : ∀ {nt : NT} {e : Ex} {i : Bool}, Shape isPred nt e i → nt = .unit ∨ low nt = true →
      ∀ b c, e ≠ .and b c := by
    intro nt e i h
    induction h with
    | name _ _ => simp
    | num => simp
    | aref _ _ _ => simp
    | parI _ _ => simp
    | parB _ _ => simp
    | cpar _ _ => simp
    | val _ ih => intro _; exact ih (by simp [low])
    | call _ _ _ _ _ => simp
    | pow _ ih => intro _; exact ih (by simp [low])
    | @neg c w f e i hw _ _ =>
      intro _ b c'
      cases c <;> simp only [negOps, List.mem_cons, Prod.mk.injEq, List.not_mem_nil, or_false] at hw
      · rcases hw with ⟨_, rfl⟩ | ⟨_, rfl⟩ <;> simp
      · obtain ⟨_, rfl⟩ := hw; simp
    | @up nt C e i hC _ ih =>
      intro hn
      refine ih ?_
      cases nt <;> simp only [chainOf, Option.some.injEq, reduceCtorEq] at hC <;> subst hC <;>
        simp_all [low]
    | @chain nt C w f a b i j hC hw _ _ _ _ _ =>
      intro hn
      cases nt <;> simp only [chainOf, Option.some.injEq, reduceCtorEq] at hC <;> subst hC <;>
        simp only [low, reduceCtorEq, Bool.false_eq_true, or_self] at hn
      all_goals
        simp only [List.mem_cons, Prod.mk.injEq, List.not_mem_nil, or_false] at hw
        first
          | (obtain ⟨_, rfl⟩ := hw; simp; done)
          | ((rcases hw with ⟨_, rfl⟩ | ⟨_, rfl⟩ <;> simp); done)
          | (rcases hw with ⟨_, rfl⟩ | ⟨_, rfl⟩ | ⟨_, rfl⟩ <;> simp)
    | sum _ ih => intro _; exact ih (by simp [low])
    | @cmp w o a b i j hw _ _ hn _ _ =>
      intro _ b' c'
      cases o <;> simp only [cmpTree] <;> split <;> simp [CmpOp.tree]
    | comp _ ih => intro _; exact ih (by simp [low])
    | quant _ _ _ _ _ _ => simp
    | biimp _ _ => intro h; simp [low] at h
    | iif _ _ _ _ _ _ => simp
  exact main h (by simp)

theorem legit_step {sep : List Char} (hs : SepOk sep) {s : List Char} {t : Ex × Bool}
    (hsc : ∀ r, Fol isPred .expr r → Reads isPred .expr (s ++ r) (some (t, r)))
    (hst : ∃ c u, s = c :: u ∧ startC c = true)
    {e : Ex} {i : Bool} (h : Shape isPred .expr e i) (hb : bindsAnd e = true) {r : List Char}
    (hr : Fol isPred .expr r) :
    Reads isPred .expr (joinLegit sep s e ++ r) (some (nextTree t e, r)) := by
  obtain ⟨u, l, ⟨j, g1⟩, g2, g3, g4, g5⟩ := conj_parts (expr_conj h hb)
  obtain ⟨c, v, hcv, hc⟩ := hst
  have hl : TailAnd isPred ((sep, u) :: l) := ⟨hs, ⟨j, g1⟩, g3, g2⟩
  have hne : s ≠ [] := by simp [hcv]
  have ht : joinLegit sep s e ++ r = ('(' :: (s ++ [')'])) ++ (tailText ((sep, u) :: l) ++ r) := by
    rw [joinLegit, if_neg hne, ← g5]
    simp [tailText]
  have hp := par_reads (isPred := isPred) (hsc (')' :: (tailText ((sep, u) :: l) ++ r)) (fol_close (by simp)))
    (by rw [hcv]; exact ows_start hc) (tail_fol hl hr)
  have := ands_text (isPred := isPred) (w := '(' :: (s ++ [')'])) (l := (sep, u) :: l) (r := r)
    (u := if t.2 then .castI t.1 else .castB t.1) (i := t.2) (by simpa using hp)
    (by simpa using kw_head (by decide)) hl hr
  rw [ht]
  simp only [List.cons_ne_nil, if_false] at this
  have h2 : nextTree t e = (andsEx (if t.2 then .castI t.1 else .castB t.1) ((sep, u) :: l), false) := by
    rw [nextTree, ← g4, andInto_ands _ _ _ (unit_notAnd g1)]
    rfl
  rw [h2]
  exact this

/-- The trees of the text of invariants. -/
theorem legit_text {sep : List Char} (hs : SepOk sep) {e : Ex} {i : Bool} (he : Shape isPred .expr e i) :
    ∀ {es : List Ex}, (∀ x ∈ es, bindsAnd x = true ∧ ∃ j, Shape isPred .expr x j) →
    (∀ r, Fol isPred .expr r → Reads isPred .expr ((e :: es).foldl (joinLegit sep) [] ++ r)
      (some (es.foldl nextTree (e, i), r))) ∧
    ∃ c u, (e :: es).foldl (joinLegit sep) [] = c :: u ∧ startC c = true := by
  intro es
  induction es using List.reverseRecOn with
  | nil =>
    intro _
    have ht : [e].foldl (joinLegit sep) [] = exText e := by simp [joinLegit]
    rw [ht]
    refine ⟨fun r hr => (shape_back he).read r hr fun _ => hr, ?_⟩
    obtain ⟨c, t, h1, h2, _⟩ := (shape_back he).start
    exact ⟨c, t, h1, h2⟩
  | append_singleton es x ih =>
    intro hx
    obtain ⟨h1, h2⟩ := ih fun y hy => hx y (by simp [hy])
    obtain ⟨h3, j, h4⟩ := hx x (by simp)
    have ht : (e :: (es ++ [x])).foldl (joinLegit sep) [] =
        joinLegit sep ((e :: es).foldl (joinLegit sep) []) x := by
      rw [← List.cons_append, List.foldl_append]; rfl
    rw [ht, List.foldl_append]
    refine ⟨fun r hr => legit_step hs h1 h2 h4 h3 hr, ?_⟩
    obtain ⟨c, u, h5, _⟩ := h2
    rw [joinLegit, if_neg (by simp [h5])]
    exact ⟨'(', _, rfl, by decide⟩

end Verif.Proofs
