import Verif.Proofs.GrammarRead

/-!
The text of a tree is read as that tree.
-/

namespace Verif.Proofs

open Verif.Model Verif.Spec

variable {isPred : String → Bool}

theorem nameEnd_cons {d e : Char} {t u : List Char} (h1 : idChar d = false) (h2 : d ≠ '[')
    (h3 : ows (d :: t) = e :: u) (h4 : e ≠ '(') : NameEnd (d :: t) := by
  refine ⟨?_, ?_, ?_⟩
  · intro c s h; cases h; exact h1
  · intro s h; cases h; exact h2 rfl
  · intro s h; rw [h3] at h; cases h; exact h4 rfl

theorem fol_head {nt : NT} {r t : List Char} {c : Char} (hn : NameEnd r) (h : ows r = c :: t)
    (hh : ∀ m ∈ under nt, c ∉ heads m) (hc : compIn nt = true → c ∉ ['=', '!', '<', '>']) :
    Fol isPred nt r :=
  ⟨hn, fun m hm => stops_head h (hh m hm), fun hi => stopC_head h (hc hi)⟩

theorem fol_nil {nt : NT} : Fol isPred nt [] :=
  ⟨⟨by intro c t h; simp at h, by simp, by simp [ows, owsGo]⟩, fun _ _ => stops_nil (by simp [ows, owsGo]),
    fun _ => stopC_nil (by simp [ows, owsGo])⟩

theorem fol_close {nt : NT} {c : Char} {t : List Char} (h : c ∈ [')', ']', ',', ';']) :
    Fol isPred nt (c :: t) := by
  simp only [List.mem_cons, List.not_mem_nil, or_false] at h
  have ho : ows (c :: t) = c :: t := by
    rcases h with rfl | rfl | rfl | rfl <;> exact ows_cons (by decide) (by decide)
  refine fol_head (nameEnd_cons ?_ ?_ ho ?_) ho ?_ ?_
  · rcases h with rfl | rfl | rfl | rfl <;> decide
  · rcases h with rfl | rfl | rfl | rfl <;> decide
  · rcases h with rfl | rfl | rfl | rfl <;> decide
  · intro m _
    rcases h with rfl | rfl | rfl | rfl <;> cases m <;> simp only [heads] <;> decide
  · intro _
    rcases h with rfl | rfl | rfl | rfl <;> decide

theorem fol_space {nt : NT} {c : Char} {t : List Char} (h : c ∈ [':', 't', 'e']) :
    Fol isPred nt (' ' :: c :: t) := by
  simp only [List.mem_cons, List.not_mem_nil, or_false] at h
  have ho : ows (' ' :: c :: t) = c :: t := by
    rw [ows_space]
    rcases h with rfl | rfl | rfl <;> exact ows_cons (by decide) (by decide)
  refine fol_head (nameEnd_cons (by decide) (by decide) ho ?_) ho ?_ ?_
  · rcases h with rfl | rfl | rfl <;> decide
  · intro m _
    rcases h with rfl | rfl | rfl <;> cases m <;> simp only [heads] <;> decide
  · intro _
    rcases h with rfl | rfl | rfl <;> decide

theorem stopC_gt {r t : List Char} {o : CmpOp} (h : firstLit cmpOps (ows r) = some (o, '>' :: t)) :
    StopC isPred r := by
  intro o' r' hf
  rw [h] at hf
  simp only [Option.some.injEq, Prod.mk.injEq] at hf
  rw [← hf.2, ows_cons (by decide) (by decide)]
  exact sum_fail (neg_fail (by decide) (by decide) (by decide))

/-- The text of an operator, and what may come before it. -/
theorem op_text {nt : NT} {C : Chain} {w : String} {f : Ex → Ex → Ex} (hC : chainOf nt = some C)
    (hw : (w, f) ∈ C.ops) : ∃ u, (∀ a b, exText (f a b) = exText a ++ (u ++ exText b)) ∧
      ∀ c t, startC c = true → Fol isPred C.hd (u ++ c :: t) ∧
        ∃ r', firstLit C.ops (ows (u ++ c :: t)) = some (f, r') ∧ ows r' = c :: t := by
  cases nt <;> simp only [chainOf, Option.some.injEq, reduceCtorEq] at hC <;> subst hC <;>
    simp only [List.mem_cons, Prod.mk.injEq, List.not_mem_nil, or_false] at hw
  · obtain ⟨_, rfl⟩ := hw
    refine ⟨" <=> ".toList, fun a b => by simp [exText, strEx], fun c t hc => ?_⟩
    have ho : ows (" <=> ".toList ++ c :: t) = '<' :: '=' :: '>' :: ' ' :: c :: t := by
      simp [ows_space]; exact ows_cons (by decide) (by decide)
    refine ⟨⟨nameEnd_cons (by decide) (by decide) ho (by decide), fun m hm => stops_head ho ?_, fun _ => ?_⟩,
      ' ' :: c :: t, ?_, ?_⟩
    · simp only [under, List.mem_cons, List.not_mem_nil, or_false] at hm
      rcases hm with rfl | rfl | rfl | rfl | rfl | rfl <;> simp only [heads] <;> decide
    · refine stopC_gt (o := .le) (t := ' ' :: c :: t) ?_
      rw [ho]; simp [cmpOps, firstLit, lit, litL]
    · rw [ho]; simp [firstLit, lit, litL]
    · rw [ows_space]; exact ows_start hc
  · obtain ⟨_, rfl⟩ := hw
    refine ⟨" ==> ".toList, fun a b => by simp [exText, strEx], fun c t hc => ?_⟩
    have ho : ows (" ==> ".toList ++ c :: t) = '=' :: '=' :: '>' :: ' ' :: c :: t := by
      simp [ows_space]; exact ows_cons (by decide) (by decide)
    refine ⟨⟨nameEnd_cons (by decide) (by decide) ho (by decide), fun m hm => stops_head ho ?_, fun _ => ?_⟩,
      ' ' :: c :: t, ?_, ?_⟩
    · simp only [under, List.mem_cons, List.not_mem_nil, or_false] at hm
      rcases hm with rfl | rfl | rfl | rfl | rfl <;> simp only [heads] <;> decide
    · refine stopC_gt (o := .eq) (t := ' ' :: c :: t) ?_
      rw [ho]; simp [cmpOps, firstLit, lit, litL]
    · rw [ho]; simp [firstLit, lit, litL]
    · rw [ows_space]; exact ows_start hc
  · obtain ⟨_, rfl⟩ := hw
    refine ⟨" || ".toList, fun a b => by simp [exText, strEx], fun c t hc => ?_⟩
    have ho : ows (" || ".toList ++ c :: t) = '|' :: '|' :: ' ' :: c :: t := by
      simp [ows_space]; exact ows_cons (by decide) (by decide)
    refine ⟨⟨nameEnd_cons (by decide) (by decide) ho (by decide), fun m hm => stops_head ho ?_,
      fun _ => stopC_head ho (by decide)⟩, ' ' :: c :: t, ?_, ?_⟩
    · simp only [under, List.mem_cons, List.not_mem_nil, or_false] at hm
      rcases hm with rfl | rfl | rfl | rfl <;> simp only [heads] <;> decide
    · rw [ho]; simp [firstLit, lit, litL]
    · rw [ows_space]; exact ows_start hc
  · obtain ⟨_, rfl⟩ := hw
    refine ⟨" && ".toList, fun a b => by simp [exText, strEx], fun c t hc => ?_⟩
    have ho : ows (" && ".toList ++ c :: t) = '&' :: '&' :: ' ' :: c :: t := by
      simp [ows_space]; exact ows_cons (by decide) (by decide)
    refine ⟨⟨nameEnd_cons (by decide) (by decide) ho (by decide), fun m hm => stops_head ho ?_,
      fun _ => stopC_head ho (by decide)⟩, ' ' :: c :: t, ?_, ?_⟩
    · simp only [under, List.mem_cons, List.not_mem_nil, or_false] at hm
      rcases hm with rfl | rfl | rfl <;> simp only [heads] <;> decide
    · rw [ho]; simp [firstLit, lit, litL]
    · rw [ows_space]; exact ows_start hc
  · rcases hw with ⟨_, rfl⟩ | ⟨_, rfl⟩
    · refine ⟨"+".toList, fun a b => by simp [exText, strEx, arithText], fun c t hc => ?_⟩
      have ho : ows ("+".toList ++ c :: t) = '+' :: c :: t := ows_cons (by decide) (by decide)
      refine ⟨⟨nameEnd_cons (by decide) (by decide) ho (by decide), fun m hm => stops_head ho ?_,
        fun h => by simp [compIn] at h⟩, c :: t, ?_, ows_start hc⟩
      · simp only [under, List.mem_cons, List.not_mem_nil, or_false] at hm
        rcases hm with rfl | rfl <;> simp only [heads] <;> decide
      · rw [ho]; simp [firstLit, lit, litL]
    · refine ⟨"-".toList, fun a b => by simp [exText, strEx, arithText], fun c t hc => ?_⟩
      have ho : ows ("-".toList ++ c :: t) = '-' :: c :: t := ows_cons (by decide) (by decide)
      refine ⟨⟨nameEnd_cons (by decide) (by decide) ho (by decide), fun m hm => stops_head ho ?_,
        fun h => by simp [compIn] at h⟩, c :: t, ?_, ows_start hc⟩
      · simp only [under, List.mem_cons, List.not_mem_nil, or_false] at hm
        rcases hm with rfl | rfl <;> simp only [heads] <;> decide
      · rw [ho]; simp [firstLit, lit, litL]
  · rcases hw with ⟨_, rfl⟩ | ⟨_, rfl⟩ | ⟨_, rfl⟩
    · refine ⟨"*".toList, fun a b => by simp [exText, strEx, arithText], fun c t hc => ?_⟩
      have ho : ows ("*".toList ++ c :: t) = '*' :: c :: t := ows_cons (by decide) (by decide)
      refine ⟨⟨nameEnd_cons (by decide) (by decide) ho (by decide), fun m hm => stops_head ho ?_,
        fun h => by simp [compIn] at h⟩, c :: t, ?_, ows_start hc⟩
      · simp only [under, List.mem_cons, List.not_mem_nil, or_false] at hm
        subst hm; simp only [heads]; decide
      · rw [ho]; simp [firstLit, lit, litL]
    · refine ⟨"/".toList, fun a b => by simp [exText, strEx, arithText], fun c t hc => ?_⟩
      have ho : ows ("/".toList ++ c :: t) = '/' :: c :: t := by
        have : c ≠ '/' := startC_ne hc (by decide)
        simp [ows, owsGo, isBlank, this]
      refine ⟨⟨nameEnd_cons (by decide) (by decide) ho (by decide), fun m hm => stops_head ho ?_,
        fun h => by simp [compIn] at h⟩, c :: t, ?_, ows_start hc⟩
      · simp only [under, List.mem_cons, List.not_mem_nil, or_false] at hm
        subst hm; simp only [heads]; decide
      · rw [ho]; simp [firstLit, lit, litL]
    · refine ⟨"%".toList, fun a b => by simp [exText, strEx, arithText], fun c t hc => ?_⟩
      have ho : ows ("%".toList ++ c :: t) = '%' :: c :: t := ows_cons (by decide) (by decide)
      refine ⟨⟨nameEnd_cons (by decide) (by decide) ho (by decide), fun m hm => stops_head ho ?_,
        fun h => by simp [compIn] at h⟩, c :: t, ?_, ows_start hc⟩
      · simp only [under, List.mem_cons, List.not_mem_nil, or_false] at hm
        subst hm; simp only [heads]; decide
      · rw [ho]; simp [firstLit, lit, litL]
  · obtain ⟨_, rfl⟩ := hw
    refine ⟨"^".toList, fun a b => by simp [exText, strEx, arithText], fun c t hc => ?_⟩
    have ho : ows ("^".toList ++ c :: t) = '^' :: c :: t := ows_cons (by decide) (by decide)
    refine ⟨⟨nameEnd_cons (by decide) (by decide) ho (by decide), fun m hm => by simp [under] at hm,
      fun h => by simp [compIn] at h⟩, c :: t, ?_, ows_start hc⟩
    rw [ho]; simp [firstLit, lit, litL]

/-- The text of a comparison. -/
theorem cmp_text {w : String} {o : CmpOp} {a b : Ex} {i j : Bool} (hw : (w, o) ∈ cmpOps)
    (hn : notIff (cmpTree isPred o (a, i) (b, j)) = true) :
    exText (cmpTree isPred o (a, i) (b, j)) = exText a ++ (w.toList ++ exText b) ∧
      ∀ c t, startC c = true → Fol isPred (.sum false) (w.toList ++ c :: t) ∧
        firstLit cmpOps (ows (w.toList ++ c :: t)) = some (o, c :: t) := by
  constructor
  · simp only [cmpTree] at hn ⊢
    by_cases hb : boolCmp isPred (a, i) (b, j) = true
    · rw [if_pos hb] at hn ⊢
      simp only [cmpOps, List.mem_cons, Prod.mk.injEq, List.not_mem_nil, or_false] at hw
      rcases hw with ⟨rfl, rfl⟩ | ⟨rfl, rfl⟩ | ⟨rfl, rfl⟩ | ⟨rfl, rfl⟩ | ⟨rfl, rfl⟩ | ⟨rfl, rfl⟩
      · simp [notIff] at hn
      all_goals simp [exText, strEx, CmpOp.tree, cmpText]
    · rw [if_neg hb]
      simp only [cmpOps, List.mem_cons, Prod.mk.injEq, List.not_mem_nil, or_false] at hw
      rcases hw with ⟨rfl, rfl⟩ | ⟨rfl, rfl⟩ | ⟨rfl, rfl⟩ | ⟨rfl, rfl⟩ | ⟨rfl, rfl⟩ | ⟨rfl, rfl⟩ <;>
        simp [exText, strEx, CmpOp.tree, cmpText]
  · intro c t hc
    have hce : c ≠ '=' := startC_ne hc (by decide)
    simp only [cmpOps, List.mem_cons, Prod.mk.injEq, List.not_mem_nil, or_false] at hw
    have key : ∀ (d : Char) (u : List Char), w.toList = d :: u → d ∈ ['=', '!', '<', '>'] →
        ows (w.toList ++ c :: t) = w.toList ++ c :: t ∧ Fol isPred (.sum false) (w.toList ++ c :: t) := by
      intro d u hwu hd
      have ho : ows (w.toList ++ c :: t) = w.toList ++ c :: t := by
        rw [hwu]
        simp only [List.mem_cons, List.not_mem_nil, or_false] at hd
        rcases hd with rfl | rfl | rfl | rfl <;> exact ows_cons (by decide) (by decide)
      refine ⟨ho, ?_⟩
      rw [hwu] at ho ⊢
      simp only [List.mem_cons, List.not_mem_nil, or_false] at hd
      refine ⟨nameEnd_cons ?_ ?_ ho ?_, fun m hm => stops_head ho ?_, fun h => by simp [compIn] at h⟩
      · rcases hd with rfl | rfl | rfl | rfl <;> decide
      · rcases hd with rfl | rfl | rfl | rfl <;> decide
      · rcases hd with rfl | rfl | rfl | rfl <;> decide
      · simp only [under, List.mem_cons, List.not_mem_nil, or_false] at hm
        rcases hd with rfl | rfl | rfl | rfl <;> rcases hm with rfl | rfl | rfl <;> simp only [heads] <;>
          decide
    rcases hw with ⟨rfl, rfl⟩ | ⟨rfl, rfl⟩ | ⟨rfl, rfl⟩ | ⟨rfl, rfl⟩ | ⟨rfl, rfl⟩ | ⟨rfl, rfl⟩
    · obtain ⟨ho, hf⟩ := key '=' ['='] rfl (by simp)
      refine ⟨hf, ?_⟩; rw [ho]; simp [cmpOps, firstLit, lit, litL]
    · obtain ⟨ho, hf⟩ := key '!' ['='] rfl (by simp)
      refine ⟨hf, ?_⟩; rw [ho]; simp [cmpOps, firstLit, lit, litL]
    · obtain ⟨ho, hf⟩ := key '<' ['='] rfl (by simp)
      refine ⟨hf, ?_⟩; rw [ho]; simp [cmpOps, firstLit, lit, litL]
    · obtain ⟨ho, hf⟩ := key '>' ['='] rfl (by simp)
      refine ⟨hf, ?_⟩; rw [ho]; simp [cmpOps, firstLit, lit, litL]
    · obtain ⟨ho, hf⟩ := key '<' [] rfl (by simp)
      refine ⟨hf, ?_⟩; rw [ho]; simp [cmpOps, firstLit, lit, litL, Ne.symm hce]
    · obtain ⟨ho, hf⟩ := key '>' [] rfl (by simp)
      refine ⟨hf, ?_⟩; rw [ho]; simp [cmpOps, firstLit, lit, litL, Ne.symm hce]

/-- After a name, a word either is the name or stops inside it. -/
theorem word_split {w x r r' : List Char} (hw : ∀ c ∈ w, idChar c = true) (hx : ∀ c ∈ x, idChar c = true)
    (hr : HeadNotId r) (h : litL w (x ++ r) = some r') :
    (w = x ∧ r' = r) ∨ ∃ d t, r' = d :: t ∧ idChar d = true := by
  have he := litL_some h
  rcases List.append_eq_append_iff.1 he with ⟨u, h1, h2⟩ | ⟨u, h1, h2⟩
  · cases u with
    | nil => simp only [List.append_nil] at h1; exact Or.inl ⟨h1, by simpa using h2.symm⟩
    | cons d u =>
      have := hr d (u ++ r') (by simpa using h2)
      rw [hw d (by rw [h1]; simp)] at this
      cases this
  · cases u with
    | nil => simp only [List.append_nil] at h1; exact Or.inl ⟨h1.symm, by simpa using h2⟩
    | cons d u => exact Or.inr ⟨d, u ++ r, by simpa using h2, hx d (by rw [h1]; simp)⟩

/-- No special form begins here. -/
def KwOk (s : List Char) : Prop :=
  ∀ w ∈ ["if", "forall", "exists", "unique"], ∀ r, lit w s = some r → ws r = none

/-- No call of a function begins here. -/
def CallOk (s : List Char) : Prop :=
  ∀ w ∈ ["max", "min"], ∀ r, lit w s = some r → lit "(" (ows r) = none

theorem isId_chars {x : String} (h : isId x) : ∀ c ∈ x.toList, idChar c = true := by
  obtain ⟨c, t, hx, hc, ht⟩ := h
  intro d hd
  rw [hx] at hd
  rcases List.mem_cons.1 hd with rfl | hd
  · simp [idChar, hc]
  · exact ht d hd

theorem ws_id {d : Char} {t : List Char} (h : idChar d = true) : ws (d :: t) = none := by
  have := ows_cons (s := t) (idChar_blank h).1 (idChar_blank h).2
  simp [ws, this]

theorem id_kw {x : String} (hx : isId x) {r : List Char} (hr : HeadNotId r)
    (h : x ∉ reserved ∨ ws r = none) : KwOk (x.toList ++ r) := by
  intro w hw r' hl
  have hwc : ∀ c ∈ w.toList, idChar c = true := by
    simp only [List.mem_cons, List.not_mem_nil, or_false] at hw
    rcases hw with rfl | rfl | rfl | rfl <;> simp <;> decide
  rcases word_split hwc (isId_chars hx) hr hl with ⟨h1, rfl⟩ | ⟨d, t, rfl, hd⟩
  · have hxw : x = w := (String.toList_injective h1).symm
    rcases h with h | h
    · subst hxw
      simp only [List.mem_cons, List.not_mem_nil, or_false] at hw
      exact absurd (by rcases hw with rfl | rfl | rfl | rfl <;> simp [reserved]) h
    · exact h
  · exact ws_id hd

theorem id_call {x : String} (hx : isId x) {r : List Char} (hr : HeadNotId r)
    (h : ∀ t, ows r ≠ '(' :: t) : CallOk (x.toList ++ r) := by
  intro w hw r' hl
  have hwc : ∀ c ∈ w.toList, idChar c = true := by
    simp only [List.mem_cons, List.not_mem_nil, or_false] at hw
    rcases hw with rfl | rfl <;> simp <;> decide
  rcases word_split hwc (isId_chars hx) hr hl with ⟨_, rfl⟩ | ⟨d, t, rfl, hd⟩
  · cases ho : ows r' with
    | nil => simp [lit, litL]
    | cons c t =>
      have : '(' ≠ c := by rintro rfl; exact h t ho
      simp [lit, litL, this]
  · rw [ows_cons (idChar_blank hd).1 (idChar_blank hd).2]
    have : '(' ≠ d := by rintro rfl; exact absurd hd (by decide)
    simp [lit, litL, this]

theorem kw_head {c : Char} {t : List Char} (h : c ∉ ['i', 'f', 'e', 'u']) : KwOk (c :: t) := by
  intro w hw r hl
  simp only [List.mem_cons, List.not_mem_nil, or_false, not_or] at h hw
  exfalso
  rcases hw with rfl | rfl | rfl | rfl
  · rw [lit_head (c := 'i') (u := "f".toList) (by simp) (Ne.symm h.1)] at hl; cases hl
  · rw [lit_head (c := 'f') (u := "orall".toList) (by simp) (Ne.symm h.2.1)] at hl; cases hl
  · rw [lit_head (c := 'e') (u := "xists".toList) (by simp) (Ne.symm h.2.2.1)] at hl; cases hl
  · rw [lit_head (c := 'u') (u := "nique".toList) (by simp) (Ne.symm h.2.2.2)] at hl; cases hl

theorem call_head {c : Char} {t : List Char} (h : c ≠ 'm') : CallOk (c :: t) := by
  intro w hw r hl
  simp only [List.mem_cons, List.not_mem_nil, or_false] at hw
  exfalso
  rcases hw with rfl | rfl
  · rw [lit_head (c := 'm') (u := "ax".toList) (by simp) (Ne.symm h)] at hl; cases hl
  · rw [lit_head (c := 'm') (u := "in".toList) (by simp) (Ne.symm h)] at hl; cases hl

theorem quant_none {s : List Char} (h : KwOk s) : Reads isPred .quant s none := by
  refine reads_rule (K := 0) rfl fun k _ => ?_
  simp only [ruleP]
  cases hf : firstLit quantWords s with
  | none => rfl
  | some qr =>
    obtain ⟨q, r⟩ := qr
    obtain ⟨w, hw, hl⟩ := firstLit_some hf
    have : ws r = none := by
      refine h w ?_ r hl
      simp only [quantWords, List.mem_cons, Prod.mk.injEq, List.not_mem_nil, or_false] at hw
      rcases hw with ⟨rfl, _⟩ | ⟨rfl, _⟩ | ⟨rfl, _⟩ <;> simp
    simp [tok, this]

theorem iif_none {s : List Char} (h : KwOk s) : Reads isPred .iif s none := by
  refine reads_rule (K := 0) rfl fun k _ => ?_
  simp only [ruleP]
  cases hf : lit "if" s with
  | none => rfl
  | some r => simp [tok, h "if" (by simp) r hf]

theorem ident_id {x : String} (hx : isId x) {r : List Char} (hr : HeadNotId r) :
    ident (x.toList ++ r) = some (x, r) := by
  obtain ⟨c, t, he, hc, ht⟩ := hx
  have h1 : (t ++ r).takeWhile idChar = t := by
    rw [List.takeWhile_append_of_pos ht]
    cases r with
    | nil => simp
    | cons d r => simp [hr d r rfl]
  have h2 : (t ++ r).dropWhile idChar = r := by
    rw [List.dropWhile_append_of_pos ht]
    cases r with
    | nil => simp
    | cons d r => simp [hr d r rfl]
  have h3 : String.ofList (c :: t) = x := by rw [← he]; simp
  rw [he]
  simp only [List.cons_append, ident, hc, if_true, h1, h2, h3]

/-- A quantifier. -/
def isQ : Ex → Bool
  | .quant _ _ _ _ => true
  | _ => false

theorem isQ_open {e : Ex} (h : openR e = false) : isQ e = false := by
  cases e <;> simp_all [isQ, openR]

/-- The rules of integers and comparisons. -/
def low : NT → Bool
  | .comp => true
  | .sum _ => true
  | .prod _ => true
  | .neg _ => true
  | .pow _ => true
  | .fcall _ => true
  | .value _ => true
  | _ => false

theorem shape_low {nt : NT} {e : Ex} {i : Bool} (h : Shape isPred nt e i) :
    low nt = true → openR e = false := by
  induction h with
  | name _ _ => intro _; rfl
  | num => intro _; rfl
  | aref _ _ _ => intro _; rfl
  | parI _ _ => intro _; rfl
  | parB _ _ => intro _; rfl
  | cpar _ _ => intro _; rfl
  | val _ ih => exact fun _ => ih rfl
  | call _ _ _ _ _ => intro _; rfl
  | pow _ ih => exact fun _ => ih rfl
  | @neg c w f e i hw _ ih =>
    intro _
    cases c <;> simp only [negOps, List.mem_cons, Prod.mk.injEq, List.not_mem_nil, or_false] at hw
    · rcases hw with ⟨_, rfl⟩ | ⟨_, rfl⟩ <;> rfl
    · obtain ⟨_, rfl⟩ := hw; rfl
  | @up nt C e i hC _ ih =>
    intro hl
    cases nt <;> simp only [chainOf, Option.some.injEq, reduceCtorEq] at hC <;> subst hC <;>
      simp only [low, Bool.false_eq_true] at hl <;> exact ih rfl
  | @chain nt C w f a b i j hC hw _ _ _ iha ihb =>
    intro hl
    cases nt <;> simp only [chainOf, Option.some.injEq, reduceCtorEq] at hC <;> subst hC <;>
      simp only [low, Bool.false_eq_true] at hl <;>
      simp only [List.mem_cons, Prod.mk.injEq, List.not_mem_nil, or_false] at hw
    · rcases hw with ⟨_, rfl⟩ | ⟨_, rfl⟩ <;> rfl
    · rcases hw with ⟨_, rfl⟩ | ⟨_, rfl⟩ | ⟨_, rfl⟩ <;> rfl
    · obtain ⟨_, rfl⟩ := hw; rfl
  | sum _ ih => exact fun _ => ih rfl
  | @cmp w o a b i j _ _ _ hn _ _ =>
    intro _
    simp only [cmpTree] at hn ⊢
    by_cases hb : boolCmp isPred (a, i) (b, j) = true
    · rw [if_pos hb] at hn ⊢
      cases o <;> simp_all [notIff, openR, CmpOp.tree]
    · rw [if_neg hb]
      cases o <;> rfl
  | comp _ _ => intro h; cases h
  | quant _ _ _ _ _ _ => intro h; cases h
  | biimp _ _ => intro h; cases h
  | iif _ _ _ _ _ _ => intro h; cases h

/-- The rules whose text does not begin with a prefix operator. -/
def plainNT : NT → Bool
  | .pow _ => true
  | .fcall _ => true
  | .value _ => true
  | _ => false

/-- What is shown of the text of a tree. -/
structure Back (isPred : String → Bool) (nt : NT) (e : Ex) (i : Bool) : Prop where
  start : ∃ c t, exText e = c :: t ∧ startC c = true ∧ (plainNT nt = true → c ≠ '-' ∧ c ≠ '!')
  kw : nt ≠ .expr → isQ e = false → ∀ r, NameEnd r → KwOk (exText e ++ r)
  call : ∀ c, nt = .value c → ∀ r, NameEnd r → CallOk (exText e ++ r)
  quant : isQ e = true → ∀ r, Fol isPred .expr r → Reads isPred .quant (exText e ++ r) (some ((e, i), r))
  chain : ∀ C, chainOf nt = some C → ∀ r, Fol isPred C.hd r →
    (powNT nt = true → isPow e = true → Fol isPred nt r) → (openR e = true → Fol isPred .expr r) →
    ∃ j K, ∀ k, K ≤ k → parse isPred (k + 1) nt (exText e ++ r) =
      Verif.Model.chain C.ops C.int (parse isPred k C.tl) (k - j) (e, i) r
  read : ∀ r, Fol isPred nt r → (openR e = true → Fol isPred .expr r) →
    Reads isPred nt (exText e ++ r) (some ((e, i), r))

theorem fol_hd {nt : NT} {C : Chain} (hC : chainOf nt = some C) {r : List Char} (h : Fol isPred nt r) :
    Fol isPred C.hd r ∧ Fol isPred C.tl r ∧ Stops isPred nt r := by
  obtain ⟨h1, h2, h3⟩ := h
  cases nt <;> simp only [chainOf, Option.some.injEq, reduceCtorEq] at hC <;> subst hC <;>
    simp only [under, compIn, List.mem_cons, List.not_mem_nil, or_false, forall_eq_or_imp, forall_eq, Fol]
      at h2 h3 ⊢ <;> simp_all

/-- A repetition that stops. -/
theorem chain_read {nt : NT} {C : Chain} (hC : chainOf nt = some C) {e : Ex} {i : Bool}
    (h : ∀ r, Fol isPred C.hd r →
      (powNT nt = true → isPow e = true → Fol isPred nt r) → (openR e = true → Fol isPred .expr r) →
      ∃ j K, ∀ k, K ≤ k → parse isPred (k + 1) nt (exText e ++ r) =
        Verif.Model.chain C.ops C.int (parse isPred k C.tl) (k - j) (e, i) r)
    (r : List Char) (hr : Fol isPred nt r) (ho : openR e = true → Fol isPred .expr r) :
    Reads isPred nt (exText e ++ r) (some ((e, i), r)) := by
  obtain ⟨j, K, hK⟩ := h r (fol_hd hC hr).1 (fun _ _ => hr) ho
  have hst := (fol_hd hC hr).2.2 C hC
  cases hf : firstLit C.ops (ows r) with
  | none =>
    refine ⟨K + j + 2, fun k hk => ?_⟩
    obtain ⟨k, rfl⟩ : ∃ k', k = k' + 1 := ⟨k - 1, by omega⟩
    rw [hK k (by omega)]
    obtain ⟨l, hl⟩ : ∃ l, k - j = l + 1 := ⟨k - j - 1, by omega⟩
    rw [hl]
    simp [Verif.Model.chain, hf, okP]
  | some fr =>
    obtain ⟨f, r'⟩ := fr
    obtain ⟨K', hK'⟩ := hst f r' hf
    refine ⟨K + K' + j + 2, fun k hk => ?_⟩
    obtain ⟨k, rfl⟩ : ∃ k', k = k' + 1 := ⟨k - 1, by omega⟩
    rw [hK k (by omega)]
    obtain ⟨l, hl⟩ : ∃ l, k - j = l + 1 := ⟨k - j - 1, by omega⟩
    rw [hl]
    simp [Verif.Model.chain, hf, hK' k (by omega), okP]

end Verif.Proofs
