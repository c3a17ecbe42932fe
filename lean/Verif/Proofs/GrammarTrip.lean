import Verif.Proofs.GrammarBack

/-!
The text of a tree is read as that tree: induction over the shape of trees.
-/

namespace Verif.Proofs

open Verif.Model Verif.Spec

variable {isPred : String → Bool}

theorem digit_noAlpha {c : Char} (h : c.isDigit = true) : c.isAlpha = false := by
  simp only [Char.isDigit, Char.isAlpha, Char.isUpper, Char.isLower, Bool.and_eq_true, decide_eq_true_eq,
    Bool.or_eq_false_iff, Bool.and_eq_false_iff, decide_eq_false_iff_not, ge_iff_le, UInt32.le_iff_toNat_le,
    not_le] at *
  simp at *
  omega

theorem alpha_noDigit {c : Char} (h : c.isAlpha = true) : c.isDigit = false := by
  by_contra hc
  rw [Bool.not_eq_false] at hc
  rw [digit_noAlpha hc] at h
  cases h

theorem back_name {c : Bool} {x : String} (hx : isId x) (hr : x ∉ reserved) :
    Back isPred (.value c) (.name x) true := by
  have ht : exText (.name x) = x.toList := by simp [exText, strEx]
  obtain ⟨d, t, he, hd, hdt⟩ := id hx
  refine ⟨⟨d, t, by rw [ht, he], by simp [startC, hd], fun _ => ⟨?_, ?_⟩⟩, fun _ _ r hn => ?_,
    fun _ _ r hn => ?_, fun h => by simp [isQ] at h, fun C hC => by simp [chainOf] at hC, fun r hf _ => ?_⟩
  · rintro rfl; exact absurd hd (by decide)
  · rintro rfl; exact absurd hd (by decide)
  · rw [ht]; exact id_kw hx hn.1 (Or.inl hr)
  · rw [ht]; exact id_call hx hn.1 hn.2.2
  · rw [ht]
    have hid := ident_id hx hf.1.1
    cases c
    · have hv : Reads isPred .vref (x.toList ++ r) (some ((.name x, true), r)) := by
        refine reads_rule (K := 0) rfl fun k _ => ?_
        have hl : lit "[" r = none := by
          cases r with
          | nil => simp [lit, litL]
          | cons a r =>
            have : '[' ≠ a := by rintro rfl; exact hf.1.2.1 r rfl
            simp [lit, litL, this]
        simp [ruleP, hid, tok, hl, altP, okP]
      obtain ⟨K, hK⟩ := hv
      refine reads_rule (K := K) rfl fun k hk => ?_
      simp [ruleP, hK k hk, altP]
    · refine reads_rule (K := 0) rfl fun k _ => ?_
      have hn : natP (x.toList ++ r) = some none := by
        rw [he]; simp [natP, alpha_noDigit hd]
      simp [ruleP, hn, hid, tok, altP, okP]

theorem back_num {c : Bool} {u : ℕ} : Back isPred (.value c) (.num u) true := by
  have ht : exText (.num u) = Nat.toDigits 10 u := by simp [exText, strEx]
  have hall : ∀ d ∈ Nat.toDigits 10 u, d.isDigit = true := fun d hd =>
    Nat.isDigit_of_mem_toDigits (by omega) (by omega) hd
  obtain ⟨d, t, he⟩ : ∃ d t, Nat.toDigits 10 u = d :: t := by
    cases h : Nat.toDigits 10 u with
    | nil => exact absurd h Nat.toDigits_ne_nil
    | cons d t => exact ⟨d, t, rfl⟩
  have hd : d.isDigit = true := hall d (by rw [he]; simp)
  refine ⟨⟨d, t, by rw [ht, he], by simp [startC, hd], fun _ => ⟨?_, ?_⟩⟩, fun _ _ r hn => ?_,
    fun _ _ r hn => ?_, fun h => by simp [isQ] at h, fun C hC => by simp [chainOf] at hC, fun r hf _ => ?_⟩
  · rintro rfl; exact absurd hd (by decide)
  · rintro rfl; exact absurd hd (by decide)
  · rw [ht, he]
    refine kw_head ?_
    intro hm
    simp only [List.mem_cons, List.not_mem_nil, or_false] at hm
    rcases hm with rfl | rfl | rfl | rfl <;> exact absurd hd (by decide)
  · rw [ht, he]
    refine call_head ?_
    rintro rfl; exact absurd hd (by decide)
  · rw [ht]
    have h1 : (Nat.toDigits 10 u ++ r).takeWhile Char.isDigit = Nat.toDigits 10 u := by
      rw [List.takeWhile_append_of_pos hall]
      cases r with
      | nil => simp
      | cons a r =>
        have := hf.1.1 a r rfl
        simp only [idChar, Bool.or_eq_false_iff] at this
        simp [this.1.2]
    have h2 : (Nat.toDigits 10 u ++ r).dropWhile Char.isDigit = r := by
      rw [List.dropWhile_append_of_pos hall]
      cases r with
      | nil => simp
      | cons a r =>
        have := hf.1.1 a r rfl
        simp only [idChar, Bool.or_eq_false_iff] at this
        simp [this.1.2]
    have hn : natP (Nat.toDigits 10 u ++ r) = okP (.num u, true) r := by
      simp only [natP, h1, h2, Nat.toDigits_ne_nil, if_false, Nat.ofDigitChars_ten_toDigits]
    have hid : ident (Nat.toDigits 10 u ++ r) = none := by
      rw [he]; simp [ident, digit_noAlpha hd]
    cases c
    · have hv : Reads isPred .vref (Nat.toDigits 10 u ++ r) none :=
        reads_rule (K := 0) rfl fun k _ => by simp [ruleP, hid, tok]
      obtain ⟨K, hK⟩ := hv
      refine reads_rule (K := K) rfl fun k hk => ?_
      simp [ruleP, hK k hk, hn, altP, okP]
    · refine reads_rule (K := 0) rfl fun k _ => ?_
      simp [ruleP, hn, altP, okP]

theorem ows_text {nt : NT} {e : Ex} {i : Bool} (h : Back isPred nt e i) (r : List Char) :
    ows (exText e ++ r) = exText e ++ r := by
  obtain ⟨c, t, he, hc, _⟩ := h.start
  rw [he]; exact ows_start hc

theorem lit_one {w : String} {c : Char} {r : List Char} (h : w.toList = [c]) :
    lit w (c :: r) = some r := by simp [lit, h, litL]

theorem back_aref {x : String} {e : Ex} {j : Bool} (hx : isId x) (ih : Back isPred .expr e j) :
    Back isPred (.value false) (.aref x e) true := by
  have ht : ∀ r, exText (.aref x e) ++ r = x.toList ++ ('[' :: (exText e ++ (']' :: r))) := by
    intro r; simp [exText, strEx]
  obtain ⟨d, t, he, hd, hdt⟩ := id hx
  have hb : ∀ s, HeadNotId ('[' :: s) := by
    intro s c t h; cases h; decide
  have hob : ∀ s, ows ('[' :: s) = '[' :: s := fun s => ows_cons (by decide) (by decide)
  refine ⟨⟨d, t ++ ('[' :: (exText e ++ (']' :: []))), ?_, by simp [startC, hd], fun _ => ⟨?_, ?_⟩⟩,
    fun _ _ r hn => ?_,
    fun _ _ r hn => ?_, fun h => by simp [isQ] at h, fun C hC => by simp [chainOf] at hC, fun r hf _ => ?_⟩
  · have := ht []; rw [List.append_nil] at this; rw [this, he]; rfl
  · rintro rfl; exact absurd hd (by decide)
  · rintro rfl; exact absurd hd (by decide)
  · rw [ht]; exact id_kw hx (hb _) (Or.inr (by simp [ws, hob]))
  · rw [ht]; exact id_call hx (hb _) (by intro t; rw [hob]; simp)
  · rw [ht]
    have hid := ident_id hx (hb (exText e ++ (']' :: r)))
    obtain ⟨K, hK⟩ := ih.read (']' :: r) (fol_close (by simp)) (fun _ => fol_close (by simp))
    have hv : Reads isPred .vref (x.toList ++ ('[' :: (exText e ++ (']' :: r))))
        (some ((.aref x e, true), r)) := by
      refine reads_rule (K := K) rfl fun k hk => ?_
      have hc : ows (']' :: r) = ']' :: r := ows_cons (by decide) (by decide)
      simp [ruleP, hid, tok, lit_one, ows_text ih, hK k hk, bindP, hc, altP, okP]
    obtain ⟨K', hK'⟩ := hv
    refine reads_rule (K := K') rfl fun k hk => ?_
    simp [ruleP, hK' k hk, altP]

theorem back_par {c : Bool} {sub : NT} {e e' : Ex} {i : Bool} (ih : Back isPred sub e i)
    (hs : sub = if c then .sum true else .expr)
    (ht : ∀ r, exText e' ++ r = '(' :: (exText e ++ (')' :: r)))
    (he : e' = if c then .castI e else if i then .castI e else .castB e) :
    Back isPred (.value c) e' i := by
  have hq : isQ e' = false := by rw [he]; cases c <;> cases i <;> rfl
  refine ⟨⟨'(', exText e ++ (')' :: []), ?_, by decide, fun _ => ⟨by decide, by decide⟩⟩,
    fun _ _ r hn => ?_,
    fun _ _ r hn => ?_, fun h => by simp [hq] at h, fun C hC => by simp [chainOf] at hC, fun r hf _ => ?_⟩
  · have := ht []; rw [List.append_nil] at this; exact this
  · rw [ht]; exact kw_head (by decide)
  · rw [ht]; exact call_head (by decide)
  · rw [ht]
    obtain ⟨K, hK⟩ := ih.read (')' :: r) (fol_close (by simp)) (fun _ => fol_close (by simp))
    have hid : ident ('(' :: (exText e ++ (')' :: r))) = none := by
      have : ('(' : Char).isAlpha = false := by decide
      simp [ident, this]
    have hn : natP ('(' :: (exText e ++ (')' :: r))) = some none := by
      have : ('(' : Char).isDigit = false := by decide
      simp [natP, this]
    have hc : ows (')' :: r) = ')' :: r := ows_cons (by decide) (by decide)
    cases c
    · simp only [Bool.false_eq_true, if_false] at hs he
      subst hs
      have hv : Reads isPred .vref ('(' :: (exText e ++ (')' :: r))) none :=
        reads_rule (K := 0) rfl fun k _ => by simp [ruleP, hid, tok]
      obtain ⟨K', hK'⟩ := hv
      refine reads_rule (K := K + K') rfl fun k hk => ?_
      simp [ruleP, hK' k (by omega), hn, lit_one, ows_text ih, hK k (by omega), tok, bindP, hc, altP, okP, he]
    · simp only [if_true] at hs he
      subst hs
      refine reads_rule (K := K) rfl fun k hk => ?_
      simp [ruleP, hn, hid, lit_one, ows_text ih, hK k (by omega), tok, bindP, hc, altP, okP, he]

theorem firstLit_call {s : List Char} (h : CallOk s) :
    firstLit callWords s = none ∨ ∃ o r, firstLit callWords s = some (o, r) ∧ lit "(" (ows r) = none := by
  cases hf : firstLit callWords s with
  | none => exact Or.inl rfl
  | some or =>
    obtain ⟨o, r⟩ := or
    obtain ⟨w, hw, hl⟩ := firstLit_some hf
    refine Or.inr ⟨o, r, rfl, h w ?_ r hl⟩
    simp only [callWords, List.mem_cons, Prod.mk.injEq, List.not_mem_nil, or_false] at hw
    rcases hw with ⟨rfl, _⟩ | ⟨rfl, _⟩ <;> simp

theorem back_val {c : Bool} {e : Ex} {i : Bool} (ih : Back isPred (.value c) e i) :
    Back isPred (.fcall c) e i := by
  obtain ⟨d, t, he, hd, hp⟩ := ih.start
  refine ⟨⟨d, t, he, hd, fun _ => hp rfl⟩, fun _ => ih.kw (by simp), fun _ h => (by cases h), ih.quant,
    fun C hC => by simp [chainOf] at hC, fun r hf ho => ?_⟩
  obtain ⟨K, hK⟩ := ih.read r ⟨hf.1, by simp [under], by simp [compIn]⟩ ho
  refine reads_rule (K := K) rfl fun k hk => ?_
  rcases firstLit_call (ih.call c rfl r hf.1) with h | ⟨o, r', h, hl⟩
  · simp [ruleP, h, tok, altP, hK k hk]
  · simp [ruleP, h, hl, tok, altP, hK k hk]

theorem back_call {c : Bool} {w : String} {o : IntOp} {a b : Ex} {i j : Bool} (hw : (w, o) ∈ callWords)
    (iha : Back isPred (.sum c) a i) (ihb : Back isPred (.sum c) b j) :
    Back isPred (.fcall c) (.arith o a b) true := by
  have ht : ∀ r, exText (.arith o a b) ++ r =
      w.toList ++ ('(' :: (exText a ++ (',' :: (exText b ++ (')' :: r))))) := by
    intro r
    simp only [callWords, List.mem_cons, Prod.mk.injEq, List.not_mem_nil, or_false] at hw
    rcases hw with ⟨rfl, rfl⟩ | ⟨rfl, rfl⟩ <;> simp [exText, strEx]
  obtain ⟨u, hu⟩ : ∃ u, w.toList = 'm' :: u := by
    simp only [callWords, List.mem_cons, Prod.mk.injEq, List.not_mem_nil, or_false] at hw
    rcases hw with ⟨rfl, rfl⟩ | ⟨rfl, rfl⟩
    · exact ⟨['a', 'x'], rfl⟩
    · exact ⟨['i', 'n'], rfl⟩
  refine ⟨⟨'m', u ++ ('(' :: (exText a ++ (',' :: (exText b ++ (')' :: []))))), ?_, by decide,
    fun _ => ⟨by decide, by decide⟩⟩, fun _ _ r hn => ?_, fun _ h => (by cases h), fun h => by simp [isQ] at h,
    fun C hC => by simp [chainOf] at hC, fun r hf _ => ?_⟩
  · have := ht []; rw [List.append_nil, hu] at this; exact this
  · rw [ht, hu]; exact kw_head (by decide)
  · rw [ht]
    obtain ⟨K, hK⟩ := iha.read (',' :: (exText b ++ (')' :: r))) (fol_close (by simp))
      (fun _ => fol_close (by simp))
    obtain ⟨K', hK'⟩ := ihb.read (')' :: r) (fol_close (by simp)) (fun _ => fol_close (by simp))
    have h1 : firstLit callWords (w.toList ++ ('(' :: (exText a ++ (',' :: (exText b ++ (')' :: r)))))) =
        some (o, '(' :: (exText a ++ (',' :: (exText b ++ (')' :: r))))) := by
      simp only [callWords, List.mem_cons, Prod.mk.injEq, List.not_mem_nil, or_false] at hw
      rcases hw with ⟨rfl, rfl⟩ | ⟨rfl, rfl⟩ <;> simp [firstLit, callWords, lit, litL]
    have ho1 : ∀ s, ows ('(' :: s) = '(' :: s := fun s => ows_cons (by decide) (by decide)
    have ho2 : ∀ s, ows (')' :: s) = ')' :: s := fun s => ows_cons (by decide) (by decide)
    have ho3 : ∀ s, ows (',' :: s) = ',' :: s := fun s => ows_cons (by decide) (by decide)
    refine reads_rule (K := K + K') rfl fun k hk => ?_
    simp [ruleP, h1, tok, ho1, ho2, ho3, lit_one, ows_text iha, ows_text ihb, hK k (by omega),
      hK' k (by omega), bindP, altP, okP]

theorem fol_neg {c : Bool} {r : List Char} (h : Fol isPred (.neg c) r) : Fol isPred (.pow c) r := h

theorem back_pow {c : Bool} {e : Ex} {i : Bool} (ih : Back isPred (.pow c) e i) :
    Back isPred (.neg c) e i := by
  obtain ⟨d, t, he, hd, hp⟩ := ih.start
  refine ⟨⟨d, t, he, hd, fun h => by simp [plainNT] at h⟩, fun _ => ih.kw (by simp), fun _ h => (by cases h), ih.quant,
    fun C hC => by simp [chainOf] at hC, fun r hf ho => ?_⟩
  obtain ⟨K, hK⟩ := ih.read r (fol_neg hf) ho
  refine reads_rule (K := K) rfl fun k hk => ?_
  have h1 : firstLit (negOps c) (exText e ++ r) = none := by
    rw [he]
    have := hp rfl
    cases c <;> simp [firstLit, negOps, lit, litL, Ne.symm this.1, Ne.symm this.2]
  simp [ruleP, h1, hK k hk]

theorem back_neg {c : Bool} {w : String} {f : Ex → Ex} {e : Ex} {i : Bool} (hw : (w, f) ∈ negOps c)
    (hl : openR e = false) (ih : Back isPred (.pow c) e i) : Back isPred (.neg c) (f e) i := by
  have hd : ∃ d, (d = '-' ∨ d = '!') ∧ w.toList = [d] ∧ exText (f e) = d :: exText e ∧ isQ (f e) = false ∧
      ∀ s, firstLit (negOps c) (d :: s) = some (f, s) := by
    cases c <;> simp only [negOps, List.mem_cons, Prod.mk.injEq, List.not_mem_nil, or_false] at hw
    · rcases hw with ⟨rfl, rfl⟩ | ⟨rfl, rfl⟩
      · exact ⟨'-', by simp, by simp, by simp [exText, strEx], rfl, by simp [firstLit, negOps, lit, litL]⟩
      · exact ⟨'!', by simp, by simp, by simp [exText, strEx], rfl, by simp [firstLit, negOps, lit, litL]⟩
    · obtain ⟨rfl, rfl⟩ := hw
      exact ⟨'-', by simp, by simp, by simp [exText, strEx], rfl, by simp [firstLit, negOps, lit, litL]⟩
  obtain ⟨d, hd, _, ht, hq, h1⟩ := hd
  refine ⟨⟨d, exText e, ht, ?_, fun h => by simp [plainNT] at h⟩, fun _ _ r hn => ?_, fun _ h => (by cases h),
    fun h => by simp [hq] at h, fun C hC => by simp [chainOf] at hC, fun r hf ho => ?_⟩
  · rcases hd with rfl | rfl <;> decide
  · rw [ht]
    refine kw_head ?_
    rcases hd with rfl | rfl <;> decide
  · obtain ⟨K, hK⟩ := ih.read r (fol_neg hf) (fun h => by rw [hl] at h; cases h)
    refine reads_rule (K := K) rfl fun k hk => ?_
    rw [ht]
    simp [ruleP, h1, ows_text ih, hK k hk, bindP, okP]

theorem back_up {nt : NT} {C : Chain} {e : Ex} {i : Bool} (hC : chainOf nt = some C)
    (ih : Back isPred C.hd e i) : Back isPred nt e i := by
  obtain ⟨d, t, he, hd, hp⟩ := ih.start
  have hne : nt ≠ .expr := by rintro rfl; simp [chainOf] at hC
  have hhd : C.hd ≠ .expr := by
    cases nt <;> simp only [chainOf, Option.some.injEq, reduceCtorEq] at hC <;> subst hC <;> simp
  have hch : ∀ r, Fol isPred C.hd r →
      (powNT nt = true → isPow e = true → Fol isPred nt r) → (openR e = true → Fol isPred .expr r) →
      ∃ j K, ∀ k, K ≤ k → parse isPred (k + 1) nt (exText e ++ r) =
        Verif.Model.chain C.ops C.int (parse isPred k C.tl) (k - j) (e, i) r := by
    intro r hf _ ho
    obtain ⟨K, hK⟩ := ih.read r hf ho
    refine ⟨0, K, fun k hk => ?_⟩
    rw [parse, hC]
    simp [hK k hk, bindP]
  refine ⟨⟨d, t, he, hd, fun h => hp ?_⟩, fun _ => ih.kw hhd, fun c h => ?_, ih.quant, ?_, chain_read hC hch⟩
  · cases nt <;> simp only [chainOf, Option.some.injEq, reduceCtorEq] at hC <;> subst hC <;>
      simp [plainNT] at h ⊢
  · subst h; simp [chainOf] at hC
  · intro C' hC'
    rw [hC, Option.some.injEq] at hC'
    subst hC'
    exact hch

theorem back_chain {nt : NT} {C : Chain} {w : String} {f : Ex → Ex → Ex} {a b : Ex} {i j : Bool}
    (hC : chainOf nt = some C) (hw : (w, f) ∈ C.ops) (iha : Back isPred nt a i)
    (hend : endOk nt a = true) (hsb : Shape isPred C.tl b j) (ihb : Back isPred C.tl b j) :
    Back isPred nt (f a b) C.int := by
  obtain ⟨u, ht, hu⟩ := op_text (isPred := isPred) hC hw
  obtain ⟨d, t, he, hd, hp⟩ := iha.start
  obtain ⟨d', t', he', hd', _⟩ := ihb.start
  have hne : nt ≠ .expr := by rintro rfl; simp [chainOf] at hC
  simp only [endOk, Bool.and_eq_true, Bool.not_eq_true', Bool.and_eq_false_iff] at hend
  have hfq : isQ (f a b) = false := by
    cases nt <;> simp only [chainOf, Option.some.injEq, reduceCtorEq] at hC <;> subst hC <;>
      simp only [List.mem_cons, Prod.mk.injEq, List.not_mem_nil, or_false] at hw
    · obtain ⟨_, rfl⟩ := hw; rfl
    · obtain ⟨_, rfl⟩ := hw; rfl
    · obtain ⟨_, rfl⟩ := hw; rfl
    · obtain ⟨_, rfl⟩ := hw; rfl
    · rcases hw with ⟨_, rfl⟩ | ⟨_, rfl⟩ <;> rfl
    · rcases hw with ⟨_, rfl⟩ | ⟨_, rfl⟩ | ⟨_, rfl⟩ <;> rfl
    · obtain ⟨_, rfl⟩ := hw; rfl
  have hop : openR b = true → openR (f a b) = true := by
    have hlow := shape_low hsb
    cases nt <;> simp only [chainOf, Option.some.injEq, reduceCtorEq] at hC <;> subst hC <;>
      simp only [List.mem_cons, Prod.mk.injEq, List.not_mem_nil, or_false] at hw
    · obtain ⟨_, rfl⟩ := hw; exact id
    · obtain ⟨_, rfl⟩ := hw; exact id
    · obtain ⟨_, rfl⟩ := hw; exact id
    · obtain ⟨_, rfl⟩ := hw; exact id
    all_goals
      intro h
      rw [hlow rfl] at h
      cases h
  have hpw : powNT nt = true → isPow (f a b) = true := by
    cases nt <;> simp only [chainOf, Option.some.injEq, reduceCtorEq] at hC <;> subst hC <;>
      simp only [powNT, Bool.false_eq_true, false_implies]
    simp only [List.mem_cons, Prod.mk.injEq, List.not_mem_nil, or_false] at hw
    obtain ⟨_, rfl⟩ := hw
    exact fun _ => rfl
  have htl : powNT nt = false → C.tl = C.hd := by
    cases nt <;> simp only [chainOf, Option.some.injEq, reduceCtorEq] at hC <;> subst hC <;> simp [powNT]
  have htx : ∀ r, exText (f a b) ++ r = exText a ++ (u ++ (d' :: (t' ++ r))) := by
    intro r; rw [ht, he']; simp
  have hch : ∀ r, Fol isPred C.hd r →
      (powNT nt = true → isPow (f a b) = true → Fol isPred nt r) → (openR (f a b) = true → Fol isPred .expr r) →
      ∃ j K, ∀ k, K ≤ k → parse isPred (k + 1) nt (exText (f a b) ++ r) =
        Verif.Model.chain C.ops C.int (parse isPred k C.tl) (k - j) (f a b, C.int) r := by
    intro r hf hpr ho
    obtain ⟨hfol, r', hfl, hor⟩ := hu d' (t' ++ r) hd'
    obtain ⟨n, K, hK⟩ := iha.chain C hC (u ++ (d' :: (t' ++ r))) hfol
      (fun h1 h2 => by
        rcases hend.2 with h | h
        · rw [h] at h1; cases h1
        · rw [h] at h2; cases h2)
      (fun h => by rw [hend.1] at h; cases h)
    have hftl : Fol isPred C.tl r := by
      cases hpn : powNT nt with
      | true => exact (fol_hd hC (hpr hpn (hpw hpn))).2.1
      | false => rw [htl hpn]; exact hf
    obtain ⟨K', hK'⟩ := ihb.read r hftl (fun h => ho (hop h))
    refine ⟨n + 1, K + K' + n + 1, fun k hk => ?_⟩
    rw [htx, hK k (by omega)]
    obtain ⟨l, hl⟩ : ∃ l, k - n = l + 1 := ⟨k - n - 1, by omega⟩
    have hl' : k - (n + 1) = l := by omega
    have hbr : d' :: (t' ++ r) = exText b ++ r := by rw [he']; rfl
    rw [hl, hl']
    simp only [Verif.Model.chain, hfl, hor]
    rw [hbr, hK' k (by omega)]
  refine ⟨⟨d, t ++ (u ++ exText b), by rw [ht, he]; rfl, hd, hp⟩, fun _ _ r hn => ?_, fun c h => ?_,
    fun h => (by rw [hfq] at h; cases h), ?_, chain_read hC hch⟩
  · rw [htx]
    exact iha.kw hne (isQ_open hend.1) _ (hu d' (t' ++ r) hd').1.1
  · subst h; simp [chainOf] at hC
  · intro C' hC'
    rw [hC, Option.some.injEq] at hC'
    subst hC'
    exact hch

theorem back_sum {e : Ex} {i : Bool} (ih : Back isPred (.sum false) e i) : Back isPred .comp e i := by
  obtain ⟨d, t, he, hd, hp⟩ := ih.start
  refine ⟨⟨d, t, he, hd, fun h => by simp [plainNT] at h⟩, fun _ => ih.kw (by simp), fun _ h => (by cases h), ih.quant,
    fun C hC => by simp [chainOf] at hC, fun r hf ho => ?_⟩
  obtain ⟨K, hK⟩ := ih.read r ⟨hf.1, hf.2.1, by simp [compIn]⟩ ho
  cases hc : firstLit cmpOps (ows r) with
  | none =>
    refine reads_rule (K := K) rfl fun k hk => ?_
    simp [ruleP, hK k hk, bindP, hc, tok, altP, okP]
  | some or =>
    obtain ⟨o, r'⟩ := or
    obtain ⟨K', hK'⟩ := hf.2.2 rfl o r' hc
    refine reads_rule (K := K + K') rfl fun k hk => ?_
    simp [ruleP, hK k (by omega), hK' k (by omega), bindP, hc, tok, altP, okP]

theorem back_cmp {w : String} {o : CmpOp} {a b : Ex} {i j : Bool} (hw : (w, o) ∈ cmpOps)
    (hn : notIff (cmpTree isPred o (a, i) (b, j)) = true)
    (hla : openR a = false) (hlb : openR b = false) (hq : isQ (cmpTree isPred o (a, i) (b, j)) = false)
    (iha : Back isPred (.sum false) a i) (ihb : Back isPred (.sum false) b j) :
    Back isPred .comp (cmpTree isPred o (a, i) (b, j)) false := by
  obtain ⟨ht, hu⟩ := cmp_text (isPred := isPred) hw hn
  obtain ⟨d, t, he, hd, hp⟩ := iha.start
  obtain ⟨d', t', he', hd', _⟩ := ihb.start
  have htx : ∀ r, exText (cmpTree isPred o (a, i) (b, j)) ++ r =
      exText a ++ (w.toList ++ (d' :: (t' ++ r))) := by
    intro r; rw [ht, he']; simp
  refine ⟨⟨d, t ++ (w.toList ++ exText b), by rw [ht, he]; rfl, hd, fun h => by simp [plainNT] at h⟩,
    fun _ _ r hn => ?_, fun _ h => (by cases h), fun h => (by rw [hq] at h; cases h),
    fun C hC => by simp [chainOf] at hC, fun r hf ho => ?_⟩
  · rw [htx]
    exact iha.kw (by simp) (isQ_open hla) _ (hu d' (t' ++ r) hd').1.1
  · obtain ⟨hfol, hfl⟩ := hu d' (t' ++ r) hd'
    obtain ⟨K, hK⟩ := iha.read _ hfol (fun h => by rw [hla] at h; cases h)
    obtain ⟨K', hK'⟩ := ihb.read r ⟨hf.1, hf.2.1, by simp [compIn]⟩ (fun h => by rw [hlb] at h; cases h)
    have hbr : d' :: (t' ++ r) = exText b ++ r := by rw [he']; rfl
    refine reads_rule (K := K + K') rfl fun k hk => ?_
    rw [htx]
    simp only [ruleP, hK k (by omega), bindP, hfl, tok]
    rw [hbr, ows_text ihb, hK' k (by omega)]
    simp [altP, okP]

theorem back_comp {e : Ex} {i : Bool} (hl : openR e = false) (ih : Back isPred .comp e i) :
    Back isPred .unit e i := by
  obtain ⟨d, t, he, hd, hp⟩ := ih.start
  refine ⟨⟨d, t, he, hd, fun h => by simp [plainNT] at h⟩, fun _ => ih.kw (by simp), fun _ h => (by cases h), ih.quant,
    fun C hC => by simp [chainOf] at hC, fun r hf ho => ?_⟩
  obtain ⟨K, hK⟩ := ih.read r hf ho
  obtain ⟨K', hK'⟩ := quant_none (isPred := isPred) (ih.kw (by simp) (isQ_open hl) r hf.1)
  refine reads_rule (K := K + K') rfl fun k hk => ?_
  simp [ruleP, hK k (by omega), hK' k (by omega), altP]

theorem back_quant {w : String} {q : Quant} {x : String} {r d : Ex} {i j : Bool}
    (hw : (w, q) ∈ quantWords) (hx : isId x) (hlr : openR r = false) (ihr : Back isPred (.sum true) r i)
    (ihd : Back isPred .expr d j) : Back isPred .unit (.quant q x (.natDom r) d) false := by
  have hwq : w = quantText q := by
    simp only [quantWords, List.mem_cons, Prod.mk.injEq, List.not_mem_nil, or_false] at hw
    rcases hw with ⟨rfl, rfl⟩ | ⟨rfl, rfl⟩ | ⟨rfl, rfl⟩ <;> rfl
  have ht : ∀ s, exText (.quant q x (.natDom r) d) ++ s = w.toList ++ (' ' :: (x.toList ++ (' ' :: '<' :: ' ' ::
      (exText r ++ (' ' :: ':' :: ' ' :: (exText d ++ s)))))) := by
    intro s; rw [hwq]; simp [exText, strEx]
  obtain ⟨c, u, hu, hc⟩ : ∃ c u, w.toList = c :: u ∧ c.isAlpha = true := by
    simp only [quantWords, List.mem_cons, Prod.mk.injEq, List.not_mem_nil, or_false] at hw
    rcases hw with ⟨rfl, rfl⟩ | ⟨rfl, rfl⟩ | ⟨rfl, rfl⟩
    · exact ⟨'f', "orall".toList, by simp, by decide⟩
    · exact ⟨'e', "xists".toList, by simp, by decide⟩
    · exact ⟨'u', "nique".toList, by simp, by decide⟩
  obtain ⟨xc, xt, hxe, hxa, _⟩ := id hx
  have hQ : ∀ s, Fol isPred .expr s → Reads isPred .quant (exText (.quant q x (.natDom r) d) ++ s)
      (some ((.quant q x (.natDom r) d, false), s)) := by
    intro s hf
    rw [ht]
    obtain ⟨K1, hK1⟩ := ihr.read (' ' :: ':' :: ' ' :: (exText d ++ s)) (fol_space (by simp))
      (fun h => by rw [hlr] at h; cases h)
    obtain ⟨K2, hK2⟩ := ihd.read s hf (fun _ => hf)
    have h1 : ∀ t, firstLit quantWords (w.toList ++ t) = some (q, t) := by
      intro t
      simp only [quantWords, List.mem_cons, Prod.mk.injEq, List.not_mem_nil, or_false] at hw
      rcases hw with ⟨rfl, rfl⟩ | ⟨rfl, rfl⟩ | ⟨rfl, rfl⟩ <;> simp [firstLit, quantWords, lit, litL]
    have hox : ∀ t, ows (x.toList ++ t) = x.toList ++ t := by
      intro t; rw [hxe]; exact ows_start (by simp [startC, hxa])
    have h2 : ∀ t, ws (' ' :: (x.toList ++ t)) = some (x.toList ++ t) := by
      intro t
      simp only [ws, ows_space, hox]
      rw [if_neg]
      intro h
      have := congrArg List.length h
      simp at this
    have h3 : ∀ t, ident (x.toList ++ (' ' :: t)) = some (x, ' ' :: t) := fun t =>
      ident_id hx (by intro c t h; cases h; decide)
    have h4 : ∀ t, ows (' ' :: '<' :: t) = '<' :: t := fun t => by
      rw [ows_space]; exact ows_cons (by decide) (by decide)
    have h5 : ∀ t, ows (' ' :: ':' :: t) = ':' :: t := fun t => by
      rw [ows_space]; exact ows_cons (by decide) (by decide)
    have hdom : Reads isPred .dom ('<' :: ' ' :: (exText r ++ (' ' :: ':' :: ' ' :: (exText d ++ s))))
        (some ((.natDom r, true), ' ' :: ':' :: ' ' :: (exText d ++ s))) := by
      refine reads_rule (K := K1) rfl fun k hk => ?_
      have hl : lit "<-" ('<' :: ' ' :: (exText r ++ (' ' :: ':' :: ' ' :: (exText d ++ s)))) = none := by
        simp [lit, litL]
      simp [ruleP, hl, lit_one, tok, altP, ows_space, ows_text ihr, hK1 k hk, bindP, okP]
    obtain ⟨K3, hK3⟩ := hdom
    refine reads_rule (K := K2 + K3) rfl fun k hk => ?_
    simp only [ruleP, h1, tok, h2, h3, h4, hK3 k (by omega), bindP, h5, ows_space, ows_text ihd,
      hK2 k (by omega), lit_one (w := ":") (c := ':') (by simp), okP]
  refine ⟨⟨c, u ++ (' ' :: (x.toList ++ (' ' :: '<' :: ' ' ::
      (exText r ++ (' ' :: ':' :: ' ' :: (exText d ++ [])))))), ?_, by simp [startC, hc],
      fun h => by simp [plainNT] at h⟩, fun _ h => by simp [isQ] at h, fun _ h => (by cases h), fun _ => hQ,
    fun C hC => by simp [chainOf] at hC, fun s hf ho => ?_⟩
  · have := ht []; rw [List.append_nil, hu] at this; exact this
  · obtain ⟨K, hK⟩ := hQ s (ho rfl)
    refine reads_rule (K := K) rfl fun k hk => ?_
    simp only [ruleP, hK k hk, altP]

theorem back_biimp {e : Ex} {i : Bool} (ih : Back isPred .biimp e i) : Back isPred .expr e i := by
  obtain ⟨d, t, he, hd, hp⟩ := ih.start
  refine ⟨⟨d, t, he, hd, fun h => by simp [plainNT] at h⟩, fun h => absurd rfl h, fun _ h => (by cases h), ih.quant,
    fun C hC => by simp [chainOf] at hC, fun r hf ho => ?_⟩
  cases hq : isQ e with
  | true =>
    obtain ⟨K, hK⟩ := ih.quant hq r hf
    refine reads_rule (K := K) rfl fun k hk => ?_
    simp only [ruleP, hK k hk, altP]
  | false =>
    have hkw := ih.kw (by simp) hq r hf.1
    obtain ⟨K1, hK1⟩ := quant_none (isPred := isPred) hkw
    obtain ⟨K2, hK2⟩ := iif_none (isPred := isPred) hkw
    obtain ⟨K3, hK3⟩ := ih.read r hf ho
    refine reads_rule (K := K1 + K2 + K3) rfl fun k hk => ?_
    simp only [ruleP, hK1 k (by omega), hK2 k (by omega), hK3 k (by omega), altP]

theorem back_iif {a b c : Ex} {i : Bool} (iha : Back isPred .expr a i) (ihb : Back isPred .expr b true)
    (ihc : Back isPred .expr c true) : Back isPred .expr (.iif a b c) true := by
  have ht : ∀ s, exText (.iif a b c) ++ s = 'i' :: 'f' :: ' ' :: (exText a ++ (' ' :: 't' :: 'h' :: 'e' :: 'n' ::
      ' ' :: (exText b ++ (' ' :: 'e' :: 'l' :: 's' :: 'e' :: ' ' :: (exText c ++ s))))) := by
    intro s; simp [exText, strEx]
  refine ⟨⟨'i', 'f' :: ' ' :: (exText a ++ (' ' :: 't' :: 'h' :: 'e' :: 'n' ::
      ' ' :: (exText b ++ (' ' :: 'e' :: 'l' :: 's' :: 'e' :: ' ' :: (exText c ++ []))))), ?_, by decide,
      fun h => by simp [plainNT] at h⟩, fun h => absurd rfl h, fun _ h => (by cases h), fun h => by simp [isQ] at h,
    fun C hC => by simp [chainOf] at hC, fun s hf ho => ?_⟩
  · have := ht []; rw [List.append_nil] at this; exact this
  · rw [ht]
    obtain ⟨K1, hK1⟩ := iha.read (' ' :: 't' :: 'h' :: 'e' :: 'n' ::
      ' ' :: (exText b ++ (' ' :: 'e' :: 'l' :: 's' :: 'e' :: ' ' :: (exText c ++ s)))) (fol_space (by simp))
      (fun _ => fol_space (by simp))
    obtain ⟨K2, hK2⟩ := ihb.read (' ' :: 'e' :: 'l' :: 's' :: 'e' :: ' ' :: (exText c ++ s))
      (fol_space (by simp)) (fun _ => fol_space (by simp))
    obtain ⟨K3, hK3⟩ := ihc.read s hf (fun _ => hf)
    have hws : ∀ {nt e i} (_ : Back isPred nt e i) r, ws (' ' :: (exText e ++ r)) = some (exText e ++ r) := by
      intro nt e i h r
      simp only [ws, ows_space, ows_text h]
      rw [if_neg]
      intro h
      have := congrArg List.length h
      simp at this
    have hwc : ∀ (d : Char) r, startC d = true → ws (' ' :: d :: r) = some (d :: r) := by
      intro d r h
      simp only [ws, ows_space, ows_start h]
      rw [if_neg]
      intro h
      have := congrArg List.length h
      simp at this
    have hq : Reads isPred .quant ('i' :: 'f' :: ' ' :: (exText a ++ (' ' :: 't' :: 'h' :: 'e' :: 'n' ::
      ' ' :: (exText b ++ (' ' :: 'e' :: 'l' :: 's' :: 'e' :: ' ' :: (exText c ++ s)))))) none := by
      refine reads_rule (K := 0) rfl fun k _ => ?_
      simp [ruleP, firstLit, quantWords, lit, litL, tok]
    have hi : Reads isPred .iif ('i' :: 'f' :: ' ' :: (exText a ++ (' ' :: 't' :: 'h' :: 'e' :: 'n' ::
      ' ' :: (exText b ++ (' ' :: 'e' :: 'l' :: 's' :: 'e' :: ' ' :: (exText c ++ s))))))
        (some ((.iif a b c, true), s)) := by
      refine reads_rule (K := K1 + K2 + K3) rfl fun k hk => ?_
      have l1 : ∀ r, lit "if" ('i' :: 'f' :: r) = some r := fun r => by simp [lit, litL]
      have l2 : ∀ r, lit "then" ('t' :: 'h' :: 'e' :: 'n' :: r) = some r := fun r => by simp [lit, litL]
      have l3 : ∀ r, lit "else" ('e' :: 'l' :: 's' :: 'e' :: r) = some r := fun r => by simp [lit, litL]
      simp only [ruleP, l1, tok, hws iha, hws ihb, hws ihc, hK1 k (by omega), bindP, hwc 't' _ (by decide), l2,
        hK2 k (by omega), hwc 'e' _ (by decide), l3, hK3 k (by omega)]
      rfl
    obtain ⟨K4, hK4⟩ := hq
    obtain ⟨K5, hK5⟩ := hi
    refine reads_rule (K := K4 + K5) rfl fun k hk => ?_
    simp only [ruleP, hK4 k (by omega), hK5 k (by omega), altP]

/-- The text of a tree is read as that tree. -/
theorem shape_back {nt : NT} {e : Ex} {i : Bool} (h : Shape isPred nt e i) : Back isPred nt e i := by
  induction h with
  | name h1 h2 => exact back_name h1 h2
  | num => exact back_num
  | aref h1 _ ih => exact back_aref h1 ih
  | parI _ ih => exact back_par ih (by simp) (by intro r; simp [exText, strEx]) (by simp)
  | parB _ ih => exact back_par ih (by simp) (by intro r; simp [exText, strEx]) (by simp)
  | cpar _ ih => exact back_par ih (by simp) (by intro r; simp [exText, strEx]) (by simp)
  | val _ ih => exact back_val ih
  | call hw _ _ iha ihb => exact back_call hw iha ihb
  | pow _ ih => exact back_pow ih
  | neg hw hs ih => exact back_neg hw (shape_low hs rfl) ih
  | up hC _ ih => exact back_up hC ih
  | chain hC hw _ he hb iha ihb => exact back_chain hC hw iha he hb ihb
  | sum _ ih => exact back_sum ih
  | cmp hw ha hb hn iha ihb =>
    exact back_cmp hw hn (shape_low ha rfl) (shape_low hb rfl)
      (isQ_open (shape_low (Shape.cmp hw ha hb hn) rfl)) iha ihb
  | comp hs ih => exact back_comp (shape_low hs rfl) ih
  | quant hw hx hr _ ihr ihd => exact back_quant hw hx (shape_low hr rfl) ihr ihd
  | biimp _ ih => exact back_biimp ih
  | iif _ _ _ iha ihb ihc => exact back_iif iha ihb ihc

end Verif.Proofs
