import Verif.Model.File
import Verif.Proofs.Legit

/-!
Reading of the texts of declarations.
-/

namespace Verif.Proofs

open Verif.Model Verif.Spec

variable {α β : Type} {isPred : String → Bool}

/-! ### Rules -/

theorem then_at {x : ℕ → RRes α} {f : ℕ → α → List Char → RRes β} {a : α} {r : List Char} {v}
    (hx : AtLast x (some (a, r))) (hf : AtLast (fun k => f k a r) v) : AtLast (fun k => thenP (x k) (f k)) v := by
  obtain ⟨K, hK⟩ := hx
  obtain ⟨K', hK'⟩ := hf
  refine ⟨K + K', fun k hk => ?_⟩
  simp only [hK k (by omega), thenP]
  exact hK' k (by omega)

theorem then_none {x : ℕ → RRes α} {f : ℕ → α → List Char → RRes β}
    (hx : AtLast x none) : AtLast (fun k => thenP (x k) (f k)) none := by
  obtain ⟨K, hK⟩ := hx
  exact ⟨K, fun k hk => by simp only [hK k hk, thenP]⟩

theorem tok_at {o : Option α} {f : ℕ → α → RRes β} {a : α} {v} (ho : o = some a)
    (hf : AtLast (fun k => f k a) v) : AtLast (fun k => tokR o (f k)) v := by
  subst ho
  exact hf

theorem tok_none {o : Option α} {f : ℕ → α → RRes β} (ho : o = none) :
    AtLast (fun k => tokR o (f k)) none := by
  subst ho
  exact ⟨0, fun _ _ => rfl⟩

theorem ok_at (a : α) (r : List Char) : AtLast (fun _ => okR a r) (some (a, r)) := ⟨0, fun _ _ => rfl⟩

theorem else_left {x y : ℕ → RRes α} {v} (hx : AtLast x (some v)) : AtLast (fun k => elseP (x k) (y k)) (some v) := by
  obtain ⟨K, hK⟩ := hx
  exact ⟨K, fun k hk => by simp only [hK k hk, elseP]⟩

theorem else_right {x y : ℕ → RRes α} {v} (hx : AtLast x none) (hy : AtLast y v) :
    AtLast (fun k => elseP (x k) (y k)) v := by
  obtain ⟨K, hK⟩ := hx
  obtain ⟨K', hK'⟩ := hy
  exact ⟨K + K', fun k hk => by simp only [hK k (by omega), elseP]; exact hK' k (by omega)⟩

/-- Some rounds of a repetition. -/
inductive Steps (p : ℕ → List α → List Char → RRes α) : List α → List Char → List α → List Char → Prop where
  | refl {acc s} : Steps p acc s acc s
  | step {acc s a r acc' s'} : AtLast (fun k => p k acc s) (some (a, r)) → Steps p (acc ++ [a]) r acc' s' →
      Steps p acc s acc' s'

theorem Steps.trans {p : ℕ → List α → List Char → RRes α} {a s b t c u} (h : Steps p a s b t)
    (h' : Steps p b t c u) : Steps p a s c u := by
  induction h with
  | refl => exact h'
  | step h1 _ ih => exact .step h1 (ih h')

theorem Steps.one {p : ℕ → List α → List Char → RRes α} {acc s a r}
    (h : AtLast (fun k => p k acc s) (some (a, r))) : Steps p acc s (acc ++ [a]) r := .step h .refl

/-- A repetition. -/
theorem rep_at {p : ℕ → List α → List Char → RRes α} {acc s acc' s'} (h : Steps p acc s acc' s')
    (he : AtLast (fun k => p k acc' s') none) :
    AtLast (fun k => repP (p k) k acc s) (some (acc', s')) := by
  suffices ∃ K n, ∀ k ≥ K, ∀ m ≥ n, repP (p k) m acc s = some (some (acc', s')) by
    obtain ⟨K, n, h⟩ := this
    exact ⟨K + n, fun k hk => h k (by omega) k (by omega)⟩
  induction h with
  | refl =>
    obtain ⟨K, hK⟩ := he
    refine ⟨K, 1, fun k hk m hm => ?_⟩
    obtain ⟨m, rfl⟩ : ∃ j, m = j + 1 := ⟨m - 1, by omega⟩
    simp only [repP, hK k hk, okR]
  | step h1 _ ih =>
    obtain ⟨K, n, h⟩ := ih he
    obtain ⟨K', hK'⟩ := h1
    refine ⟨K + K', n + 1, fun k hk m hm => ?_⟩
    obtain ⟨m, rfl⟩ : ∃ j, m = j + 1 := ⟨m - 1, by omega⟩
    simp only [repP, hK' k (by omega)]
    exact h k (by omega) m (by omega)

/-- Many texts of the same kind. -/
theorem Steps.many {γ : Type} {p : ℕ → List α → List Char → RRes α} {text : γ → List Char} {val : γ → α} :
    ∀ (l : List γ) (acc : List α) (R : List Char),
    (∀ (l1 : List γ) (c : γ) (l2 : List γ), l = l1 ++ c :: l2 → ∀ R,
      AtLast (fun k => p k (acc ++ l1.map val) (ows (text c ++ R))) (some (val c, ows R))) →
    Steps p acc (ows (l.flatMap text ++ R)) (acc ++ l.map val) (ows R)
  | [], acc, R, _ => by simpa using Steps.refl
  | c :: l, acc, R, h => by
    have h0 := h [] c l rfl (l.flatMap text ++ R)
    rw [List.map_nil, List.append_nil] at h0
    rw [List.flatMap_cons, List.append_assoc]
    refine .step h0 ?_
    have := Steps.many (p := p) (text := text) (val := val) l (acc ++ [val c]) R fun l1 d l2 hl R => by
      have := h (c :: l1) d l2 (by rw [hl]; rfl) R
      simpa using this
    simpa using this

/-! ### Words -/

theorem lit_app (w : String) (s : List Char) : lit w (w.toList ++ s) = some s := litL_app _ _

theorem ows_nl {s : List Char} : ows ('\n' :: s) = ows s := by simp [ows, owsGo, isBlank]

theorem ws_sp {c : Char} {s : List Char} (h : isBlank c = false) (h' : c ≠ '/') :
    ws (' ' :: c :: s) = some (c :: s) := by
  have h1 : ows (' ' :: c :: s) = c :: s := by rw [ows_space]; exact ows_cons h h'
  unfold ws
  rw [h1, if_neg]
  intro h
  have := congrArg List.length h
  simp at this

theorem id_start {x : String} (hx : isId x) : ∃ c t, x.toList = c :: t ∧ c.isAlpha = true := by
  obtain ⟨c, t, h1, h2, _⟩ := hx
  exact ⟨c, t, h1, h2⟩

theorem alpha_ok {c : Char} (h : c.isAlpha = true) : isBlank c = false ∧ c ≠ '/' :=
  idChar_blank (by simp [idChar, h])

theorem ws_id_sp {x : String} (hx : isId x) (s : List Char) : ws (' ' :: (x.toList ++ s)) = some (x.toList ++ s) := by
  obtain ⟨c, t, h, ha⟩ := id_start hx
  rw [h]
  exact ws_sp (alpha_ok ha).1 (alpha_ok ha).2

theorem ows_id {x : String} (hx : isId x) (s : List Char) : ows (x.toList ++ s) = x.toList ++ s := by
  obtain ⟨c, t, h, ha⟩ := id_start hx
  rw [h]
  exact ows_cons (alpha_ok ha).1 (alpha_ok ha).2

theorem ident_at {x : String} (hx : isId x) {c : Char} (hc : idChar c = false) (s : List Char) :
    ident (x.toList ++ c :: s) = some (x, c :: s) :=
  ident_id hx fun d t h => by cases h; exact hc

theorem end_at (s : List Char) : endP (';' :: s) = some s := by
  unfold endP
  rw [ows_cons (by decide) (by decide)]
  rfl

theorem lit1 {w : String} {c : Char} {s : List Char} (h : w.toList = [c]) : lit w (c :: s) = some s := by
  simp [lit, h, litL]

theorem defeq_sp {s : List Char} : defeqP (' ' :: ':' :: '=' :: s) = some (ows s) := by
  unfold defeqP
  rw [ows_space, ows_cons (by decide) (by decide)]
  simp [lit, litL]

/-! ### Expressions -/

/-- A text that is read as an expression before every text that can follow. -/
structure TextOf (isPred : String → Bool) (nt : NT) (t : List Char) (e : Ex) : Prop where
  read : ∃ i, ∀ r, Fol isPred nt r → (openR e = true → Fol isPred .expr r) → Reads isPred nt (t ++ r) (some ((e, i), r))
  start : ∃ c u, t = c :: u ∧ startC c = true

theorem text_shape {nt : NT} {e : Ex} {i : Bool} (h : Shape isPred nt e i) : TextOf isPred nt (exText e) e := by
  have hb := shape_back h
  obtain ⟨c, u, h1, h2, _⟩ := hb.start
  exact ⟨⟨i, hb.read⟩, c, u, h1, h2⟩

theorem TextOf.ows {nt : NT} {t : List Char} {e : Ex} (h : TextOf isPred nt t e) (r : List Char) :
    ows (t ++ r) = t ++ r := by
  obtain ⟨c, u, h1, h2⟩ := h.start
  rw [h1]
  exact ows_start h2

theorem TextOf.close {nt : NT} {t : List Char} {e : Ex} (h : TextOf isPred nt t e) {c : Char}
    (hc : c ∈ [')', ']', ',', ';']) (r : List Char) :
    ∃ i, Reads isPred nt (t ++ c :: r) (some ((e, i), c :: r)) := by
  obtain ⟨i, hi⟩ := h.read
  exact ⟨i, hi _ (fol_close hc) fun _ => fol_close hc⟩

/-! ### Constants -/

/-- Texts with commas between them. -/
theorem sepBy_cons (sep a : List Char) (l : List (List Char)) :
    sepBy sep (a :: l) = a ++ l.flatMap fun b => sep ++ b := by
  induction l generalizing a with
  | nil => simp [sepBy]
  | cons b l ih => simp [sepBy, ih]

/-- The repetition `(',' WS? b:rule WS?)*` after the first; `sep` is the comma with blanks after it. -/
theorem comma_steps {nt : NT} {sep : List Char} (hs : sep = ",".toList ∨ sep = ", ".toList)
    (l : List Ex) (hl : ∀ e ∈ l, ∃ i, Shape isPred nt e i) (acc : List Ex) (c : Char) (R : List Char)
    (hc : c ∈ [')', ']', ',', ';'] ∨ (c = ' ' ∧ ∃ u, R = '#' :: u)) :
    Steps (fun k _ s => tokR (lit "," s) fun r =>
      thenP (parse isPred k nt (ows r)) fun b r => okR b.1 (ows r)) acc
      (ows ((l.flatMap fun e => sep ++ exText e) ++ c :: R)) (acc ++ l) (ows (c :: R)) := by
  have hf : ∀ nt, Fol isPred nt (c :: R) := by
    intro nt
    rcases hc with hc | ⟨rfl, u, rfl⟩
    · exact fol_close hc
    · have ho : ows (' ' :: '#' :: u) = '#' :: u := by
        rw [ows_space]; exact ows_cons (by decide) (by decide)
      refine fol_head (nameEnd_cons (by decide) (by decide) ho (by decide)) ho ?_ (fun _ => by decide)
      intro m _
      cases m <;> simp only [heads] <;> decide
  induction l generalizing acc with
  | nil => simpa using Steps.refl
  | cons e l ih =>
    obtain ⟨i, hi⟩ := hl e (by simp)
    have ht := text_shape hi
    obtain ⟨j, hj⟩ := ht.read
    set T := (l.flatMap fun e => sep ++ exText e) ++ c :: R with hT
    have hfT : ∀ nt, Fol isPred nt T := by
      intro nt
      cases l with
      | nil => simpa [hT] using hf nt
      | cons b l =>
        have : ∃ u, T = ',' :: u := by
          rcases hs with rfl | rfl
          · exact ⟨_, rfl⟩
          · exact ⟨_, rfl⟩
        obtain ⟨u, hu⟩ := this
        rw [hu]
        exact fol_close (by simp)
    have hr := hj T (hfT _) fun _ => hfT _
    have h1 : ows ((List.flatMap (fun e => sep ++ exText e) (e :: l)) ++ c :: R) = ',' :: (sep.tail ++ (exText e ++ T)) := by
      rw [List.flatMap_cons, List.append_assoc, List.append_assoc, ← hT]
      rcases hs with rfl | rfl
      · exact ows_cons (by decide) (by decide)
      · exact ows_cons (by decide) (by decide)
    have h2 : ows (sep.tail ++ (exText e ++ T)) = exText e ++ T := by
      rcases hs with rfl | rfl
      · exact ht.ows T
      · show ows (' ' :: (exText e ++ T)) = _
        rw [ows_space]; exact ht.ows T
    rw [h1]
    refine .step (a := e) (r := ows T) ?_ ?_
    · refine tok_at (a := sep.tail ++ (exText e ++ T)) (lit1 rfl) ?_
      simp only [h2]
      exact then_at hr (ok_at _ _)
    · have := ih (fun x hx => hl x (by simp [hx])) (acc ++ [e])
      simpa using this

theorem comma_stop {nt : NT} {c : Char} (hc : c ≠ ',') (R : List Char) :
    AtLast (fun k => tokR (lit "," (c :: R)) fun r =>
      thenP (parse isPred k nt (ows r)) fun b r => okR b.1 (ows r)) none :=
  tok_none (lit_head (c := ',') (u := []) rfl (Ne.symm hc))

theorem shape_sumT {e : Ex} {i : Bool} (h : Shape isPred (.value true) e i) : Shape isPred (.sum true) e i :=
  .up (C := ⟨.prod true, .prod true, _, true⟩) rfl (.up (C := ⟨.neg true, .neg true, _, true⟩) rfl
    (.pow (.up (C := ⟨.fcall true, .neg true, _, true⟩) rfl (.val h))))

/-- A list of constants is not a constant expression. -/
theorem list_noSum {t : List Char} {e : Ex} (ht : TextOf noPred (.sum true) t e) (u : List Char) :
    Reads noPred (.sum true) ('(' :: (t ++ ',' :: u)) none := by
  obtain ⟨i, K, hK⟩ := ht.close (c := ',') (by simp) u
  have hv : Reads noPred (.value true) ('(' :: (t ++ ',' :: u)) none := by
    refine reads_rule (K := K) rfl fun k hk => ?_
    have h1 : ows (t ++ ',' :: u) = t ++ ',' :: u := ht.ows _
    have h2 : ows (',' :: u) = ',' :: u := ows_cons (by decide) (by decide)
    have h3 : natP ('(' :: (t ++ ',' :: u)) = some none := by
      simp [natP, show Char.isDigit '(' = false by decide]
    have h4 : ident ('(' :: (t ++ ',' :: u)) = none := by
      simp [ident, show Char.isAlpha '(' = false by decide]
    have h5 : lit ")" (',' :: u) = none := by simp [lit, litL]
    have h6 : lit "(" ('(' :: (t ++ ',' :: u)) = some (t ++ ',' :: u) := by simp [lit, litL]
    simp [ruleP, h3, h4, h6, h1, hK k hk, tok, bindP, altP, h2, h5]
  have hfc : Reads noPred (.fcall true) ('(' :: (t ++ ',' :: u)) none := by
    obtain ⟨K, hK⟩ := hv
    refine reads_rule (K := K) rfl fun k hk => ?_
    simp [ruleP, callWords, firstLit, lit, litL, tok, altP, hK k hk]
  have hp : Reads noPred (.pow true) ('(' :: (t ++ ',' :: u)) none := by
    obtain ⟨K, hK⟩ := hfc
    refine ⟨K + 1, fun k hk => ?_⟩
    obtain ⟨k, rfl⟩ : ∃ j, k = j + 1 := ⟨k - 1, by omega⟩
    simp [parse, chainOf, hK k (by omega), bindP]
  have hn : Reads noPred (.neg true) ('(' :: (t ++ ',' :: u)) none := by
    obtain ⟨K, hK⟩ := hp
    refine reads_rule (K := K) rfl fun k hk => ?_
    simp [ruleP, negOps, firstLit, lit, litL, hK k hk]
  exact sum_fail hn

theorem const_read {c : ConstD} (hx : isId c.name)
    (hv : match c.val with
      | .one e => ∃ i, Shape noPred (.sum true) e i
      | .list l => 2 ≤ l.length ∧ ∀ e ∈ l, ∃ i, Shape noPred (.sum true) e i) (R : List Char) :
    AtLast (fun k => thenP (constP k (ows (constText c ++ R))) fun v r => okR v (ows r)) (some (c, ows R)) := by
  obtain ⟨x, v⟩ := c
  have h0 : ows (constText ⟨x, v⟩ ++ R) =
      "constant".toList ++ (' ' :: (x.toList ++ (' ' :: ':' :: '=' :: ' ' :: (cvalText v ++ ';' :: R)))) := by
    simp only [constText, List.append_assoc]
    show ows ('\n' :: _) = _
    rw [ows_nl]
    exact ows_cons (by decide) (by decide)
  refine then_at (a := ⟨x, v⟩) (r := R) ?_ (ok_at _ _)
  rw [h0]
  refine tok_at (lit_app _ _) (tok_at (ws_id_sp hx _) (tok_at (ident_at hx (by decide) _) (tok_at defeq_sp ?_)))
  rw [ows_space]
  cases v with
  | one e =>
    obtain ⟨i, hi⟩ := hv
    have ht := text_shape hi
    obtain ⟨j, hj⟩ := ht.close (c := ';') (by simp) R
    show AtLast (fun k => thenP (elseP (thenP (parse noPred k (.sum true) (ows (exText e ++ ';' :: R))) _) _) _) _
    rw [ht.ows]
    exact then_at (a := .one e) (r := ';' :: R) (else_left (then_at hj (ok_at _ _))) (tok_at (end_at R) (ok_at _ _))
  | list l =>
    obtain ⟨hl, he⟩ := hv
    match l, hl with
    | a :: b :: l, _ =>
      obtain ⟨i, hi⟩ := he a (by simp)
      have ht := text_shape hi
      set T : List Char := (((b :: l).flatMap fun e => ",".toList ++ exText e) ++ ')' :: ';' :: R) with hT
      have h1 : cvalText (.list (a :: b :: l)) ++ ';' :: R = '(' :: (exText a ++ T) := by
        rw [cvalText, List.map_cons, sepBy_cons, List.flatMap_map]
        simp [hT]
      rw [h1, ows_cons (by decide) (by decide)]
      have hT' : ∃ u, T = ',' :: u := ⟨_, rfl⟩
      obtain ⟨u, hu⟩ := hT'
      obtain ⟨j, hj⟩ := ht.close (c := ',') (by simp) u
      refine then_at (a := .list (a :: b :: l)) (r := ';' :: R) ?_ (tok_at (end_at R) (ok_at _ _))
      refine else_right (then_none ?_) (then_at (a := a :: b :: l) (r := ';' :: R) ?_ (ok_at _ _))
      · rw [hu]; exact list_noSum ht u
      · refine tok_at (lit1 rfl) ?_
        rw [ht.ows]
        refine then_at (a := (a, j)) (r := T) (by rw [hu]; exact hj) ?_
        have hst := comma_steps (isPred := noPred) (nt := .sum true) (Or.inl rfl) (b :: l)
          (fun e h => he e (by simp only [List.mem_cons] at h ⊢; exact Or.inr h)) [a] ')' (';' :: R) (Or.inl (by simp))
        refine then_at (a := a :: b :: l) (r := ')' :: ';' :: R) ?_ (tok_at (lit1 rfl) (ok_at _ _))
        rw [ows_cons (c := ')') (by decide) (by decide)] at hst
        exact rep_at (p := fun k _ s => tokR (lit "," s) fun r =>
          thenP (parse noPred k (.sum true) (ows r)) fun b r => okR b.1 (ows r)) hst (comma_stop (by decide) _)

theorem const_stop {s : List Char} (h : ∀ t, s ≠ 'c' :: t) :
    AtLast (fun k => thenP (constP k s) fun v r => okR v (ows r)) none := by
  refine then_none (tok_none ?_)
  cases s with
  | nil => rfl
  | cons d s => exact lit_head (c := 'c') rfl fun hd => h s (by rw [hd])

/-! ### Variables -/

theorem role_var (s : List Char) : roleP ("variable".toList ++ s) = (.direct, "variable".toList ++ s) := by
  have h1 : lit "shadow" ("variable".toList ++ s) = none := lit_head (c := 's') rfl (d := 'v') (by decide)
  have h2 : puppetT ("variable".toList ++ s) = none := by
    simp only [puppetT, firstLit, lit_head (w := "puppet") (c := 'p') (d := 'v')
      (u := "uppet".toList) (s := "ariable".toList ++ s) rfl (by decide),
      show lit "puppet" ("variable".toList ++ s) = none from lit_head (c := 'p') rfl (d := 'v') (by decide),
      show lit "superposed" ("variable".toList ++ s) = none from lit_head (c := 's') rfl (d := 'v') (by decide)]
    rfl
  have h3 : lit "direct" ("variable".toList ++ s) = none := lit_head (c := 'd') rfl (d := 'v') (by decide)
  have h4 : lit "underlying" ("variable".toList ++ s) = none := lit_head (c := 'u') rfl (d := 'v') (by decide)
  simp only [roleP, h1, h2, h3, h4, Option.bind_none]

theorem ws_var (s : List Char) : ws (' ' :: ("variable".toList ++ s)) = some ("variable".toList ++ s) :=
  ws_sp (by decide) (by decide)

theorem role_read (r : Role) (s : List Char) :
    roleP (roleText r ++ ("variable".toList ++ s)) = (r, "variable".toList ++ s) := by
  cases r with
  | direct => exact role_var s
  | shadow =>
    have h1 : lit "shadow" (roleText .shadow ++ ("variable".toList ++ s)) = some (' ' :: ("variable".toList ++ s)) := by
      rw [roleText, List.append_assoc]; exact lit_app _ _
    simp only [roleP, h1, Option.bind_some, ws_var]
  | puppet =>
    have h0 : roleText .puppet ++ ("variable".toList ++ s) = "puppet".toList ++ (' ' :: ("variable".toList ++ s)) := by
      rw [roleText, List.append_assoc]; rfl
    rw [h0]
    have h1 : lit "shadow" ("puppet".toList ++ (' ' :: ("variable".toList ++ s))) = none :=
      lit_head (c := 's') rfl (d := 'p') (by decide)
    have h2 : puppetT ("puppet".toList ++ (' ' :: ("variable".toList ++ s))) = some (' ' :: ("variable".toList ++ s)) := by
      simp only [puppetT, firstLit, lit_app, Option.map_some]
    simp only [roleP, h1, h2, Option.bind_some, Option.bind_none, ws_var]

/-- A domain `< e`. -/
theorem dom_read {e : Ex} {i : Bool} (h : Shape noPred (.sum true) e i) {c : Char}
    (hc : c ∈ [')', ']', ',', ';']) (R : List Char) :
    Reads noPred .dom ('<' :: ' ' :: (exText e ++ c :: R)) (some ((.natDom e, true), c :: R)) := by
  have ht := text_shape h
  obtain ⟨j, K, hK⟩ := ht.close hc R
  refine reads_rule (K := K) rfl fun k hk => ?_
  have h1 : lit "<-" ('<' :: ' ' :: (exText e ++ c :: R)) = none := by simp [lit, litL]
  have h2 : lit "<" ('<' :: ' ' :: (exText e ++ c :: R)) = some (' ' :: (exText e ++ c :: R)) := by simp [lit, litL]
  have h3 : ows (' ' :: (exText e ++ c :: R)) = exText e ++ c :: R := by rw [ows_space]; exact ht.ows _
  simp [ruleP, h1, h2, h3, tok, hK k hk, bindP, altP, okP]

theorem natDom_none {t : List Char} (h : (firstLit [("Int", ()), ("Nat", ())] t).bind
    (fun v => lit "%" (ows v.2)) = none) : AtLast (fun k => natDomP k t) none := by
  unfold natDomP
  cases hf : firstLit [("Int", ()), ("Nat", ())] t with
  | none => exact tok_none rfl
  | some v =>
    rw [hf] at h
    exact tok_at rfl (tok_none h)

theorem var_read {v : VarD} (hx : isId v.name) (hc : ∃ i, Shape noPred (.sum true) v.count i)
    (hd : ∃ i, Shape noPred (.sum true) v.dom i)
    (hn : ∀ r, (firstLit [("Int", ()), ("Nat", ())] (exText v.count ++ ']' :: r)).bind
      (fun v => lit "%" (ows v.2)) = none) (R : List Char) :
    AtLast (fun k => thenP (varP k (ows (varText v ++ R))) fun v r => okR v (ows r)) (some (v, ows R)) := by
  obtain ⟨ro, x, c, d⟩ := v
  obtain ⟨i, hi⟩ := hc
  obtain ⟨j, hj⟩ := hd
  simp only at hx hn hi hj
  set T : List Char := ' ' :: (x.toList ++ '[' :: (exText c ++ (']' :: ' ' :: '<' :: ' ' :: (exText d ++ ';' :: R)))) with hT
  have h0 : ows (varText ⟨ro, x, c, d⟩ ++ R) = roleText ro ++ ("variable".toList ++ T) := by
    have : varText ⟨ro, x, c, d⟩ ++ R = '\n' :: (roleText ro ++ ("variable".toList ++ T)) := by
      simp [varText, hT]
    rw [this, ows_nl]
    cases ro
    · exact ows_cons (by decide) (by decide)
    · exact ows_cons (by decide) (by decide)
    · exact ows_cons (by decide) (by decide)
  have ht := text_shape hi
  obtain ⟨_, hr⟩ := ht.close (c := ']') (by simp) (' ' :: '<' :: ' ' :: (exText d ++ ';' :: R))
  rw [h0]
  refine then_at (a := ⟨ro, x, c, d⟩) (r := R) ?_ (ok_at _ _)
  unfold varP
  rw [role_read]
  refine tok_at (lit_app _ _) (tok_at (ws_id_sp hx _) (tok_at (ident_at hx (by decide) _) (tok_at (lit1 rfl) ?_)))
  rw [ht.ows]
  refine then_at (a := c) (r := ']' :: ' ' :: '<' :: ' ' :: (exText d ++ ';' :: R))
    (else_right (natDom_none (hn _)) (then_at hr (ok_at _ _))) ?_
  rw [ows_cons (c := ']') (by decide) (by decide)]
  refine tok_at (lit1 rfl) ?_
  rw [ows_space, ows_cons (c := '<') (by decide) (by decide)]
  exact then_at (dom_read hj (by simp) R) (tok_at (end_at R) (ok_at _ _))

theorem var_stop {s : List Char} (h : s = [] ∨ (∃ t, s = '(' :: t) ∨ (∃ t, s = 'f' :: t) ∨ ∃ t, s = 'p' :: 'r' :: t) :
    AtLast (fun k => thenP (varP k s) fun v r => okR v (ows r)) none := by
  have key : (∀ w, w = "shadow" ∨ w = "puppet" ∨ w = "superposed" ∨ w = "direct" ∨ w = "underlying" ∨
      w = "variable" → lit w s = none) := by
    rintro w hw
    rcases h with rfl | ⟨t, rfl⟩ | ⟨t, rfl⟩ | ⟨t, rfl⟩ <;>
      rcases hw with rfl | rfl | rfl | rfl | rfl | rfl <;> simp [lit, litL]
  have h2 : puppetT s = none := by
    simp only [puppetT, firstLit, key "puppet" (by simp), key "superposed" (by simp), Option.map_none]
  refine then_none ?_
  unfold varP
  have : roleP s = (.direct, s) := by
    simp only [roleP, key "shadow" (by simp), key "direct" (by simp), key "underlying" (by simp), h2, Option.bind_none]
  rw [this]
  exact tok_none (key _ (by simp))

/-! ### Predicates and names for values -/

theorem expr_end {e : Ex} {i : Bool} (h : Shape isPred .expr e i) (R : List Char) :
    ∃ j, Reads isPred .expr (ows (exText e ++ ';' :: R)) (some ((e, j), ';' :: R)) := by
  have ht := text_shape h
  rw [ht.ows]
  exact ht.close (by simp) R

theorem topPred_read {p : String × Ex} (hx : isId p.1) {i : Bool} (he : Shape isPred .expr p.2 i) (R : List Char) :
    AtLast (fun k => predP isPred k (ows (topPredText p ++ R))) (some (p, R)) := by
  obtain ⟨x, e⟩ := p
  have h0 : ows (topPredText (x, e) ++ R) = "predicate".toList ++ (' ' :: (x.toList ++
      (' ' :: ':' :: '=' :: '\n' :: ' ' :: ' ' :: (exText e ++ ';' :: R)))) := by
    simp only [topPredText, List.append_assoc]
    show ows ('\n' :: _) = _
    rw [ows_nl]
    exact ows_cons (by decide) (by decide)
  obtain ⟨j, hj⟩ := expr_end he R
  rw [h0]
  refine tok_at (lit_app _ _) (tok_at (ws_id_sp hx _) (tok_at (ident_at hx (by decide) _) (tok_at defeq_sp ?_)))
  rw [ows_nl, ows_space, ows_space]
  exact then_at hj (tok_at (end_at R) (ok_at _ _))

theorem pcPred_read {p : String × Ex} (hx : isId p.1) {i : Bool} (he : Shape isPred .expr p.2 i) (R : List Char) :
    AtLast (fun k => predP isPred k (ows (pcPredText p ++ R))) (some (p, R)) := by
  obtain ⟨x, e⟩ := p
  have h0 : ows (pcPredText (x, e) ++ R) = "predicate".toList ++ (' ' :: (x.toList ++
      (' ' :: ':' :: '=' :: ' ' :: (exText e ++ ';' :: R)))) := by
    simp only [pcPredText, List.append_assoc]
    show ows ('\n' :: ' ' :: ' ' :: _) = _
    rw [ows_nl, ows_space, ows_space]
    exact ows_cons (by decide) (by decide)
  obtain ⟨j, hj⟩ := expr_end he R
  rw [h0]
  refine tok_at (lit_app _ _) (tok_at (ws_id_sp hx _) (tok_at (ident_at hx (by decide) _) (tok_at defeq_sp ?_)))
  rw [ows_space]
  exact then_at hj (tok_at (end_at R) (ok_at _ _))

theorem let_read {p : String × Ex} (hx : isId p.1) {i : Bool} (he : Shape noPred .expr p.2 i) (R : List Char) :
    AtLast (fun k => letP k (ows (letText p ++ R))) (some (p, ows R)) := by
  obtain ⟨x, e⟩ := p
  have h0 : ows (letText (x, e) ++ R) = "let".toList ++ (' ' :: (x.toList ++
      (' ' :: ':' :: '=' :: ' ' :: (exText e ++ ';' :: R)))) := by
    simp only [letText, List.append_assoc]
    show ows ('\n' :: ' ' :: ' ' :: _) = _
    rw [ows_nl, ows_space, ows_space]
    exact ows_cons (by decide) (by decide)
  obtain ⟨j, hj⟩ := expr_end he R
  rw [h0]
  refine tok_at (lit_app _ _) (tok_at (ws_id_sp hx _) (tok_at (ident_at hx (by decide) _) (tok_at defeq_sp ?_)))
  rw [ows_space]
  exact then_at hj (tok_at (end_at R) (ok_at _ _))

theorem lit_not {w : String} {c : Char} {u s : List Char} (hw : w.toList = c :: u) (h : ∀ t, s ≠ c :: t) :
    lit w s = none := by
  cases s with
  | nil => exact lit_nil hw
  | cons d s => exact lit_head hw fun hd => h s (by rw [hd])

theorem let_stop {s : List Char} (h : ∀ t, s ≠ 'l' :: t) : AtLast (fun k => letP k s) none :=
  tok_none (lit_not rfl h)

/-! ### Accesses -/

theorem accType_read (t : AccessType) (s : List Char) :
    firstAlt accTypes (accWord t ++ s) = some (t, s) := by
  cases t
  all_goals simp [accTypes, firstAlt, accWord, lit, litL, ws, ows, owsGo, isBlank]

theorem vref_ref {x : String} (hx : isId x) {e : Ex} {i : Bool} (he : Shape noPred .expr e i) (R : List Char) :
    Reads noPred .vref (x.toList ++ '[' :: (exText e ++ ']' :: R)) (some ((.aref x e, true), R)) := by
  have := vref_read (isPred := noPred) (x := x) (i := e) ⟨hx, i, he⟩ R
  simpa [exText, strEx] using this

theorem accText_read {x : String} (hx : isId x) {e : Ex} {i : Bool} (he : Shape noPred .expr e i) (t : AccessType)
    (R : List Char) :
    AtLast (fun k => accP k (accText t x (exText e) ++ R)) (some ((t, [.aref x e]), ows R)) := by
  have h0 : accText t x (exText e) ++ R = accWord t ++ (' ' :: (x.toList ++ '[' :: (exText e ++ ']' :: ';' :: R))) := by
    simp [accText]
  rw [h0]
  refine tok_at (accType_read t _) ?_
  show AtLast (fun k => thenP (parse noPred k .vref (ows (' ' :: (x.toList ++ '[' :: (exText e ++ ']' :: ';' :: R))))) _) _
  rw [ows_space, ows_id hx]
  refine then_at (vref_ref hx he (';' :: R)) ?_
  rw [ows_cons (c := ';') (by decide) (by decide)]
  exact then_at (rep_at (p := fun k _ s => tokR (lit "," s) fun r =>
    thenP (parse noPred k .vref (ows r)) fun v r => okR v.1 (ows r)) .refl (comma_stop (by decide) _))
    (tok_at (end_at R) (ok_at _ _))

theorem accWord_start (t : AccessType) : ∃ c u, accWord t = c :: u ∧ c ∈ ['r', 'w', 'y', 'e'] := by
  cases t <;> exact ⟨_, _, rfl, by decide⟩

theorem accType_stop {s : List Char} (h : ∀ c t, s = c :: t → c ∉ ['r', 'w', 'y', 'e']) :
    firstAlt accTypes s = none := by
  have key : ∀ w ∈ ["read:", "write:", "yield:", "effect:", "random"], lit w s = none := by
    intro w hw
    have : ∃ c u, w.toList = c :: u ∧ c ∈ ['r', 'w', 'y', 'e'] := by
      simp only [List.mem_cons, List.not_mem_nil, or_false] at hw
      rcases hw with rfl | rfl | rfl | rfl | rfl <;> exact ⟨_, _, rfl, by decide⟩
    obtain ⟨c, u, hu, hc⟩ := this
    exact lit_not hu fun t ht => h c t ht hc
  simp only [accTypes, firstAlt, key "read:" (by simp), key "write:" (by simp), key "yield:" (by simp),
    key "effect:" (by simp), key "random" (by simp), Option.bind_none]

theorem acc_stop {s : List Char} (h : ∀ c t, s = c :: t → c ∉ ['r', 'w', 'y', 'e']) :
    AtLast (fun k => accP k s) none :=
  tok_none (accType_stop h)

theorem accD_stop {s : List Char} (h : ∀ c t, s = c :: t → c ∉ ['r', 'w', 'y', 'e', 's']) :
    AtLast (fun k => accDP k s) none := by
  refine else_right (then_none (acc_stop fun c t ht hc => h c t ht ?_)) (then_none (tok_none (lit_not (c := 's') rfl fun t ht => ?_)))
  · simp only [List.mem_cons, List.not_mem_nil, or_false] at hc ⊢; tauto
  · exact h _ t ht (by simp)

end Verif.Proofs
