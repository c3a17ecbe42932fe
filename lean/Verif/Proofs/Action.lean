import Verif.Spec.Action
import Verif.Proofs.GrammarTrip
import Verif.Proofs.Sync

/-!
The text of an action is read as the tree of the action.
-/

namespace Verif.Proofs

open Verif.Model Verif.Spec

variable {isPred : String → Bool}

/-- The result is found with any fuel that is large enough. -/
def AtLast {α : Type} (f : ℕ → Option α) (v : α) : Prop := ∃ K, ∀ k ≥ K, f k = some v

theorem shape_sum {e : Ex} {i : Bool} (h : Shape isPred (.value false) e i) :
    Shape isPred (.sum false) e i :=
  .up (nt := .sum false) rfl (.up (nt := .prod false) rfl (.pow (.up (nt := .pow false) rfl (.val h))))

theorem shape_conj {e : Ex} {i : Bool} (h : Shape isPred .comp e i) : Shape isPred .conj e i :=
  .up (nt := .conj) rfl (.comp h)

theorem shape_expr {e : Ex} {i : Bool} (h : Shape isPred .conj e i) : Shape isPred .expr e i :=
  .biimp (.up (nt := .biimp) rfl (.up (nt := .impl) rfl (.up (nt := .disj) rfl h)))

theorem shape_num {u : ℕ} : Shape isPred .expr (.num u) true :=
  shape_expr (shape_conj (.sum (shape_sum .num)))

/-- A well-formed reference. -/
def RefOk (isPred : String → Bool) (p : String × Ex) : Prop := isId p.1 ∧ ∃ j, Shape isPred .expr p.2 j

theorem shape_eq {ref : ℕ → String × Ex} {r g : ℕ} (h : RefOk isPred (ref r)) :
    Shape isPred .comp (.cmp false true false (refEx ref r) (.num g)) false := by
  obtain ⟨h1, j, h2⟩ := h
  have := Shape.cmp (isPred := isPred) (w := "==") (o := .eq) (a := refEx ref r) (b := .num g) (i := true) (j := true)
    (by simp [cmpOps]) (shape_sum (.aref h1 h2)) (shape_sum .num) (by rfl)
  exact this

theorem shape_conjEx : ∀ (l : List Ex) (e : Ex), Shape isPred .conj e false → openR e = false →
    (∀ x ∈ l, Shape isPred .comp x false) → Shape isPred .conj (conjEx e l) false ∧ openR (conjEx e l) = false
  | [], e, h, ho, _ => ⟨h, ho⟩
  | x :: l, e, h, ho, hl => by
    have hx := hl x (by simp)
    refine shape_conjEx l (.and e x) ?_ ?_ fun y hy => hl y (by simp [hy])
    · exact Shape.chain (nt := .conj) (w := "&&") (f := .and) rfl (by simp) h
        (by simp [endOk, ho, powNT]) (.comp hx)
    · simpa [openR] using shape_low hx rfl

theorem text_conjEx : ∀ (l : List Ex) (e : Ex),
    exText (conjEx e l) = joinAnd (exText e :: l.map exText)
  | [], e => by simp [conjEx, joinAnd]
  | x :: l, e => by
    have := text_conjEx l (.and e x)
    simp only [conjEx, List.foldl_cons] at this ⊢
    rw [this]
    cases l with
    | nil => simp [joinAnd, exText, strEx]
    | cons y l => simp [joinAnd, exText, strEx]

/-- What follows a guard. -/
theorem fol_arrow {nt : NT} (h : nt = .expr) {t : List Char} : Fol isPred nt (' ' :: '-' :: '-' :: '>' :: t) := by
  subst h
  have ho : ows (' ' :: '-' :: '-' :: '>' :: t) = '-' :: '-' :: '>' :: t := by
    rw [ows_space]; exact ows_cons (by decide) (by decide)
  refine ⟨nameEnd_cons (by decide) (by decide) ho (by decide), fun m hm => ?_,
    fun _ => stopC_head ho (by decide)⟩
  simp only [under, List.mem_cons, List.not_mem_nil, or_false] at hm
  rcases hm with rfl | rfl | rfl | rfl | rfl | rfl | rfl
  all_goals first
    | exact stops_head ho (by simp only [heads]; decide)
    | skip
  intro C hC f r' hf
  simp only [chainOf, Option.some.injEq] at hC
  subst hC
  rw [ho] at hf
  simp [firstLit, lit, litL] at hf
  rw [← hf.2, ows_cons (by decide) (by decide)]
  exact arrow_fail

theorem vref_read {x : String} {i : Ex} (h : RefOk isPred (x, i)) (r : List Char) :
    Reads isPred .vref (exText (.aref x i) ++ r) (some ((.aref x i, true), r)) := by
  obtain ⟨h1, j, h2⟩ := h
  have hb := shape_back h2
  obtain ⟨c, t, he, hc, _⟩ := hb.start
  obtain ⟨K, hK⟩ := hb.read (']' :: r) (fol_close (by simp)) fun _ => fol_close (by simp)
  have hid := ident_id h1 (r := '[' :: (exText i ++ ']' :: r)) (by intro c t h; cases h; decide)
  have ht : exText (.aref x i) ++ r = x.toList ++ ('[' :: (exText i ++ ']' :: r)) := by
    simp [exText, strEx]
  have ho : ows (exText i ++ ']' :: r) = exText i ++ ']' :: r := by
    rw [he]; exact ows_start hc
  have ho2 : ows (']' :: r) = ']' :: r := ows_cons (by decide) (by decide)
  refine reads_rule (K := K) rfl fun k hk => ?_
  rw [ht]
  simp [ruleP, hid, tok, lit, litL, ho, hK k hk, bindP, ho2, okP, altP]

theorem asg_set {p : String × Ex} (h : RefOk isPred p) (a : ℕ) (t : List Char) :
    AtLast (fun k => asgP isPred k (exText (.aref p.1 p.2) ++ (":=".toList ++ (Nat.toDigits 10 a ++ ';' :: t))))
      (some (.set (.aref p.1 p.2) (.num a), ';' :: t)) := by
  obtain ⟨K, hK⟩ := vref_read h (":=".toList ++ (Nat.toDigits 10 a ++ ';' :: t))
  have hb := shape_back (shape_num (isPred := isPred) (u := a))
  obtain ⟨c, u, he, hc, _⟩ := hb.start
  obtain ⟨K', hK'⟩ := hb.read (';' :: t) (fol_close (by simp)) fun _ => fol_close (by simp)
  have hex : exText (.num a) = Nat.toDigits 10 a := by simp [exText, strEx]
  rw [hex] at he hK'
  have hd : defeqP (":=".toList ++ (Nat.toDigits 10 a ++ ';' :: t)) = some (Nat.toDigits 10 a ++ ';' :: t) := by
    have h1 : ows (":=".toList ++ (Nat.toDigits 10 a ++ ';' :: t)) = ":=".toList ++ (Nat.toDigits 10 a ++ ';' :: t) :=
      ows_cons (by decide) (by decide)
    have h2 : ows (Nat.toDigits 10 a ++ ';' :: t) = Nat.toDigits 10 a ++ ';' :: t := by
      rw [he]; exact ows_start hc
    rw [defeqP, h1, lit, litL_app, Option.map_some, h2]
  have hl : lit "_" (Nat.toDigits 10 a ++ ';' :: t) = none := by
    rw [he]; exact lit_head (c := '_') (u := []) (by simp) (Ne.symm (startC_ne hc (by decide)))
  refine ⟨K + K', fun k hk => ?_⟩
  simp only [asgP, hK k (by omega), hd, hl, hK' k (by omega)]

theorem asg_rand {p : String × Ex} (h : RefOk isPred p) (t : List Char) :
    AtLast (fun k => asgP isPred k (exText (.aref p.1 p.2) ++ (":=".toList ++ ("_".toList ++ ';' :: t))))
      (some (.rand (.aref p.1 p.2), ';' :: t)) := by
  obtain ⟨K, hK⟩ := vref_read h (":=".toList ++ ("_".toList ++ ';' :: t))
  have hd : defeqP (":=".toList ++ ("_".toList ++ ';' :: t)) = some ("_".toList ++ ';' :: t) := by
    have h1 : ows (":=".toList ++ ("_".toList ++ ';' :: t)) = ":=".toList ++ ("_".toList ++ ';' :: t) :=
      ows_cons (by decide) (by decide)
    have h2 : ows ("_".toList ++ ';' :: t) = "_".toList ++ ';' :: t :=
      ows_cons (by decide) (by decide)
    rw [defeqP, h1, lit, litL_app, Option.map_some, h2]
  have hl : lit "_" ("_".toList ++ ';' :: t) = some (';' :: t) := by rw [lit, litL_app]
  refine ⟨K, fun k hk => ?_⟩
  simp only [asgP, hK k (by omega), hd, hl]

/-- The text of an assignment. -/
def asgText : Asg → List Char
  | .set v e => exText v ++ ":=".toList ++ exText e ++ "; ".toList
  | .rand v => exText v ++ ":=".toList ++ "_".toList ++ "; ".toList
  | _ => []

/-- The assignments of written actions. -/
def AsgOk (isPred : String → Bool) (a : Asg) : Prop :=
  ∃ p : String × Ex, RefOk isPred p ∧ (a = .rand (.aref p.1 p.2) ∨ ∃ x, a = .set (.aref p.1 p.2) (.num x))

theorem asg_read {a : Asg} (h : AsgOk isPred a) (t : List Char) :
    AtLast (fun k => asgP isPred k (asgText a ++ t)) (some (a, ';' :: ' ' :: t)) := by
  obtain ⟨p, hp, rfl | ⟨x, rfl⟩⟩ := h
  · have := asg_rand hp (' ' :: t)
    simpa [asgText] using this
  · have := asg_set hp x (' ' :: t)
    simpa [asgText, show exText (.num x) = Nat.toDigits 10 x by simp [exText, strEx]] using this

theorem asg_start {a : Asg} (h : AsgOk isPred a) : ∃ c t, asgText a = c :: t ∧ startC c = true := by
  obtain ⟨p, ⟨⟨c, t, hx, hc, _⟩, _⟩, rfl | ⟨x, rfl⟩⟩ := h
  · exact ⟨c, _, by simp only [asgText, exText, strEx, hx, List.cons_append]; rfl, by simp [startC, hc]⟩
  · exact ⟨c, _, by simp only [asgText, exText, strEx, hx, List.cons_append]; rfl, by simp [startC, hc]⟩

theorem asg_none (t : List Char) : AtLast (fun k => asgP isPred k (')' :: t)) none := by
  have hid : ident (')' :: t) = none := by simp [ident, show Char.isAlpha ')' = false by decide]
  have hv : Reads isPred .vref (')' :: t) none := by
    refine reads_rule (K := 0) rfl fun k _ => ?_
    simp [ruleP, hid, tok]
  obtain ⟨K, hK⟩ := hv
  refine ⟨K, fun k hk => ?_⟩
  simp [asgP, hK k hk, lit, litL]

theorem asgs_read : ∀ (l acc : List Asg) (t : List Char), (∀ a ∈ l, AsgOk isPred a) →
    ∃ K, ∀ k ≥ K, ∀ m ≥ l.length + 1,
      asgsP isPred k m acc (l.flatMap asgText ++ ')' :: t) = some (acc ++ l, ')' :: t)
  | [], acc, t, _ => by
    obtain ⟨K, hK⟩ := asg_none (isPred := isPred) t
    refine ⟨K, fun k hk m hm => ?_⟩
    obtain ⟨m, rfl⟩ : ∃ j, m = j + 1 := ⟨m - 1, by omega⟩
    simp only [List.flatMap_nil, List.nil_append, asgsP, hK k hk, List.append_nil]
  | a :: l, acc, t, h => by
    obtain ⟨K, hK⟩ := asg_read (h a (by simp)) (l.flatMap asgText ++ ')' :: t)
    obtain ⟨K', hK'⟩ := asgs_read l (acc ++ [a]) t fun b hb => h b (by simp [hb])
    refine ⟨K + K', fun k hk m hm => ?_⟩
    obtain ⟨m, rfl⟩ : ∃ j, m = j + 1 := ⟨m - 1, by simp at hm; omega⟩
    have ho1 : ows (';' :: ' ' :: (l.flatMap asgText ++ ')' :: t)) = ';' :: ' ' :: (l.flatMap asgText ++ ')' :: t) :=
      ows_cons (by decide) (by decide)
    have ho2 : ows (' ' :: (l.flatMap asgText ++ ')' :: t)) = l.flatMap asgText ++ ')' :: t := by
      rw [ows_space]
      cases l with
      | nil => exact ows_cons (by decide) (by decide)
      | cons b l =>
        obtain ⟨c, u, hu, hc⟩ := asg_start (h b (by simp))
        simp only [List.flatMap_cons, hu, List.cons_append]
        exact ows_start hc
    have hl : lit ";" (';' :: ' ' :: (l.flatMap asgText ++ ')' :: t)) = some (' ' :: (l.flatMap asgText ++ ')' :: t)) := by
      simp [lit, litL]
    have := hK' k (by omega) m (by simp at hm; omega)
    simp only [List.flatMap_cons, List.append_assoc, asgsP, hK k (by omega), ho1, hl, ho2, this]
    simp

/-- The text of an action. -/
def treeText (g : Ex) (l : List Asg) : List Char :=
  "( ".toList ++ exText g ++ " --> ".toList ++ l.flatMap asgText ++ ")".toList

theorem act_read {g : Ex} (hg : Shape isPred .expr g false) (ho : openR g = false) {l : List Asg}
    (hl : ∀ a ∈ l, AsgOk isPred a) (t : List Char) :
    AtLast (fun k => actP isPred k (treeText g l ++ t)) (some (⟨false, g, l⟩, t)) := by
  have hb := shape_back hg
  obtain ⟨c, u, he, hc, _⟩ := hb.start
  obtain ⟨K, hK⟩ := hb.read (' ' :: '-' :: '-' :: '>' :: ' ' :: (l.flatMap asgText ++ ')' :: t)) (fol_arrow rfl)
    fun h => (by rw [ho] at h; cases h)
  obtain ⟨K', hK'⟩ := asgs_read l [] t hl
  refine ⟨K + K' + l.length + 1, fun k hk => ?_⟩
  have h1 : treeText g l ++ t = '(' :: ' ' :: (exText g ++ ' ' :: '-' :: '-' :: '>' :: ' ' :: (l.flatMap asgText ++ ')' :: t)) := by
    simp [treeText]
  have h2 : ows (' ' :: (exText g ++ ' ' :: '-' :: '-' :: '>' :: ' ' :: (l.flatMap asgText ++ ')' :: t))) =
      exText g ++ ' ' :: '-' :: '-' :: '>' :: ' ' :: (l.flatMap asgText ++ ')' :: t) := by
    rw [ows_space, he]; exact ows_start hc
  have h3 : ows (' ' :: '-' :: '-' :: '>' :: ' ' :: (l.flatMap asgText ++ ')' :: t)) =
      '-' :: '-' :: '>' :: ' ' :: (l.flatMap asgText ++ ')' :: t) := by
    rw [ows_space]; exact ows_cons (by decide) (by decide)
  have h4 : ows (' ' :: (l.flatMap asgText ++ ')' :: t)) = l.flatMap asgText ++ ')' :: t := by
    rw [ows_space]
    cases l with
    | nil => exact ows_cons (by decide) (by decide)
    | cons b l =>
      obtain ⟨c, u, hu, hc⟩ := asg_start (hl b (by simp))
      simp only [List.flatMap_cons, hu, List.cons_append]
      exact ows_start hc
  have h5 := hK' k (by omega) k (by omega)
  rw [h1]
  simp only [actP]
  rw [show lit "(" ('(' :: ' ' :: (exText g ++ ' ' :: '-' :: '-' :: '>' :: ' ' :: (l.flatMap asgText ++ ')' :: t))) =
    some (' ' :: (exText g ++ ' ' :: '-' :: '-' :: '>' :: ' ' :: (l.flatMap asgText ++ ')' :: t))) by simp [lit, litL]]
  simp only [h2, hK k (by omega), h3]
  rw [show firstLit [("-->", false), ("-=>", true)] ('-' :: '-' :: '>' :: ' ' :: (l.flatMap asgText ++ ')' :: t)) =
    some (false, ' ' :: (l.flatMap asgText ++ ')' :: t)) by simp [firstLit, lit, litL]]
  simp only [h4, h5]
  simp [lit, litL]

theorem filter_map_mapM {α β γ δ : Type} {f : α → Option β} {p : β → Bool} {h : β → δ} {g : α → Option γ}
    {e : γ → δ} : ∀ {l : List α} {rs : List β}, l.mapM f = some rs →
      (∀ x ∈ l, ∀ y, f x = some y → if p y then (g x).map e = some (h y) else g x = none) →
      (rs.filter p).map h = (l.filterMap g).map e := by
  intro l
  induction l with
  | nil => intro rs hl _; simp at hl; subst hl; rfl
  | cons a l ih =>
    intro rs hl hx
    rw [List.mapM_cons] at hl
    simp only [Option.bind_eq_bind, Option.bind_eq_some_iff, Option.pure_def, Option.some.injEq] at hl
    obtain ⟨y, hy, ys, hys, rfl⟩ := hl
    have h1 := hx a (by simp) y hy
    have h2 := ih hys fun x hm => hx x (by simp [hm])
    by_cases hp : p y = true
    · rw [if_pos hp, Option.map_eq_some_iff] at h1
      obtain ⟨z, hz, hze⟩ := h1
      simp [List.filter_cons, hp, h2, hz, hze, List.filterMap_cons]
    · rw [if_neg hp] at h1
      simp [List.filter_cons, hp, h2, h1, List.filterMap_cons]

theorem read_text {pc : PcSymm} {ref : ℕ → String × Ex} {vals : List ℕ} {rs : List (ℕ × Access × ℕ)}
    (h : readList pc vals = some rs) :
    ((rs.filter fun r => r.2.1.syntReadCk).map fun r =>
      exText (refEx ref r.1) ++ "==".toList ++ Nat.toDigits 10 r.2.2) = (guardEqs pc ref vals).map exText := by
  refine filter_map_mapM h ?_
  intro r _ y hy
  simp only [Option.bind_eq_some_iff, Option.map_eq_some_iff] at hy
  obtain ⟨acc, h1, g, h2, rfl⟩ := hy
  by_cases hp : acc.syntReadCk = true
  · simp [h1, h2, hp, exText, strEx, cmpText]
  · simp [h1, h2, hp]

theorem still_iff {pc : PcSymm} {vals : List ℕ} {ws : List (ℕ × Access × ℕ × ℕ)}
    (h : writeList pc vals = some ws) : puppetSelfLoop ws = true ↔ Still pc vals := by
  simp only [puppetSelfLoop, List.all_eq_true]
  have hm := fun w => mem_mapM_iff h w
  constructor
  · intro ha j r acc g a h1 h2 h3 h4
    have hw : (r, acc, g, a) ∈ ws := by
      rw [hm]
      exact ⟨(r, j), by rw [List.mem_zipIdx_iff_getElem?]; exact h1, by simp [h2, h3, h4]⟩
    have := ha _ hw
    simp only at this
    by_cases hc : acc.syntWriteonlyCk = true
    · rw [if_pos hc] at this ⊢
      intro hp
      by_contra hne
      simp [hp, hne] at this
    · rw [if_neg hc] at this ⊢
      simpa using this
  · intro hs w hw
    obtain ⟨e, he, hf⟩ := (hm w).1 hw
    simp only [Option.bind_eq_some_iff, Option.map_eq_some_iff] at hf
    obtain ⟨acc, h1, g, h2, a, h3, rfl⟩ := hf
    have := hs e.2 e.1 acc g a (List.mem_zipIdx_iff_getElem?.1 he) h1 h2 h3
    simp only
    by_cases hc : acc.syntWriteonlyCk = true
    · rw [if_pos hc] at this ⊢
      cases hp : acc.puppetCk with
      | false => simp
      | true => simp [this hp]
    · rw [if_neg hc] at this ⊢
      simpa using this

theorem write_text {pc : PcSymm} {ref : ℕ → String × Ex} {vals : List ℕ} {ws : List (ℕ × Access × ℕ × ℕ)}
    (h : writeList pc vals = some ws) :
    ∃ l : List (ℕ × ℕ × ℕ), (∀ m, m ∈ l ↔ Mentions pc vals m) ∧ l.Pairwise (fun x y => x.1 < y.1) ∧
      ((mentioned ws).flatMap fun w => exText (refEx ref w.1) ++ ":=".toList ++
        (if w.2.1.randomWriteCk then "_".toList else Nat.toDigits 10 w.2.2.2) ++ "; ".toList) =
      (asgsOf pc ref l).flatMap asgText := by
  classical
  refine ⟨pc.wmap.zipIdx.filterMap fun e => (pc.access[e.1]?).bind fun acc => (vals[e.1]?).bind fun g =>
      (vals[pc.access.length + e.2]?).bind fun a =>
        if a ≠ acc.domsz ∧ (Still pc vals → acc.pureShadowCk = true) then some (e.2, e.1, a) else none, ?_, ?_, ?_⟩
  · intro m
    have hall := fun w => mem_mapM_iff h w
    simp only [List.mem_filterMap, Option.bind_eq_some_iff]
    constructor
    · rintro ⟨e, he, acc, h1, g, h2, a, h3, h4⟩
      split_ifs at h4 with hc
      cases h4
      exact ⟨acc, List.mem_zipIdx_iff_getElem?.1 he, h1, h3, hc.1, hc.2⟩
    · rintro ⟨acc, h1, h2, h3, h4, h5⟩
      have hz : (m.2.1, m.1) ∈ pc.wmap.zipIdx := List.mem_zipIdx_iff_getElem?.2 h1
      obtain ⟨g, hg⟩ : ∃ g, vals[m.2.1]? = some g := by
        have hlt := (List.getElem?_eq_some_iff.1 h2).1
        have := (List.getElem?_eq_some_iff.1 h3).1
        exact ⟨vals[m.2.1], List.getElem?_eq_getElem (by omega)⟩
      exact ⟨_, hz, acc, h2, g, hg, m.2.2, h3, by rw [if_pos ⟨h4, h5⟩]⟩
  · refine List.Pairwise.filterMap (R := fun x y => x.2 < y.2) _ ?_ ?_
    · intro x y hxy b hb c hc
      simp only [Option.bind_eq_some_iff] at hb hc
      obtain ⟨_, _, _, _, _, _, hb⟩ := hb
      obtain ⟨_, _, _, _, _, _, hc⟩ := hc
      split_ifs at hb hc
      cases hb; cases hc
      exact hxy
    · rw [← List.pairwise_map (f := Prod.snd) (R := (· < ·)), List.zipIdx_map_snd]
      exact List.pairwise_lt_range'
  · rw [List.flatMap_def, List.flatMap_def]
    congr 1
    rw [asgsOf, mentioned, List.map_map]
    refine filter_map_mapM h ?_
    intro e he y hy
    simp only [Option.bind_eq_some_iff, Option.map_eq_some_iff] at hy
    obtain ⟨acc, h1, g, h2, a, h3, rfl⟩ := hy
    simp only [h1, h2, h3, Option.bind_some, Function.comp]
    have hsl := still_iff h
    by_cases hc : a ≠ acc.domsz ∧ (Still pc vals → acc.pureShadowCk = true)
    · have hc' : (!(puppetSelfLoop ws && !acc.pureShadowCk) && acc.domsz != a) = true := by
        simp only [Bool.and_eq_true, Bool.not_eq_true', Bool.and_eq_false_iff, Bool.not_eq_false',
          bne_iff_ne, ne_eq]
        refine ⟨?_, Ne.symm hc.1⟩
        cases hp : puppetSelfLoop ws with
        | false => simp
        | true => exact Or.inr (hc.2 (hsl.1 hp))
      rw [if_pos hc', if_pos hc]
      simp only [Option.map_some, Option.some.injEq, Function.comp_apply]
      rw [h1]
      simp only [Option.map_some, Option.getD_some]
      by_cases hrw : acc.randomWriteCk = true
      · rw [if_pos hrw, if_pos hrw]; rfl
      · rw [if_neg hrw, if_neg hrw]; simp [asgText, exText, strEx]
    · have hc' : ¬(!(puppetSelfLoop ws && !acc.pureShadowCk) && acc.domsz != a) = true := by
        intro hh
        simp only [Bool.and_eq_true, Bool.not_eq_true', Bool.and_eq_false_iff, Bool.not_eq_false',
          bne_iff_ne, ne_eq] at hh
        refine hc ⟨Ne.symm hh.2, fun hs => ?_⟩
        rw [hsl.2 hs] at hh
        simpa using hh.1
      rw [if_neg hc', if_neg hc]

/-- The written text is the text of the tree. -/
theorem actText_tree {pc : PcSymm} {ref : ℕ → String × Ex} {vals : List ℕ} {t : List Char}
    (h : actText pc (fun r => exText (refEx ref r)) vals = some t)
    (hr : guardEqs pc ref vals ≠ []) :
    ∃ T, IsTree pc ref vals T ∧ T.actto = false ∧ t = treeText T.guard T.asgs := by
  unfold actText at h
  cases h1 : readList pc vals with
  | none => rw [h1] at h; cases h
  | some rs =>
    cases h2 : writeList pc vals with
    | none => rw [h1, h2] at h; cases h
    | some ws =>
      rw [h1, h2] at h
      simp only [Option.some.injEq] at h
      obtain ⟨l, hl1, hl2, hl3⟩ := write_text (ref := ref) h2
      cases hg : guardEqs pc ref vals with
      | nil => exact absurd hg hr
      | cons e gs =>
        refine ⟨⟨false, conjEx e gs, asgsOf pc ref l⟩, ⟨rfl, ⟨e, gs, hg, rfl⟩, l, hl1, hl2, rfl⟩, rfl, ?_⟩
        rw [← h, read_text h1, hl3, hg, treeText, text_conjEx]
        simp

/-- All references are well-formed. -/
def RefsOk (isPred : String → Bool) (pc : PcSymm) (ref : ℕ → String × Ex) : Prop :=
  ∀ r < pc.access.length, RefOk isPred (ref r)

theorem tree_shape {pc : PcSymm} {ref : ℕ → String × Ex} {vals : List ℕ} {T : ActTree}
    (hR : RefsOk isPred pc ref) (h : IsTree pc ref vals T) :
    Shape isPred .expr T.guard false ∧ openR T.guard = false ∧ ∀ a ∈ T.asgs, AsgOk isPred a := by
  obtain ⟨_, ⟨e, l, hg, hT⟩, m, hm, _, ha⟩ := h
  have hs : ∀ x ∈ guardEqs pc ref vals, Shape isPred .comp x false := by
    intro x hx
    simp only [guardEqs, List.mem_filterMap, Option.bind_eq_some_iff] at hx
    obtain ⟨r, hr, acc, _, g, _, hx⟩ := hx
    split_ifs at hx
    cases hx
    exact shape_eq (hR r (List.mem_range.1 hr))
  have he := hs e (by rw [hg]; simp)
  obtain ⟨h1, h2⟩ := shape_conjEx l e (shape_conj he) (shape_low he rfl) fun x hx => hs x (by rw [hg]; simp [hx])
  rw [hT]
  refine ⟨shape_expr h1, h2, ?_⟩
  intro a hmem
  rw [ha, asgsOf, List.mem_map] at hmem
  obtain ⟨x, hx, rfl⟩ := hmem
  obtain ⟨acc, _, h3, _⟩ := (hm x).1 hx
  refine ⟨ref x.2.1, hR _ (List.getElem?_eq_some_iff.1 h3).1, ?_⟩
  split_ifs
  · exact Or.inl rfl
  · exact Or.inr ⟨_, rfl⟩

theorem actText_read {pc : PcSymm} {ref : ℕ → String × Ex} {vals : List ℕ} {t : List Char}
    (hR : RefsOk isPred pc ref) (h : actText pc (fun r => exText (refEx ref r)) vals = some t)
    (hr : guardEqs pc ref vals ≠ []) :
    ∃ T, IsTree pc ref vals T ∧ (∃ u, t = '(' :: u) ∧
      ∀ rest, AtLast (fun k => actP isPred k (t ++ rest)) (some (T, rest)) := by
  obtain ⟨T, hT, hf, rfl⟩ := actText_tree h hr
  obtain ⟨h1, h2, h3⟩ := tree_shape hR hT
  refine ⟨T, hT, ⟨_, rfl⟩, fun rest => ?_⟩
  have := act_read h1 h2 h3 rest
  rw [← hf] at this
  exact this

/-- Two lists of the same mentions in order are equal; so the tree is determined. -/
theorem tree_unique {pc : PcSymm} {ref : ℕ → String × Ex} {vals : List ℕ} {T T' : ActTree}
    (h : IsTree pc ref vals T) (h' : IsTree pc ref vals T') : T = T' := by
  obtain ⟨h1, ⟨e, l, h2, h3⟩, m, h4, h5, h6⟩ := h
  obtain ⟨h1', ⟨e', l', h2', h3'⟩, m', h4', h5', h6'⟩ := h'
  have hm : m = m' := by
    refine List.Perm.eq_of_pairwise (le := fun x y : ℕ × ℕ × ℕ => x.1 < y.1) ?_ h5 h5' ?_
    · intro a b _ _ hab hba; omega
    · refine (List.perm_ext_iff_of_nodup ?_ ?_).2 fun x => (h4 x).trans (h4' x).symm
      · exact h5.imp fun hab he => by subst he; exact lt_irrefl _ hab
      · exact h5'.imp fun hab he => by subst he; exact lt_irrefl _ hab
  rw [h2] at h2'
  cases h2'
  obtain ⟨a, g, s⟩ := T
  obtain ⟨a', g', s'⟩ := T'
  simp only at *
  rw [h1, h1', h3, h3', h6, h6', hm]

theorem acts_read : ∀ (l : List (List Char × ActTree)) (acc : List ActTree) (t : List Char),
    (∀ x ∈ l, (∃ u, x.1 = '(' :: u) ∧ ∀ rest, AtLast (fun k => actP isPred k (x.1 ++ rest)) (some (x.2, rest))) →
    ∃ K, ∀ k ≥ K, ∀ m ≥ l.length + 1,
      actsP isPred k m acc (ows ((l.flatMap fun x => "\n    ".toList ++ x.1) ++ ("\n    ;".toList ++ t))) =
        some (acc ++ l.map Prod.snd, ';' :: t)
  | [], acc, t, _ => by
    refine ⟨0, fun k hk m hm => ?_⟩
    obtain ⟨m, rfl⟩ : ∃ j, m = j + 1 := ⟨m - 1, by omega⟩
    have h1 : ows ("\n    ;".toList ++ t) = ';' :: t := by
      simp [ows, owsGo, isBlank]
    rw [List.flatMap_nil, List.nil_append, h1]
    simp [actsP, actP, lit, litL]
  | x :: l, acc, t, h => by
    obtain ⟨⟨u, hu⟩, hx⟩ := h x (by simp)
    obtain ⟨K, hK⟩ := hx ((l.flatMap fun x => "\n    ".toList ++ x.1) ++ ("\n    ;".toList ++ t))
    obtain ⟨K', hK'⟩ := acts_read l (acc ++ [x.2]) t fun y hy => h y (by simp [hy])
    refine ⟨K + K', fun k hk m hm => ?_⟩
    obtain ⟨m, rfl⟩ : ∃ j, m = j + 1 := ⟨m - 1, by simp at hm; omega⟩
    have h1 : ∀ s, ows ("\n    ".toList ++ (x.1 ++ s)) = x.1 ++ s := by
      intro s
      have : ows ("\n    ".toList ++ (x.1 ++ s)) = ows (x.1 ++ s) := by
        simp [ows, owsGo, isBlank]
      rw [this, hu]
      exact ows_cons (by decide) (by decide)
    have h2 : ∃ c v, ows ((l.flatMap fun x => "\n    ".toList ++ x.1) ++ ("\n    ;".toList ++ t)) = c :: v ∧ c ≠ ',' := by
      cases l with
      | nil => exact ⟨';', t, by simp [ows, owsGo, isBlank], by decide⟩
      | cons y l =>
        obtain ⟨⟨w, hw⟩, -⟩ := h y (by simp)
        refine ⟨'(', w ++ ((l.flatMap fun x => "\n    ".toList ++ x.1) ++ ("\n    ;".toList ++ t)), ?_, by decide⟩
        have : ∀ s, ows ("\n    ".toList ++ (y.1 ++ s)) = y.1 ++ s := by
          intro s
          have : ows ("\n    ".toList ++ (y.1 ++ s)) = ows (y.1 ++ s) := by
            simp [ows, owsGo, isBlank]
          rw [this, hw]
          exact ows_cons (by decide) (by decide)
        rw [List.flatMap_cons, List.append_assoc, List.append_assoc, this, hw]
        rfl
    obtain ⟨c, v, hv, hc⟩ := h2
    rw [List.flatMap_cons, List.append_assoc, List.append_assoc, h1]
    simp only [actsP, hK k (by omega)]
    have h3 : lit "," (ows ((l.flatMap fun x => "\n    ".toList ++ x.1) ++ ("\n    ;".toList ++ t))) = none := by
      rw [hv]; exact lit_head (c := ',') (u := []) (by simp) (Ne.symm hc)
    have := hK' k (by omega) m (by simp at hm; omega)
    simp only [h3, this]
    simp

theorem puppet_read {pc : PcSymm} {ref : ℕ → String × Ex} {acts : List (List ℕ)} {t : List Char}
    (hR : RefsOk isPred pc ref) (h : puppetText pc (fun r => exText (refEx ref r)) acts = some t)
    (hr : ∀ vals ∈ acts, guardEqs pc ref vals ≠ []) (hne : acts ≠ []) :
    ∃ u Ts, t = "\n  ".toList ++ u ∧ List.Forall₂ (IsTree pc ref) acts Ts ∧
      ∀ rest, AtLast (fun k => puppetP isPred k (u ++ rest)) (some (Ts, rest)) := by
  unfold puppetText at h
  rw [Option.map_eq_some_iff] at h
  obtain ⟨ts, hts, h⟩ := h
  have key : ∃ l : List (List Char × ActTree), l.map Prod.fst = ts ∧
      List.Forall₂ (IsTree pc ref) acts (l.map Prod.snd) ∧
      ∀ x ∈ l, (∃ u, x.1 = '(' :: u) ∧ ∀ rest, AtLast (fun k => actP isPred k (x.1 ++ rest)) (some (x.2, rest)) := by
    clear h hne
    induction acts generalizing ts with
    | nil => simp at hts; subst hts; exact ⟨[], rfl, .nil, by simp⟩
    | cons a acts ih =>
      rw [List.mapM_cons] at hts
      simp only [Option.bind_eq_bind, Option.bind_eq_some_iff, Option.pure_def, Option.some.injEq] at hts
      obtain ⟨y, hy, ys, hys, rfl⟩ := hts
      obtain ⟨l, h1, h2, h3⟩ := ih (fun v hv => hr v (by simp [hv])) ys hys
      obtain ⟨T, hT, hu, hrd⟩ := actText_read hR hy (hr a (by simp))
      refine ⟨(y, T) :: l, by simp [h1], .cons hT h2, ?_⟩
      intro x hx
      rcases List.mem_cons.1 hx with rfl | hx
      · exact ⟨hu, hrd⟩
      · exact h3 x hx
  obtain ⟨l, h1, h2, h3⟩ := key
  have hts' : ts ≠ [] := by
    rintro rfl
    have := h2.length_eq
    have hl : l = [] := by simpa using h1
    simp [hl] at this
    exact hne this
  rw [if_neg hts'] at h
  refine ⟨"puppet:".toList ++ (ts.flatMap fun t => "\n    ".toList ++ t) ++ "\n    ;".toList, l.map Prod.snd, ?_, h2, ?_⟩
  · rw [← h]; simp
  · intro rest
    obtain ⟨K, hK⟩ := acts_read l [] rest h3
    refine ⟨K + l.length + 1, fun k hk => ?_⟩
    have hfl : (ts.flatMap fun t => "\n    ".toList ++ t) = l.flatMap fun x => "\n    ".toList ++ x.1 := by
      rw [← h1, List.flatMap_map]
    have hlit : ∀ s, lit "puppet:" ("puppet:".toList ++ s) = some s := fun s => by rw [lit, litL_app]
    simp only [puppetP, List.append_assoc]
    rw [hlit]
    have := hK k (by omega) k (by omega)
    rw [hfl]
    simp only [this]
    have ho : ows (';' :: rest) = ';' :: rest := ows_cons (by decide) (by decide)
    simp [ho, lit, litL]

end Verif.Proofs
